import Verif.Model.JsonText
import Verif.Proofs.TextFile
import Verif.Proofs.Client
import Verif.Proofs.UiUrl
import Verif.Spec.Wire

namespace Hound.JsonText
open Spec

/-! ### Pieces of a string: a rune, or a byte that is none -/

/-- What `quoteLoop` sees: the runes, each with a mark whether it stands for a bad byte. -/
def pieces : Nat → Bytes → List (Rune × Bool)
  | 0, _ => []
  | _ + 1, [] => []
  | fuel + 1, b :: t =>
    let d := decodeRune (b :: t)
    if b < 128 then (b.toNat, false) :: pieces fuel t
    else if d.2 = 1 then (runeError, true) :: pieces fuel t
    else (d.1, false) :: pieces fuel ((b :: t).drop d.2)

def chars (s : Bytes) : List Rune := (pieces s.length s).map (·.1)

/-- What a rune is decoded to begin with. -/
theorem decode_at {b : UInt8} {t : Bytes} (h : ¬ b < 128) (h1 : (decodeRune (b :: t)).2 ≠ 1) :
    validRune (decodeRune (b :: t)).1 = true ∧ 128 ≤ (decodeRune (b :: t)).1 ∧
    encodeRaw (decodeRune (b :: t)).1 = (b :: t).take (decodeRune (b :: t)).2 ∧
    0 < (decodeRune (b :: t)).2 := by
  obtain ⟨r, hr, he, _, hp⟩ := decode_sound (b := b) (t := t) (.inr h1)
  have e : decodeRune (b :: t) = (r, (encodeRaw r).length) := by
    have := decode_encode hr ((b :: t).drop (decodeRune (b :: t)).2)
    rwa [he, List.take_append_drop, ← he] at this
  have e1 : (decodeRune (b :: t)).1 = r := by rw [e]
  rw [e1]
  refine ⟨hr, ?_, he, hp⟩
  apply Nat.le_of_not_lt
  intro hlt
  rw [encodeRaw, if_pos (show r < 0x80 from hlt)] at he
  have hb : UInt8.ofNat r = b := by
    cases hn : (decodeRune (b :: t)).2 with
    | zero => omega
    | succ n => rw [hn, List.take_succ_cons] at he; exact (List.cons.inj he).1
  apply h
  rw [← hb, UInt8.lt_iff_toNat_lt, UInt8.toNat_ofNat']
  have hlt : (r : Nat) < 128 := hlt
  delta Rune at r
  show r % 256 < 128
  omega

theorem decode_bad {b : UInt8} {t : Bytes} (h : ¬ b < 128) (h1 : (decodeRune (b :: t)).2 = 1) (r : Nat)
    (hr : validRune r = true) : ¬ encodeRaw r <+: b :: t := by
  rintro ⟨u, hu⟩
  have e := decode_encode hr u
  rw [hu] at e
  have hl : (encodeRaw r).length = 1 := by rw [e] at h1; exact h1
  obtain ⟨x, hx⟩ := List.length_eq_one_iff.1 hl
  rcases encodeRaw_head hr hx with ⟨h2, _⟩ | h2
  · rw [hx] at hu
    simp only [List.singleton_append, List.cons.injEq] at hu
    rw [hu.1] at h2
    exact h (UInt8.lt_iff_toNat_lt.2 h2)
  · rw [hx] at hu
    simp only [List.singleton_append, List.cons.injEq] at hu
    have : (decodeRune (x :: t)).1 = r := by rw [hu.1, e]
    have hv : r < 128 ∨ 128 ≤ r := Nat.lt_or_ge _ _
    rcases hv with hv | hv
    · rw [encodeRaw, if_pos (show r < 0x80 from hv)] at hx
      simp only [List.cons.injEq, and_true] at hx
      rw [← hx, UInt8.toNat_ofNat'] at h2
      have : r % 2 ^ 8 ≤ r := Nat.mod_le _ _
      omega
    · unfold encodeRaw at hx
      rw [if_neg (show ¬ r < 0x80 by omega)] at hx
      repeat' split at hx
      all_goals simp at hx

theorem characters_pieces : ∀ (fuel : Nat) (s : Bytes), s.length ≤ fuel →
    Characters s ((pieces fuel s).map (·.1)) ∧ ∀ p ∈ pieces fuel s, validRune p.1 = true ∧
      (p.2 = true → p.1 = runeError) := by
  intro fuel
  induction fuel with
  | zero =>
    intro s hs
    rw [List.length_eq_zero_iff.1 (Nat.le_zero.1 hs)]
    exact ⟨.nil, by simp [pieces]⟩
  | succ fuel ih =>
    intro s hs
    cases s with
    | nil => exact ⟨.nil, by simp [pieces]⟩
    | cons b t =>
      have ht : t.length ≤ fuel := by simpa using hs
      simp only [pieces]
      split
      · rename_i hb
        have hb' : b.toNat < 128 := UInt8.lt_iff_toNat_lt.1 hb
        have hv : validRune b.toNat = true := validRune_of (by omega)
        refine ⟨?_, ?_⟩
        · have := Characters.char hv (ih t ht).1
          rwa [encodeRaw, if_pos (show b.toNat < 0x80 from hb'), UInt8.ofNat_toNat] at this
        · intro p hp
          rcases List.mem_cons.1 hp with rfl | hp
          · exact ⟨hv, by simp⟩
          · exact (ih t ht).2 p hp
      · rename_i hb
        split
        · rename_i h1
          refine ⟨.bad (decode_bad hb h1) (ih t ht).1, ?_⟩
          intro p hp
          rcases List.mem_cons.1 hp with rfl | hp
          · exact ⟨by decide, by simp⟩
          · exact (ih t ht).2 p hp
        · rename_i h1
          obtain ⟨hv, _, he, hp⟩ := decode_at hb h1
          have hl : ((b :: t).drop (decodeRune (b :: t)).2).length ≤ fuel := by
            rw [List.length_drop]; simp only [List.length_cons] at hs ⊢; omega
          refine ⟨?_, ?_⟩
          · have := Characters.char hv (ih _ hl).1
            rwa [he, List.take_append_drop] at this
          · intro p hp
            rcases List.mem_cons.1 hp with rfl | hp
            · exact ⟨hv, by simp⟩
            · exact (ih _ hl).2 p hp

theorem chars_characters (s : Bytes) : Characters s (chars s) := (characters_pieces _ s (Nat.le_refl _)).1

theorem prefix_eq {r r' : Rune} (h : validRune r = true) (h' : validRune r' = true) {t t' : Bytes}
    (e : encodeRaw r ++ t = encodeRaw r' ++ t') : r = r' ∧ t = t' := by
  have h1 := decode_encode h t
  rw [e, decode_encode h' t'] at h1
  have hr : r = r' := (Prod.mk.inj h1).1.symm
  subst hr
  exact ⟨rfl, List.append_cancel_left e⟩

/-- The characters of bytes are determined. -/
theorem characters_unique {s : Bytes} {rs : List Rune} (h : Characters s rs) : ∀ {rs'}, Characters s rs' → rs = rs' := by
  induction h with
  | nil =>
    intro rs' h'
    generalize hs : ([] : Bytes) = s at h'
    cases h' with
    | nil => rfl
    | char hv _ => exact absurd (List.append_eq_nil_iff.1 hs.symm).1 (encodeRaw_ne_nil _)
    | bad _ _ => cases hs
  | @char r t rs hv _ ih =>
    intro rs' h'
    generalize hs : encodeRaw r ++ t = s at h'
    cases h' with
    | nil => exact absurd (List.append_eq_nil_iff.1 hs).1 (encodeRaw_ne_nil _)
    | char hv' h' =>
      obtain ⟨e1, e2⟩ := prefix_eq hv hv' hs
      subst e1; subst e2
      rw [ih h']
    | bad hb h' => exact absurd ⟨t, hs⟩ (hb r hv)
  | @bad b t rs hb _ ih =>
    intro rs' h'
    generalize hs : b :: t = s at h'
    cases h' with
    | nil => cases hs
    | char hv' h' => exact absurd ⟨_, hs.symm⟩ (hb _ hv')
    | bad hb' h' =>
      cases hs
      rw [ih h']

theorem characters_text {rs : List Rune} (h : ∀ r ∈ rs, validRune r = true) : Characters (rs.flatMap encodeRaw) rs := by
  induction rs with
  | nil => exact .nil
  | cons r rs ih => exact .char (h r (by simp)) (ih fun r hr => h r (by simp [hr]))

theorem characters_valid {s : Bytes} {rs : List Rune} (h : Characters s rs) : ∀ r ∈ rs, validRune r = true := by
  induction h with
  | nil => simp
  | char hv _ ih => intro r hr; exact (List.mem_cons.1 hr).elim (fun e => e ▸ hv) (ih r)
  | bad _ _ ih =>
    intro r hr
    rcases List.mem_cons.1 hr with rfl | hr
    · decide
    · exact ih r hr

/-! ### Escapes -/

/-- The runes a piece is written with. -/
def escP (p : Rune × Bool) : List Nat :=
  if p.2 then [92, 117, 102, 102, 102, 100]
  else if p.1 < 128 then (quoteByte (UInt8.ofNat p.1)).map UInt8.toNat
  else if p.1 = 0x2028 ∨ p.1 = 0x2029 then [92, 117, 50, 48, 50, (hexLow (p.1 % 16)).toNat]
  else [p.1]

theorem encodeRaw_ascii : ∀ {l : Bytes}, (∀ b ∈ l, b < 128) → (l.map UInt8.toNat).flatMap encodeRaw = l := by
  intro l
  induction l with
  | nil => intro _; rfl
  | cons b l ih =>
    intro h
    have hb : b.toNat < 0x80 := UInt8.lt_iff_toNat_lt.1 (h b (by simp))
    rw [List.map_cons, List.flatMap_cons, ih fun x hx => h x (by simp [hx]), encodeRaw, if_pos hb]
    simp

theorem quoteByte_ascii {b : UInt8} (h : b < 128) : ∀ x ∈ quoteByte b, x < 128 :=
  Url.forall_u8 (P := fun b => b < 128 → ∀ x ∈ quoteByte b, x < 128) (by decide +kernel) b h

theorem quoteLoop_eq : ∀ (fuel : Nat) (s : Bytes),
    quoteLoop fuel s = ((pieces fuel s).flatMap escP).flatMap encodeRaw := by
  intro fuel
  induction fuel with
  | zero => intro s; rfl
  | succ fuel ih =>
    intro s
    cases s with
    | nil => rfl
    | cons b t =>
      simp only [quoteLoop, pieces]
      split
      · rename_i hb
        have hb' : b.toNat < 128 := UInt8.lt_iff_toNat_lt.1 hb
        rw [List.flatMap_cons, List.flatMap_append, ← ih]
        congr 1
        simp only [escP, Bool.false_eq_true, if_false, if_pos hb', UInt8.ofNat_toNat]
        exact (encodeRaw_ascii (quoteByte_ascii hb)).symm
      · rename_i hb
        split
        · rw [List.flatMap_cons, List.flatMap_append, ← ih]
          congr 1
        · rename_i h1
          obtain ⟨hv, h2, he, hp⟩ := decode_at hb h1
          split
          · rename_i h3
            rw [List.flatMap_cons, List.flatMap_append, ← ih]
            congr 1
            rcases h3 with h3 | h3 <;> simp only [escP, h3] <;> decide
          · rename_i h3
            rw [List.flatMap_cons, List.flatMap_append, ← ih]
            congr 1
            simp only [escP, Bool.false_eq_true, if_false, if_neg (Nat.not_lt.2 h2), if_neg h3, List.flatMap_cons,
              List.flatMap_nil, List.append_nil]
            exact he.symm

/-- An ordinary character inside a string. -/
def PlainChar (c : Nat) : Prop := 32 ≤ c ∧ c ≠ 34 ∧ c ≠ 92

/-- The ways a character is written. -/
def Written (r : Nat) (e : List Nat) : Prop :=
  (e = [r] ∧ PlainChar r) ∨ (∃ x, e = [92, x] ∧ x < 128 ∧ x ≠ 117 ∧ escaped x = some r) ∨
  ∃ a b c d, e = [92, 117, a, b, c, d] ∧ hex4 [a, b, c, d] = some (r, []) ∧ ∀ x ∈ [a, b, c, d], PlainChar x ∧ x < 128

def writtenB (r : Nat) (e : List Nat) : Bool :=
  match e with
  | [c] => c == r && decide (32 ≤ c ∧ c ≠ 34 ∧ c ≠ 92)
  | [k, x] => k == 92 && decide (x < 128 ∧ x ≠ 117) && escaped x == some r
  | [k, u, a, b, c, d] => k == 92 && u == 117 && hex4 [a, b, c, d] == some (r, []) &&
      [a, b, c, d].all fun x => decide (32 ≤ x ∧ x ≠ 34 ∧ x ≠ 92 ∧ x < 128)
  | _ => false

theorem written_of {r : Nat} {e : List Nat} (h : writtenB r e = true) : Written r e := by
  unfold writtenB at h
  split at h
  · simp only [Bool.and_eq_true, beq_iff_eq, decide_eq_true_eq] at h
    exact .inl ⟨by rw [h.1], h.1 ▸ h.2⟩
  · simp only [Bool.and_eq_true, beq_iff_eq, decide_eq_true_eq] at h
    exact .inr (.inl ⟨_, by rw [h.1.1], h.1.2.1, h.1.2.2, h.2⟩)
  · simp only [Bool.and_eq_true, beq_iff_eq, List.all_eq_true, decide_eq_true_eq] at h
    refine .inr (.inr ⟨_, _, _, _, by rw [h.1.1.1, h.1.1.2], h.1.2, fun x hx => ?_⟩)
    have := h.2 x hx
    exact ⟨⟨this.1, this.2.1, this.2.2.1⟩, this.2.2.2⟩
  · simp at h

theorem plainChar_of {r : Nat} (h : ¬ r < 128) : PlainChar r := ⟨by omega, by omega, by omega⟩

theorem escP_written {p : Rune × Bool} (hb : p.2 = true → p.1 = runeError) : Written p.1 (escP p) := by
  obtain ⟨r, b⟩ := p
  cases b with
  | true =>
    have : r = runeError := hb rfl
    subst this
    exact written_of (by decide)
  | false =>
    simp only [escP, Bool.false_eq_true, if_false]
    split
    · rename_i h
      exact written_of (Ui.forall_lt128 (P := fun r => writtenB r ((quoteByte (UInt8.ofNat r)).map UInt8.toNat) = true)
        (by decide +kernel) h)
    · rename_i h
      split
      · rename_i h3
        rcases h3 with h3 | h3 <;> subst h3 <;> exact written_of (by decide)
      · exact .inl ⟨rfl, plainChar_of h⟩

/-! ### Units of a reader -/

/-- How a reader sees a rune: ASCII as it is, others as units that are no ASCII. -/
structure Coding (code : Nat → List Nat) : Prop where
  ascii : ∀ r : Nat, r < 128 → code r = [r]
  other : ∀ r : Nat, validRune r = true → 128 ≤ r → ∀ u ∈ code r, 128 ≤ u

theorem flatMap_ascii {code : Nat → List Nat} (hc : Coding code) : ∀ {l : List Nat}, (∀ x ∈ l, x < 128) →
    l.flatMap code = l := by
  intro l
  induction l with
  | nil => intro _; rfl
  | cons x l ih =>
    intro h
    rw [List.flatMap_cons, hc.ascii x (h x (by simp)), ih fun y hy => h y (by simp [hy])]
    rfl

theorem scan_plain {c : Nat} (h : PlainChar c) (t : List Nat) :
    scanStr (c :: t) = (scanStr t).map fun p => (c :: p.1, p.2) := by
  obtain ⟨h1, h2, h3⟩ := h
  rw [scanStr.eq_def]
  simp only [if_neg h2, if_neg (Nat.not_lt.2 h1), if_neg h3]

theorem scan_plains : ∀ {l : List Nat}, (∀ x ∈ l, PlainChar x) → ∀ t,
    scanStr (l ++ t) = (scanStr t).map fun p => (l ++ p.1, p.2) := by
  intro l
  induction l with
  | nil => intro _ t; simp
  | cons x l ih =>
    intro h t
    rw [List.cons_append, scan_plain (h x (by simp)), ih fun y hy => h y (by simp [hy])]
    simp [Option.map_map, Function.comp_def]

theorem scan_escape (e : Nat) (t : List Nat) :
    scanStr (92 :: e :: t) = (scanStr t).map fun p => (92 :: e :: p.1, p.2) := by
  rw [scanStr.eq_def]
  simp

theorem scan_written {code : Nat → List Nat} (hc : Coding code) {r : Nat} {e : List Nat} (hv : validRune r = true)
    (h : Written r e) (t : List Nat) : scanStr (e.flatMap code ++ t) = (scanStr t).map fun p => (e.flatMap code ++ p.1, p.2) := by
  rcases h with ⟨rfl, hp⟩ | ⟨x, rfl, hx, _, _⟩ | ⟨a, b, c, d, rfl, _, hp⟩
  · rw [List.flatMap_cons, List.flatMap_nil, List.append_nil]
    apply scan_plains
    intro x hx
    by_cases h128 : r < 128
    · rw [hc.ascii r h128] at hx
      rw [List.mem_singleton.1 hx]; exact hp
    · have := hc.other r hv (by omega) x hx
      exact ⟨by omega, by omega, by omega⟩
  · rw [flatMap_ascii hc (by simpa using hx)]
    exact scan_escape x t
  · have ha : ∀ x ∈ [92, 117, a, b, c, d], x < 128 := by
      intro x hx
      rcases List.mem_cons.1 hx with rfl | hx
      · omega
      · rcases List.mem_cons.1 hx with rfl | hx
        · omega
        · exact (hp x hx).2
    rw [flatMap_ascii hc ha]
    show scanStr (92 :: 117 :: ([a, b, c, d] ++ t)) = _
    rw [scan_escape, scan_plains (fun x hx => (hp x hx).1)]
    simp [Option.map_map, Function.comp_def]

/-- What a reader sees between the quotation marks. -/
def lit (code : Nat → List Nat) (ps : List (Rune × Bool)) : List Nat := (ps.flatMap escP).flatMap code

/-- Pieces that stand for characters. -/
def Sound (ps : List (Rune × Bool)) : Prop := ∀ p ∈ ps, validRune p.1 = true ∧ (p.2 = true → p.1 = runeError)

theorem pieces_sound (s : Bytes) : Sound (pieces s.length s) := (characters_pieces _ s (Nat.le_refl _)).2

theorem scan_lit {code : Nat → List Nat} (hc : Coding code) : ∀ {ps : List (Rune × Bool)}, Sound ps → ∀ t,
    scanStr (lit code ps ++ 34 :: t) = some (lit code ps, t) := by
  intro ps
  induction ps with
  | nil => intro _ t; rw [scanStr.eq_def]; rfl
  | cons p ps ih =>
    intro h t
    have e : lit code (p :: ps) = (escP p).flatMap code ++ lit code ps := by
      simp [lit, List.flatMap_cons, List.flatMap_append]
    rw [e, List.append_assoc, scan_written hc (h p (by simp)).1 (escP_written (h p (by simp)).2), ih fun q hq => h q (by simp [hq])]
    rfl

/-! ### Strings as they are read -/

theorem hex4_append {a b c d r : Nat} (h : hex4 [a, b, c, d] = some (r, [])) (t : List Nat) :
    hex4 (a :: b :: c :: d :: t) = some (r, t) := by
  simp only [hex4] at h ⊢
  split at h
  · simp only [Option.some.injEq, Prod.mk.injEq] at h
    simp only [*, and_true] at *
  · simp at h

/-- The bytes of a rune. -/
def goCode (r : Nat) : List Nat := (encodeRaw r).map UInt8.toNat

/-- The code units of a rune. -/
def jsCode (r : Nat) : List Nat := (Ui.units r).map UInt16.toNat

theorem goCoding : Coding goCode := by
  constructor
  · intro r h
    rw [goCode, encodeRaw, if_pos (show r < 0x80 from h)]
    simp; omega
  · intro r hv h u hu
    have hv : r < 0xD800 ∨ (0xE000 ≤ r ∧ r ≤ 0x10FFFF) := by
      simpa [validRune, Bool.or_eq_true, Bool.and_eq_true] using hv
    obtain ⟨b, hb, rfl⟩ := List.mem_map.1 hu
    rw [encodeRaw_nat, if_neg (show ¬ r < 0x80 by omega)] at hb
    split at hb
    · simp only [List.mem_cons, List.not_mem_nil, or_false] at hb
      rcases hb with rfl | rfl <;> rw [UInt8.toNat_ofNat'] <;> omega
    · split at hb
      · simp only [List.mem_cons, List.not_mem_nil, or_false] at hb
        rcases hb with rfl | rfl | rfl <;> rw [UInt8.toNat_ofNat'] <;> omega
      · simp only [List.mem_cons, List.not_mem_nil, or_false] at hb
        rcases hb with rfl | rfl | rfl | rfl <;> rw [UInt8.toNat_ofNat'] <;> omega

theorem jsCoding : Coding jsCode := by
  constructor
  · intro r h
    rw [jsCode, Ui.units, if_pos (show r < 0x10000 by omega)]
    simp; omega
  · intro r hv h u hu
    have hv : r < 0xD800 ∨ (0xE000 ≤ r ∧ r ≤ 0x10FFFF) := by
      simpa [validRune, Bool.or_eq_true, Bool.and_eq_true] using hv
    obtain ⟨b, hb, rfl⟩ := List.mem_map.1 hu
    by_cases h2 : r < 0x10000
    · rw [Ui.units, if_pos h2] at hb
      simp only [List.mem_cons, List.not_mem_nil, or_false] at hb
      rw [hb, UInt16.toNat_ofNat']; omega
    · rw [Ui.units, if_neg h2] at hb
      simp only [List.mem_cons, List.not_mem_nil, or_false] at hb
      rcases hb with rfl | rfl <;> rw [UInt16.toNat_ofNat'] <;> omega

theorem lit_cons (code : Nat → List Nat) (p : Rune × Bool) (ps : List (Rune × Bool)) :
    lit code (p :: ps) = (escP p).flatMap code ++ lit code ps := by
  simp [lit, List.flatMap_cons, List.flatMap_append]

theorem goUnquote_nil (fuel : Nat) : goUnquote fuel [] = some [] := by cases fuel <;> rfl

theorem escaped_ascii {x r : Nat} (h : escaped x = some r) (hx : x < 128) : r < 128 := by
  unfold escaped at h
  repeat' split at h
  all_goals simp only [Option.some.injEq, reduceCtorEq] at h
  all_goals omega

theorem encodeRune_valid {r : Nat} (h : validRune r = true) : encodeRune r = encodeRaw r := by
  rw [encodeRune, if_pos h]

theorem encodeRaw_lt {r : Nat} (h : r < 128) : encodeRaw r = [UInt8.ofNat r] := by
  rw [encodeRaw, if_pos (show r < 0x80 from h)]

theorem goUnquote_written {r : Nat} {e : List Nat} (hv : validRune r = true) (h : Written r e) (fuel : Nat)
    (t : List Nat) :
    goUnquote (fuel + 1) (e.flatMap goCode ++ t) = (goUnquote fuel t).map (encodeRaw r ++ ·) := by
  have hs : ¬ (0xD800 ≤ r ∧ r < 0xE000) := by
    have : r < 0xD800 ∨ (0xE000 ≤ r ∧ r ≤ 0x10FFFF) := by
      simpa [validRune, Bool.or_eq_true, Bool.and_eq_true] using hv
    omega
  rcases h with ⟨rfl, hp⟩ | ⟨x, rfl, hx, hu, he⟩ | ⟨a, b, c, d, rfl, hh, hp⟩
  · rw [List.flatMap_cons, List.flatMap_nil, List.append_nil]
    by_cases h128 : r < 128
    · rw [goCoding.ascii r h128, List.singleton_append, goUnquote.eq_def]
      simp only []
      rw [if_neg hp.2.2, if_pos h128, encodeRaw_lt h128]
      simp
    · have hne : encodeRaw r ≠ [] := encodeRaw_ne_nil r
      obtain ⟨b, u, hb⟩ := List.exists_cons_of_ne_nil hne
      have hc : goCode r ++ t = b.toNat :: (u.map UInt8.toNat ++ t) := by rw [goCode, hb]; rfl
      have hge := goCoding.other r hv (by omega) b.toNat (by rw [goCode, hb]; simp)
      have hd : decodeRune ((b.toNat :: (u.map UInt8.toNat ++ t)).map UInt8.ofNat) = (r, (encodeRaw r).length) := by
        have : (b.toNat :: (u.map UInt8.toNat ++ t)).map UInt8.ofNat = encodeRaw r ++ t.map UInt8.ofNat := by
          rw [hb]; simp [Function.comp_def]
        rw [this, decode_encode hv]
      rw [hc, goUnquote.eq_def]
      simp only []
      rw [if_neg (by omega), if_neg (by omega)]
      simp only [hd, encodeRune_valid hv]
      congr 2
      rw [← hc]
      have : (encodeRaw r).length = (goCode r).length := by simp [goCode]
      rw [this, List.drop_left]
  · rw [flatMap_ascii goCoding (by simpa using hx)]
    have := escaped_ascii he hx
    simp only [List.cons_append, List.nil_append, goUnquote, if_pos, if_neg hu, he, encodeRaw_lt this]
  · have ha : ∀ x ∈ [92, 117, a, b, c, d], x < 128 := by
      intro x hx
      rcases List.mem_cons.1 hx with rfl | hx
      · omega
      · rcases List.mem_cons.1 hx with rfl | hx
        · omega
        · exact (hp x hx).2
    rw [flatMap_ascii goCoding ha]
    simp only [List.cons_append, List.nil_append, goUnquote, if_pos, hex4_append hh, if_neg hs, encodeRune_valid hv]

theorem goUnquote_lit : ∀ {ps : List (Rune × Bool)}, Sound ps → ∀ fuel, (lit goCode ps).length ≤ fuel →
    goUnquote fuel (lit goCode ps) = some ((ps.map (·.1)).flatMap encodeRaw) := by
  intro ps
  induction ps with
  | nil => intro _ fuel _; exact goUnquote_nil fuel
  | cons p ps ih =>
    intro h fuel hl
    rw [lit_cons] at hl ⊢
    have hv := (h p (by simp)).1
    have hw := escP_written (h p (by simp)).2
    have hpos : 0 < ((escP p).flatMap goCode).length := by
      apply List.length_pos_iff.2
      intro e
      have h1 := goUnquote_written hv hw 0 []
      rw [e] at h1
      simp only [goUnquote, Option.map_some, List.append_nil, Option.some.injEq] at h1
      exact encodeRaw_ne_nil _ h1.symm
    rw [List.length_append] at hl
    obtain ⟨fuel, rfl⟩ : ∃ f, fuel = f + 1 := ⟨fuel - 1, by omega⟩
    rw [goUnquote_written hv hw, ih (fun q hq => h q (by simp [hq])) fuel (by omega)]
    simp

theorem jsUnquote_nil (fuel : Nat) : jsUnquote fuel [] = some [] := by cases fuel <;> rfl

/-- Units that are no backslash stand for themselves. -/
theorem jsUnquote_units : ∀ {us : Ui.JsStr} (_ : ∀ u ∈ us, u ≠ 92) (fuel : Nat) (t : List Nat),
    (us.map UInt16.toNat ++ t).length ≤ fuel →
    (jsUnquote fuel (us.map UInt16.toNat ++ t)) = (jsUnquote (fuel - us.length) t).map (us ++ ·) := by
  intro us
  induction us with
  | nil => intro _ fuel t _; simp
  | cons u us ih =>
    intro h fuel t hl
    simp only [List.map_cons, List.cons_append, List.length_cons] at hl ⊢
    obtain ⟨fuel, rfl⟩ : ∃ f, fuel = f + 1 := ⟨fuel - 1, by omega⟩
    have hu : u.toNat ≠ 92 := fun e => h u (by simp) (UInt16.toNat_inj.1 e)
    rw [jsUnquote.eq_def]
    simp only []
    rw [if_neg hu, ih (fun x hx => h x (by simp [hx])) fuel t (by omega)]
    simp [Option.map_map, Function.comp_def, Nat.add_sub_add_right]

theorem jsUnquote_written {r : Nat} {e : List Nat} (hv : validRune r = true) (h : Written r e) (fuel : Nat)
    (t : List Nat) (hl : (e.flatMap jsCode ++ t).length ≤ fuel) : ∃ fuel', t.length ≤ fuel' ∧
    jsUnquote fuel (e.flatMap jsCode ++ t) = (jsUnquote fuel' t).map (Ui.units r ++ ·) := by
  have hlt : r < 128 ∨ 128 ≤ r := Nat.lt_or_ge _ _
  rcases h with ⟨rfl, hp⟩ | ⟨x, rfl, hx, hu, he⟩ | ⟨a, b, c, d, rfl, hh, hp⟩
  · rw [List.flatMap_cons, List.flatMap_nil, List.append_nil] at hl ⊢
    have h92 : ∀ u ∈ Ui.units r, u ≠ 92 := by
      intro u hu e
      have hm : u.toNat ∈ jsCode r := List.mem_map.2 ⟨u, hu, rfl⟩
      rcases hlt with h1 | h1
      · rw [jsCoding.ascii r h1] at hm
        exact hp.2.2 (by rw [← List.mem_singleton.1 hm, e]; rfl)
      · have := jsCoding.other r hv h1 _ hm
        rw [e] at this
        exact absurd this (by decide)
    refine ⟨fuel - (Ui.units r).length, ?_, jsUnquote_units h92 fuel t hl⟩
    have : (jsCode r).length = (Ui.units r).length := by simp [jsCode]
    rw [List.length_append, this] at hl
    omega
  · rw [flatMap_ascii jsCoding (by simpa using hx)] at hl ⊢
    have hr := escaped_ascii he hx
    simp only [List.cons_append, List.nil_append, List.length_cons] at hl
    obtain ⟨fuel, rfl⟩ : ∃ f, fuel = f + 1 := ⟨fuel - 1, by omega⟩
    refine ⟨fuel, by omega, ?_⟩
    simp only [List.cons_append, List.nil_append, jsUnquote, if_pos, if_neg hu, he]
    rw [Ui.units, if_pos (show r < 0x10000 by omega)]
    rfl
  · have ha : ∀ x ∈ [92, 117, a, b, c, d], x < 128 := by
      intro x hx
      rcases List.mem_cons.1 hx with rfl | hx
      · omega
      · rcases List.mem_cons.1 hx with rfl | hx
        · omega
        · exact (hp x hx).2
    have hr : r < 0x10000 := by
      have hun : ∀ {x y}, unhexNat x = some y → y < 16 := by
        intro x y h
        unfold unhexNat at h
        repeat' split at h
        all_goals simp only [Option.some.injEq, reduceCtorEq] at h
        all_goals omega
      simp only [hex4] at hh
      split at hh
      · rename_i h1 h2 h3 h4
        have := hun h1; have := hun h2; have := hun h3; have := hun h4
        simp only [Option.some.injEq, Prod.mk.injEq, and_true] at hh
        omega
      · simp at hh
    rw [flatMap_ascii jsCoding ha] at hl ⊢
    simp only [List.cons_append, List.nil_append, List.length_cons] at hl
    obtain ⟨fuel, rfl⟩ : ∃ f, fuel = f + 1 := ⟨fuel - 1, by omega⟩
    refine ⟨fuel, by omega, ?_⟩
    simp only [List.cons_append, List.nil_append, jsUnquote, if_pos, hex4_append hh]
    rw [Ui.units, if_pos hr]
    rfl

theorem jsUnquote_lit : ∀ {ps : List (Rune × Bool)}, Sound ps → ∀ fuel, (lit jsCode ps).length ≤ fuel →
    jsUnquote fuel (lit jsCode ps) = some ((ps.map (·.1)).flatMap Ui.units) := by
  intro ps
  induction ps with
  | nil => intro _ fuel _; exact jsUnquote_nil fuel
  | cons p ps ih =>
    intro h fuel hl
    rw [lit_cons] at hl ⊢
    obtain ⟨f', hf, e⟩ := jsUnquote_written (h p (by simp)).1 (escP_written (h p (by simp)).2) fuel _ hl
    rw [e, ih (fun q hq => h q (by simp [hq])) f' hf]
    simp

/-! ### Numbers -/

theorem natDigitsAux_head (fuel : Nat) : ∀ n, n < fuel → n ≠ 0 → ∃ d l, Client.natDigitsAux fuel n = d :: l ∧ d ≠ 48 := by
  induction fuel with
  | zero => intro n h; omega
  | succ fuel ih =>
    intro n hn h0
    simp only [Client.natDigitsAux]
    split
    · rename_i h
      refine ⟨_, _, rfl, ?_⟩
      intro e
      have e := congrArg UInt8.toNat e
      rw [Client.digit_ofNat h] at e
      simp at e; omega
    · obtain ⟨d, l, e, hd⟩ := ih (n / 10) (by omega) (by omega)
      exact ⟨d, l ++ _, by rw [e]; rfl, hd⟩

/-- What follows a number is no digit. -/
def Stop (rest : List Nat) : Prop := ∀ c t, rest = c :: t → isDigit c = false

theorem isDigit_of {c : UInt8} (h : 48 ≤ c ∧ c ≤ 57) : isDigit c.toNat = true := by
  have h1 := UInt8.le_iff_toNat_le.1 h.1
  have h2 := UInt8.le_iff_toNat_le.1 h.2
  have e1 : (48 : UInt8).toNat = 48 := rfl
  have e2 : (57 : UInt8).toNat = 57 := rfl
  simp only [isDigit, Bool.and_eq_true, decide_eq_true_eq]
  omega

theorem takeWhile_stop {rest : List Nat} (h : Stop rest) : rest.takeWhile isDigit = [] := by
  cases rest with
  | nil => rfl
  | cons c t => rw [List.takeWhile_cons, h c t rfl]; rfl

theorem digits_nat (n : Nat) {rest : List Nat} (h : Stop rest) :
    digits ((Client.natDigits n).map UInt8.toNat ++ rest) = some (n, rest) := by
  obtain ⟨h1, h2, h3⟩ := Client.natDigits_numeral n
  have ht : ((Client.natDigits n).map UInt8.toNat ++ rest).takeWhile isDigit = (Client.natDigits n).map UInt8.toNat := by
    rw [List.takeWhile_append_of_pos, takeWhile_stop h, List.append_nil]
    intro x hx
    obtain ⟨c, hc, rfl⟩ := List.mem_map.1 hx
    exact isDigit_of (h2 c hc)
  have hz : ¬ ((Client.natDigits n).map UInt8.toNat = [] ∨
      (((Client.natDigits n).map UInt8.toNat).head? = some 48 ∧ ((Client.natDigits n).map UInt8.toNat).length ≠ 1)) := by
    rintro (e | ⟨e1, e2⟩)
    · exact h1 (List.map_eq_nil_iff.1 e)
    · by_cases h0 : n = 0
      · subst h0; exact e2 rfl
      · obtain ⟨d, l, e, hd⟩ := natDigitsAux_head (n + 1) n (by omega) h0
        rw [Client.natDigits, e] at e1
        simp only [List.map_cons, List.head?_cons, Option.some.injEq] at e1
        exact hd (UInt8.toNat_inj.1 e1)
  simp only [digits, ht, if_neg hz, List.drop_left, Option.some.injEq, Prod.mk.injEq, and_true]
  rw [List.foldl_map]
  exact h3.symm

end Hound.JsonText
