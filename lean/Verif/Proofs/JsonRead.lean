import Verif.Proofs.JsonText

namespace Hound.JsonText
open Spec
open Hound.Config (Json)

/-! ### The text in runes -/

/-- A string between its quotation marks, in runes. -/
def rq (s : Bytes) : List Nat := (pieces s.length s).flatMap escP

mutual
def rtext : Json → List Nat
  | .null => [110, 117, 108, 108]
  | .bool b => if b then [116, 114, 117, 101] else [102, 97, 108, 115, 101]
  | .num n => (Client.fmtD n).map UInt8.toNat
  | .str s => 34 :: (rq s ++ [34])
  | .arr xs => 91 :: (relems xs ++ [93])
  | .obj ms => 123 :: (rmembers ms ++ [125])
def relems : List Json → List Nat
  | [] => []
  | x :: xs => rtext x ++ (if xs.isEmpty then [] else 44 :: relems xs)
def rmembers : List (Bytes × Json) → List Nat
  | [] => []
  | m :: ms => rmember m ++ (if ms.isEmpty then [] else 44 :: rmembers ms)
def rmember : Bytes × Json → List Nat
  | (k, v) => 34 :: (rq k ++ 34 :: 58 :: rtext v)
end

mutual
/-- The value that is read, when `g` says what becomes of strings. -/
def conv {σ : Type} (g : Bytes → σ) : Json → Value σ
  | .null => .null
  | .bool b => .bool b
  | .num n => .num n
  | .str s => .str (g s)
  | .arr xs => .arr (convs g xs)
  | .obj ms => .obj (convMembers g ms)
def convs {σ : Type} (g : Bytes → σ) : List Json → List (Value σ)
  | [] => []
  | x :: xs => conv g x :: convs g xs
def convMembers {σ : Type} (g : Bytes → σ) : List (Bytes × Json) → List (σ × Value σ)
  | [] => []
  | m :: ms => convMember g m :: convMembers g ms
def convMember {σ : Type} (g : Bytes → σ) : Bytes × Json → σ × Value σ
  | (k, v) => (g k, conv g v)
end

theorem encodeRaw_nats {l : List Nat} (h : ∀ x ∈ l, x < 128) : l.flatMap encodeRaw = l.map UInt8.ofNat := by
  induction l with
  | nil => rfl
  | cons x l ih =>
    rw [List.flatMap_cons, encodeRaw_lt (h x (by simp)), ih fun y hy => h y (by simp [hy])]
    rfl

theorem encodeRaw_cons {x : Nat} (h : x < 128) (l : List Nat) :
    (x :: l).flatMap encodeRaw = UInt8.ofNat x :: l.flatMap encodeRaw := by
  rw [List.flatMap_cons, encodeRaw_lt h]; rfl

theorem quote_eq (s : Bytes) : quote s = (rq s).flatMap encodeRaw := quoteLoop_eq _ _

theorem fmtD_ascii (n : Int) : ∀ b ∈ Client.fmtD n, b < 128 := by
  intro b hb
  have hd : ∀ m, ∀ b ∈ Client.natDigits m, b < 128 := by
    intro m b hb
    have := (Client.natDigits_numeral m).2.1 b hb
    exact UInt8.lt_of_le_of_lt this.2 (by decide)
  unfold Client.fmtD at hb
  split at hb
  · rcases List.mem_cons.1 hb with rfl | hb
    · decide
    · exact hd _ b hb
  · exact hd _ b hb

mutual
theorem text_eq : ∀ v : Json, text v = (rtext v).flatMap encodeRaw
  | .null => rfl
  | .bool b => by cases b <;> rfl
  | .num n => by rw [text, rtext]; exact (encodeRaw_ascii (fmtD_ascii n)).symm
  | .str s => by
    rw [text, rtext, encodeRaw_cons (by omega), List.flatMap_append, quote_eq]; rfl
  | .arr xs => by
    rw [text, rtext, encodeRaw_cons (by omega), List.flatMap_append, elemsText_eq xs]; rfl
  | .obj ms => by
    rw [text, rtext, encodeRaw_cons (by omega), List.flatMap_append, membersText_eq ms]; rfl
theorem elemsText_eq : ∀ xs : List Json, elemsText xs = (relems xs).flatMap encodeRaw
  | [] => rfl
  | x :: xs => by
    rw [elemsText, relems, List.flatMap_append, text_eq x, elemsText_eq xs]
    cases xs <;> rfl
theorem membersText_eq : ∀ ms : List (Bytes × Json), membersText ms = (rmembers ms).flatMap encodeRaw
  | [] => rfl
  | m :: ms => by
    rw [membersText, rmembers, List.flatMap_append, memberText_eq m, membersText_eq ms]
    cases ms <;> rfl
theorem memberText_eq : ∀ m : Bytes × Json, memberText m = (rmember m).flatMap encodeRaw
  | (k, v) => by
    rw [memberText, rmember, encodeRaw_cons (by omega), List.flatMap_append, encodeRaw_cons (by omega),
      encodeRaw_cons (by omega), quote_eq, text_eq v]
    rfl
end

/-! ### Reading it back -/

theorem skip_of {c : Nat} (h : 33 ≤ c) (t : List Nat) : skip (c :: t) = c :: t := by
  have : (decide (c = 32) || decide (c = 9) || decide (c = 10) || decide (c = 13)) = false := by
    simp only [Bool.or_eq_false_iff, decide_eq_false_iff_not]; omega
  rw [skip, List.dropWhile_cons, this]; rfl

section
variable {σ : Type} {unq : List Nat → Option σ} {g : Bytes → σ} {code : Nat → List Nat}

theorem code_cons (hc : Coding code) {x : Nat} (h : x < 128) (l : List Nat) :
    (x :: l).flatMap code = x :: l.flatMap code := by
  rw [List.flatMap_cons, hc.ascii x h]; rfl

theorem fmtD_code (hc : Coding code) (n : Int) :
    ((Client.fmtD n).map UInt8.toNat).flatMap code = (Client.fmtD n).map UInt8.toNat := by
  apply flatMap_ascii hc
  intro x hx
  obtain ⟨b, hb, rfl⟩ := List.mem_map.1 hx
  exact UInt8.lt_iff_toNat_lt.1 (fmtD_ascii n b hb)

theorem natDigits_head (n : Nat) : ∃ c t, (Client.natDigits n).map UInt8.toNat = c :: t ∧ 48 ≤ c ∧ c ≤ 57 := by
  obtain ⟨h1, h2, _⟩ := Client.natDigits_numeral n
  obtain ⟨c, t, e⟩ := List.exists_cons_of_ne_nil h1
  have := isDigit_of (h2 c (by rw [e]; simp))
  simp only [isDigit, Bool.and_eq_true, decide_eq_true_eq] at this
  exact ⟨_, _, by rw [e]; rfl, this⟩

theorem value_num (fuel : Nat) (n : Int) {rest : List Nat} (h : Stop rest) :
    value unq (fuel + 1) ((Client.fmtD n).map UInt8.toNat ++ rest) = some (.num n, rest) := by
  unfold Client.fmtD
  split
  · rename_i hn
    have e : (((45 : UInt8) :: Client.natDigits n.natAbs).map UInt8.toNat ++ rest) =
        45 :: ((Client.natDigits n.natAbs).map UInt8.toNat ++ rest) := rfl
    rw [e, value, skip_of (by omega)]
    simp only [Nat.reduceEqDiff, if_false, if_true, digits_nat _ h, Option.map_some, Option.some.injEq, Prod.mk.injEq,
      and_true, Value.num.injEq]
    omega
  · rename_i hn
    obtain ⟨c, t, e, h1, h2⟩ := natDigits_head n.natAbs
    have hd := digits_nat n.natAbs h
    rw [e] at hd ⊢
    rw [List.cons_append] at hd ⊢
    rw [value, skip_of (by omega)]
    simp only [if_neg (show ¬ c = 34 by omega), if_neg (show ¬ c = 91 by omega), if_neg (show ¬ c = 123 by omega),
      if_neg (show ¬ c = 110 by omega), if_neg (show ¬ c = 116 by omega), if_neg (show ¬ c = 102 by omega),
      if_neg (show ¬ c = 45 by omega), hd, Option.map_some, Option.some.injEq, Prod.mk.injEq, and_true, Value.num.injEq]
    omega

/-- A value begins with something that is neither blank nor a closing bracket. -/
theorem rtext_head (hc : Coding code) (v : Json) : ∃ c t, (rtext v).flatMap code = c :: t ∧ 33 ≤ c ∧ c ≠ 93 := by
  cases v with
  | null => exact ⟨_, _, by rw [rtext, code_cons hc (by omega)], by omega, by omega⟩
  | bool b =>
    cases b
    · exact ⟨_, _, by rw [rtext, if_neg (by simp), code_cons hc (by omega)], by omega, by omega⟩
    · exact ⟨_, _, by rw [rtext, if_pos rfl, code_cons hc (by omega)], by omega, by omega⟩
  | num n =>
    rw [rtext, fmtD_code hc]
    unfold Client.fmtD
    split
    · exact ⟨45, _, rfl, by omega, by omega⟩
    · obtain ⟨c, t, e, h1, h2⟩ := natDigits_head n.natAbs
      exact ⟨c, t, e, by omega, by omega⟩
  | str s => exact ⟨_, _, by rw [rtext, code_cons hc (by omega)], by omega, by omega⟩
  | arr xs => exact ⟨_, _, by rw [rtext, code_cons hc (by omega)], by omega, by omega⟩
  | obj ms => exact ⟨_, _, by rw [rtext, code_cons hc (by omega)], by omega, by omega⟩

theorem stop_of {c : Nat} (h : isDigit c = false) (t : List Nat) : Stop (c :: t) := by
  rintro _ _ e
  cases e
  exact h

mutual
theorem value_text (hc : Coding code) (hu : ∀ s, unq ((rq s).flatMap code) = some (g s)) : ∀ (v : Json) (fuel : Nat)
    (rest : List Nat), ((rtext v).flatMap code).length < fuel → Stop rest →
    value unq fuel ((rtext v).flatMap code ++ rest) = some (conv g v, rest)
  | v, 0, _ => fun h _ => absurd h (Nat.not_lt_zero _)
  | .null, fuel + 1, rest => fun _ _ => by
    rw [rtext, flatMap_ascii hc (by decide), value]
    simp [skip, word, conv]
  | .bool b, fuel + 1, rest => fun _ _ => by
    cases b
    · rw [rtext, if_neg (by simp), flatMap_ascii hc (by decide), value]
      simp [skip, word, conv]
    · rw [rtext, if_pos rfl, flatMap_ascii hc (by decide), value]
      simp [skip, word, conv]
  | .num n, fuel + 1, rest => fun _ hs => by
    rw [rtext, fmtD_code hc, value_num fuel n hs, conv]
  | .str s, fuel + 1, rest => fun _ _ => by
    rw [rtext, code_cons hc (by omega), List.flatMap_append, flatMap_ascii hc (l := [34]) (by decide), List.cons_append,
      List.append_assoc, value, skip_of (by omega)]
    have := scan_lit hc (pieces_sound s) rest
    have e : lit code (pieces s.length s) = (rq s).flatMap code := rfl
    rw [e] at this
    simp only [if_true, List.cons_append, List.nil_append, this, hu, Option.map_some, conv]
  | .arr xs, fuel + 1, rest => fun hf _ => by
    rw [rtext, code_cons hc (by omega), List.flatMap_append, flatMap_ascii hc (l := [93]) (by decide)] at hf ⊢
    simp only [List.length_cons, List.length_append, List.length_nil] at hf
    rw [List.cons_append, List.append_assoc, value, skip_of (by omega)]
    simp only [Nat.reduceEqDiff, if_false, if_true, List.cons_append, List.nil_append]
    cases xs with
    | nil =>
      rw [relems, List.flatMap_nil, List.nil_append, skip_of (by omega)]
      simp [conv, convs]
    | cons x xs =>
      have ih := elems_text hc hu x xs fuel rest (by omega)
      obtain ⟨c, t, e, h1, h2⟩ := rtext_head hc x
      have e' : (relems (x :: xs)).flatMap code ++ 93 :: rest =
          c :: (t ++ ((if xs.isEmpty then [] else 44 :: relems xs).flatMap code ++ 93 :: rest)) := by
        rw [relems, List.flatMap_append, e]; simp
      rw [e'] at ih ⊢
      rw [skip_of h1]
      simp only [if_neg h2, ih, Option.map_some, conv]
  | .obj ms, fuel + 1, rest => fun hf _ => by
    rw [rtext, code_cons hc (by omega), List.flatMap_append, flatMap_ascii hc (l := [125]) (by decide)] at hf ⊢
    simp only [List.length_cons, List.length_append, List.length_nil] at hf
    rw [List.cons_append, List.append_assoc, value, skip_of (by omega)]
    simp only [Nat.reduceEqDiff, if_false, if_true, List.cons_append, List.nil_append]
    cases ms with
    | nil =>
      rw [rmembers, List.flatMap_nil, List.nil_append, skip_of (by omega)]
      simp [conv, convMembers]
    | cons m ms =>
      have ih := members_text hc hu m ms fuel rest (by omega)
      obtain ⟨c, t, e, h1, h2⟩ : ∃ c t, (rmember m).flatMap code = c :: t ∧ 33 ≤ c ∧ c ≠ 125 := by
        obtain ⟨k, v⟩ := m
        exact ⟨_, _, by rw [rmember, code_cons hc (by omega)], by omega, by omega⟩
      have e' : (rmembers (m :: ms)).flatMap code ++ 125 :: rest =
          c :: (t ++ ((if ms.isEmpty then [] else 44 :: rmembers ms).flatMap code ++ 125 :: rest)) := by
        rw [rmembers, List.flatMap_append, e]; simp
      rw [e'] at ih ⊢
      rw [skip_of h1]
      simp only [if_neg h2, ih, Option.map_some, conv]
theorem elems_text (hc : Coding code) (hu : ∀ s, unq ((rq s).flatMap code) = some (g s)) : ∀ (x : Json) (xs : List Json)
    (fuel : Nat) (rest : List Nat), ((relems (x :: xs)).flatMap code).length + 2 ≤ fuel →
    elems unq fuel ((relems (x :: xs)).flatMap code ++ 93 :: rest) = some (convs g (x :: xs), rest)
  | x, xs, 0, _ => fun h => absurd h (by omega)
  | x, [], fuel + 1, rest => fun h => by
    simp only [relems, List.isEmpty_nil, if_true, List.append_nil] at h ⊢
    rw [elems, value_text hc hu x fuel _ (by omega) (stop_of (by decide) _)]
    simp [skip_of, convs]
  | x, y :: ys, fuel + 1, rest => fun h => by
    rw [relems, List.isEmpty_cons, if_neg (by simp), List.flatMap_append, code_cons hc (by omega)] at h ⊢
    simp only [List.length_append, List.length_cons] at h
    rw [List.append_assoc, List.cons_append, elems, value_text hc hu x fuel _ (by omega) (stop_of (by decide) _)]
    simp only []
    rw [skip_of (by omega)]
    simp only [Nat.reduceEqDiff, if_false, if_true]
    rw [elems_text hc hu y ys fuel rest (by omega)]
    rfl
theorem members_text (hc : Coding code) (hu : ∀ s, unq ((rq s).flatMap code) = some (g s)) : ∀ (m : Bytes × Json)
    (ms : List (Bytes × Json)) (fuel : Nat) (rest : List Nat),
    ((rmembers (m :: ms)).flatMap code).length + 2 ≤ fuel →
    members unq fuel ((rmembers (m :: ms)).flatMap code ++ 125 :: rest) = some (convMembers g (m :: ms), rest)
  | m, ms, 0, _ => fun h => absurd h (by omega)
  | (k, v), [], fuel + 1, rest => fun h => by
    simp only [rmembers, List.isEmpty_nil, if_true, List.append_nil, rmember] at h ⊢
    rw [code_cons hc (by omega), List.flatMap_append, code_cons hc (by omega), code_cons hc (by omega)] at h ⊢
    simp only [List.length_append, List.length_cons] at h
    rw [members, List.cons_append, skip_of (by omega), List.append_assoc]
    have hs := scan_lit hc (pieces_sound k) (58 :: ((rtext v).flatMap code ++ 125 :: rest))
    have e : lit code (pieces k.length k) = (rq k).flatMap code := rfl
    rw [e] at hs
    simp only [if_true, List.cons_append, hs, hu]
    rw [skip_of (by omega)]
    simp only [if_true]
    rw [value_text hc hu v fuel _ (by omega) (stop_of (by decide) _)]
    simp [skip_of, convMembers, convMember]
  | (k, v), n :: ns, fuel + 1, rest => fun h => by
    rw [rmembers, List.isEmpty_cons, if_neg (by simp), rmember, List.flatMap_append, code_cons hc (by omega),
      List.flatMap_append, code_cons hc (by omega), code_cons hc (by omega), code_cons hc (by omega)] at h ⊢
    simp only [List.length_append, List.length_cons] at h
    have ih := members_text hc hu n ns fuel rest (by omega)
    rw [members, List.cons_append, List.cons_append, skip_of (by omega), List.append_assoc, List.append_assoc]
    have hs := scan_lit hc (pieces_sound k) (58 :: ((rtext v).flatMap code ++ 44 :: ((rmembers (n :: ns)).flatMap code ++
      125 :: rest)))
    have e : lit code (pieces k.length k) = (rq k).flatMap code := rfl
    rw [e] at hs
    simp only [if_true, List.cons_append, hs, hu]
    rw [skip_of (by omega)]
    simp only [if_true]
    rw [value_text hc hu v fuel _ (by omega) (stop_of (by decide) _)]
    simp only []
    rw [skip_of (by omega)]
    simp only [Nat.reduceEqDiff, if_false, if_true]
    rw [ih]
    rfl
end

end

/-! ### The runes are characters -/

def AllValid (l : List Nat) : Prop := ∀ r ∈ l, validRune r = true

theorem allValid_ascii {l : List Nat} (h : ∀ x ∈ l, x < 128) : AllValid l := fun r hr =>
  validRune_of (by have := h r hr; omega)

theorem allValid_append {a b : List Nat} (ha : AllValid a) (hb : AllValid b) : AllValid (a ++ b) := fun r hr =>
  (List.mem_append.1 hr).elim (ha r) (hb r)

theorem allValid_cons {x : Nat} {l : List Nat} (hx : x < 128) (hl : AllValid l) : AllValid (x :: l) :=
  allValid_append (allValid_ascii (l := [x]) (by simpa using hx)) hl

theorem written_valid {r : Nat} {e : List Nat} (hv : validRune r = true) (h : Written r e) : AllValid e := by
  rcases h with ⟨rfl, _⟩ | ⟨x, rfl, hx, _⟩ | ⟨a, b, c, d, rfl, _, hp⟩
  · intro x hx; rw [List.mem_singleton.1 hx]; exact hv
  · exact allValid_ascii (by simpa using hx)
  · exact allValid_cons (by omega) (allValid_cons (by omega) (allValid_ascii fun x hx => (hp x hx).2))

theorem rq_valid (s : Bytes) : AllValid (rq s) := by
  intro r hr
  obtain ⟨p, hp, hr⟩ := List.mem_flatMap.1 hr
  have := pieces_sound s p hp
  exact written_valid this.1 (escP_written this.2) r hr

mutual
theorem rtext_valid : ∀ v : Json, AllValid (rtext v)
  | .null => allValid_ascii (by rw [rtext]; decide)
  | .bool b => by cases b <;> exact allValid_ascii (by rw [rtext]; decide)
  | .num n => by
    rw [rtext]
    apply allValid_ascii
    intro x hx
    obtain ⟨b, hb, rfl⟩ := List.mem_map.1 hx
    exact UInt8.lt_iff_toNat_lt.1 (fmtD_ascii n b hb)
  | .str s => by
    rw [rtext]
    exact allValid_cons (by omega) (allValid_append (rq_valid s) (allValid_ascii (by decide)))
  | .arr xs => by
    rw [rtext]
    exact allValid_cons (by omega) (allValid_append (relems_valid xs) (allValid_ascii (by decide)))
  | .obj ms => by
    rw [rtext]
    exact allValid_cons (by omega) (allValid_append (rmembers_valid ms) (allValid_ascii (by decide)))
theorem relems_valid : ∀ xs : List Json, AllValid (relems xs)
  | [] => by rw [relems]; exact allValid_ascii (by decide)
  | x :: xs => by
    rw [relems]
    refine allValid_append (rtext_valid x) ?_
    split
    · exact allValid_ascii (by decide)
    · exact allValid_cons (by omega) (relems_valid xs)
theorem rmembers_valid : ∀ ms : List (Bytes × Json), AllValid (rmembers ms)
  | [] => by rw [rmembers]; exact allValid_ascii (by decide)
  | m :: ms => by
    rw [rmembers]
    refine allValid_append (rmember_valid m) ?_
    split
    · exact allValid_ascii (by decide)
    · exact allValid_cons (by omega) (rmembers_valid ms)
theorem rmember_valid : ∀ m : Bytes × Json, AllValid (rmember m)
  | (k, v) => by
    rw [rmember]
    exact allValid_cons (by omega) (allValid_append (rq_valid k) (allValid_cons (by omega) (allValid_cons (by omega)
      (rtext_valid v))))
end

/-! ### The two readers -/

theorem bodyLoop_eq : ∀ (rs : List Nat), AllValid rs → ∀ fuel, (rs.flatMap encodeRaw).length ≤ fuel →
    bodyLoop fuel (rs.flatMap encodeRaw) = rs.flatMap Ui.units := by
  intro rs
  induction rs with
  | nil => intro _ fuel _; cases fuel <;> rfl
  | cons r rs ih =>
    intro h fuel hl
    have hv := h r (by simp)
    rw [List.flatMap_cons] at hl ⊢
    obtain ⟨b, u, hb⟩ := List.exists_cons_of_ne_nil (encodeRaw_ne_nil r)
    have hd := decode_encode hv (rs.flatMap encodeRaw)
    rw [List.length_append] at hl
    have hpos : 0 < (encodeRaw r).length := by rw [hb]; simp
    obtain ⟨fuel, rfl⟩ : ∃ f, fuel = f + 1 := ⟨fuel - 1, by omega⟩
    have hdrop : (encodeRaw r ++ rs.flatMap encodeRaw).drop (encodeRaw r).length = rs.flatMap encodeRaw := List.drop_left
    have hc : encodeRaw r ++ rs.flatMap encodeRaw = b :: (u ++ rs.flatMap encodeRaw) := by rw [hb]; rfl
    rw [hc] at hd hdrop ⊢
    rw [bodyLoop]
    simp only [hd, hdrop]
    rw [ih (fun x hx => h x (by simp [hx])) fuel (by omega)]
    rfl

/-- A string as it reaches the client. -/
def forClient (s : Bytes) : Bytes := (chars s).flatMap encodeRaw

/-- A string as it reaches the page. -/
def forPage (s : Bytes) : Ui.JsStr := (chars s).flatMap Ui.units

theorem goStrings (s : Bytes) : (fun s => goUnquote s.length s) ((rq s).flatMap goCode) = some (forClient s) :=
  goUnquote_lit (pieces_sound s) _ (Nat.le_refl _)

theorem jsStrings (s : Bytes) : (fun s => jsUnquote s.length s) ((rq s).flatMap jsCode) = some (forPage s) :=
  jsUnquote_lit (pieces_sound s) _ (Nat.le_refl _)

theorem encode_go (v : Json) : (encode v).map UInt8.toNat = (rtext v).flatMap goCode ++ [10] := by
  rw [encode, text_eq, List.map_append, List.map_flatMap]
  rfl

theorem encode_js (v : Json) : (bodyText (encode v)).map UInt16.toNat = (rtext v).flatMap jsCode ++ [10] := by
  have e : encode v = (rtext v ++ [10]).flatMap encodeRaw := by
    rw [encode, text_eq, List.flatMap_append]; rfl
  rw [e, bodyText, bodyLoop_eq _ (allValid_append (rtext_valid v) (allValid_ascii (by decide))) _ (Nat.le_refl _),
    List.map_flatMap, List.flatMap_append]
  rfl

theorem goRead_encode (v : Json) : goRead (encode v) = some (conv forClient v) := by
  rw [goRead, encode_go, readValue, value_text goCoding goStrings v _ [10] (by rw [List.length_append]; omega) (stop_of (by decide) _)]
  rfl

theorem jsRead_encode (v : Json) : jsRead (encode v) = some (conv forPage v) := by
  rw [jsRead, encode_js, readValue, value_text jsCoding jsStrings v _ [10] (by rw [List.length_append]; omega) (stop_of (by decide) _)]
  rfl

end Hound.JsonText
