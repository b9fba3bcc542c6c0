import Verif.Model.Client
import Verif.Spec.Terminal
import Verif.Spec.Api
import Verif.Proofs.Grep

namespace Hound.Client
open Spec

/-! ### Numerals -/

theorem digit_ofNat {d : Nat} (h : d < 10) : (UInt8.ofNat (48 + d)).toNat = 48 + d := by
  rw [UInt8.toNat_ofNat']
  omega

theorem natDigitsAux_numeral (fuel : Nat) : ∀ n, n < fuel → IsNumeral (natDigitsAux fuel n) n := by
  induction fuel with
  | zero => intro n h; omega
  | succ fuel ih =>
    intro n hn
    simp only [natDigitsAux]
    split
    · rename_i h
      refine ⟨by simp, ?_, ?_⟩
      · intro c hc
        rw [List.mem_singleton.1 hc]
        have := digit_ofNat h
        constructor <;> rw [UInt8.le_iff_toNat_le, this]
        · show 48 ≤ _; omega
        · show _ ≤ 57; omega
      · simp only [List.foldl_cons, List.foldl_nil, digit_ofNat h]
        omega
    · rename_i h
      obtain ⟨h1, h2, h3⟩ := ih (n / 10) (by omega)
      have hd : n % 10 < 10 := by omega
      refine ⟨by simp, ?_, ?_⟩
      · intro c hc
        rcases List.mem_append.1 hc with hc | hc
        · exact h2 c hc
        · rw [List.mem_singleton.1 hc]
          have := digit_ofNat hd
          constructor <;> rw [UInt8.le_iff_toNat_le, this]
          · show 48 ≤ _; omega
          · show _ ≤ 57; omega
      · rw [List.foldl_append, ← h3]
        simp only [List.foldl_cons, List.foldl_nil, digit_ofNat hd]
        omega

theorem natDigits_numeral (n : Nat) : IsNumeral (natDigits n) n := natDigitsAux_numeral _ _ (by omega)

/-! ### Colour codes -/

theorem coloured_refl (s : Bytes) : Coloured s s := by
  induction s with
  | nil => exact .nil
  | cons c s ih => exact .char c ih

theorem coloured_append {a b c d : Bytes} (h1 : Coloured a b) (h2 : Coloured c d) :
    Coloured (a ++ c) (b ++ d) := by
  induction h1 with
  | nil => exact h2
  | char x _ ih => exact .char x ih
  | code ps hp _ ih =>
    have := Coloured.code ps hp ih
    simpa using this

theorem isParams_append {a b : Bytes} (h1 : IsParams a) (h2 : IsParams b) : IsParams (a ++ b) := by
  intro p hp
  rcases List.mem_append.1 hp with h | h
  · exact h1 p h
  · exact h2 p h

theorem isParams_fmtD (n : Nat) : IsParams (fmtD n) := by
  intro p hp
  unfold fmtD at hp
  rw [if_neg (by omega)] at hp
  exact .inl ((natDigits_numeral _).2.1 p hp)

theorem isParams_ite {c : Bool} {a b : Bytes} (h1 : IsParams a) (h2 : IsParams b) :
    IsParams (if c then a else b) := by
  split <;> assumption

/-- The parameters of a colour code. -/
def codeParams (fg : Color) (fgStyle : Style) (bg : Option Color) (bgStyle : Style) : Bytes :=
  ((if fgStyle.bold then ([49, 59] : Bytes) else []) ++ (if fgStyle.blink then ([53, 59] : Bytes) else []) ++
  (if fgStyle.underline then ([52, 59] : Bytes) else []) ++ (if fgStyle.invert then ([55, 59] : Bytes) else []) ++
  (fmtD ((if fgStyle.intense then 90 else 30) + fg.num : Nat) ++ ([59] : Bytes)) ++
  (match bg with
    | none => ([] : Bytes)
    | some bg => fmtD ((if bgStyle.intense then 100 else 40) + bg.num : Nat) ++ ([59] : Bytes))).dropLast

theorem ite_append_nil (c : Bool) (a b : Bytes) :
    (if c then a ++ b else a) = a ++ (if c then b else []) := by
  split <;> simp

theorem colourCode_eq (fg : Color) (fgStyle : Style) (bg : Option Color) (bgStyle : Style) :
    colourCode fg fgStyle bg bgStyle = 27 :: 91 :: (codeParams fg fgStyle bg bgStyle ++ [109]) := by
  unfold colourCode codeParams
  simp only [ite_append_nil]
  rw [← List.cons_append, ← List.cons_append]
  congr 1
  generalize hA : (if fgStyle.bold = true then [49, 59] else ([] : Bytes)) = A
  generalize hB : (if fgStyle.blink = true then [53, 59] else ([] : Bytes)) = B
  generalize hC : (if fgStyle.underline = true then [52, 59] else ([] : Bytes)) = C
  generalize hD : (if fgStyle.invert = true then [55, 59] else ([] : Bytes)) = D
  generalize hE : fmtD ((if fgStyle.intense then 90 else 30) + fg.num : Nat) = E
  cases bg with
  | none =>
    simp only [List.append_nil]
    rw [← List.append_assoc, ← List.append_assoc, List.dropLast_concat, List.dropLast_concat]
    simp
  | some bg =>
    simp only
    generalize fmtD ((if bgStyle.intense then 100 else 40) + bg.num : Nat) = F
    have e : ∀ X : Bytes, (X ++ (F ++ [59])).dropLast = X ++ F := by
      intro X; rw [← List.append_assoc, List.dropLast_concat]
    rw [e, e]
    simp

theorem isParams_code (fg : Color) (fgStyle : Style) (bg : Option Color) (bgStyle : Style) :
    IsParams (codeParams fg fgStyle bg bgStyle) := by
  have h : ∀ {s : Bytes}, IsParams s → IsParams s.dropLast :=
    fun hs p hp => hs p (List.dropLast_subset _ hp)
  unfold codeParams
  apply h
  have hnil : IsParams [] := by intro p hp; simp at hp
  have hs : ∀ d : UInt8, 48 ≤ d → d ≤ 57 → IsParams [d, 59] := by
    intro d h1 h2 p hp
    simp only [List.mem_cons, List.not_mem_nil, or_false] at hp
    rcases hp with rfl | rfl
    · exact .inl ⟨h1, h2⟩
    · exact .inr rfl
  have h59 : IsParams [59] := by intro p hp; exact .inr (List.mem_singleton.1 hp)
  refine isParams_append (isParams_append (isParams_append (isParams_append (isParams_append ?_ ?_) ?_) ?_) ?_) ?_
  · exact isParams_ite (hs 49 (by decide) (by decide)) hnil
  · exact isParams_ite (hs 53 (by decide) (by decide)) hnil
  · exact isParams_ite (hs 52 (by decide) (by decide)) hnil
  · exact isParams_ite (hs 55 (by decide) (by decide)) hnil
  · exact isParams_append (isParams_fmtD _) h59
  · cases bg with
    | none => exact hnil
    | some bg => exact isParams_append (isParams_fmtD _) h59

theorem coloured_fgBg (e : Bool) (s : Bytes) (fg : Color) (fgStyle : Style) (bg : Option Color)
    (bgStyle : Style) : Coloured (fgBg e s fg fgStyle bg bgStyle) s := by
  unfold fgBg
  cases e with
  | false => exact coloured_refl s
  | true =>
    simp only [Bool.not_true, Bool.false_eq_true, if_false]
    rw [colourCode_eq]
    have hr : Coloured (s ++ resetCode) s := by
      have := coloured_append (coloured_refl s)
        (Coloured.code (out := []) (text := []) [48] (by
          intro p hp; rw [List.mem_singleton.1 hp]; exact .inl ⟨by decide, by decide⟩) .nil)
      simpa [resetCode] using this
    have := Coloured.code _ (isParams_code fg fgStyle bg bgStyle) hr
    simpa using this

theorem params_split {ps qs t u : Bytes} (hp : IsParams ps) (hq : IsParams qs)
    (h : ps ++ 109 :: t = qs ++ 109 :: u) : ps = qs ∧ t = u := by
  have hno : ∀ {x : Bytes}, IsParams x → (109 : UInt8) ∉ x := by
    intro x hx hm
    rcases hx 109 hm with ⟨-, h⟩ | h
    · exact absurd h (by decide)
    · exact absurd h (by decide)
  induction ps generalizing qs with
  | nil =>
    cases qs with
    | nil => exact ⟨rfl, by simpa using h⟩
    | cons q qs =>
      simp only [List.nil_append, List.cons_append, List.cons.injEq] at h
      exact absurd (h.1 ▸ List.mem_cons_self) (hno hq)
  | cons p ps ih =>
    cases qs with
    | nil =>
      simp only [List.nil_append, List.cons_append, List.cons.injEq] at h
      exact absurd (h.1 ▸ List.mem_cons_self) (hno hp)
    | cons q qs =>
      simp only [List.cons_append, List.cons.injEq] at h
      obtain ⟨h1, h2⟩ := ih (fun x hx => hp x (by simp [hx])) (fun x hx => hq x (by simp [hx])) h.2
      exact ⟨by rw [h.1, h1], h2⟩

theorem coloured_unique' {out a b : Bytes} (h1 : Coloured out a) (h2 : Coloured out b)
    (ha : (27 : UInt8) ∉ a) (hb : (27 : UInt8) ∉ b) : a = b := by
  induction h1 generalizing b with
  | nil => cases h2; rfl
  | char c h ih =>
    cases h2 with
    | char _ h' => rw [ih h' (fun x => ha (by simp [x])) (fun x => hb (by simp [x]))]
    | code ps hp h' => exact absurd List.mem_cons_self ha
  | @code o t ps hp h ih =>
    generalize hx : 27 :: 91 :: (ps ++ 109 :: o) = x at h2
    cases h2 with
    | nil => simp at hx
    | char c h' =>
      simp only [List.cons.injEq] at hx
      exact absurd (hx.1 ▸ List.mem_cons_self) hb
    | @code o' t' qs hq h' =>
      simp only [List.cons.injEq, true_and] at hx
      obtain ⟨-, rfl⟩ := params_split hp hq hx
      exact ih h' ha hb

/-! ### Highlighting -/

theorem hiliteFrom_false (line : Bytes) (idxs : List (Nat × Nat)) :
    ∀ beg, SpansFrom line.length beg idxs → hiliteFrom false line idxs beg = some (line.drop beg) := by
  induction idxs with
  | nil =>
    intro beg h
    simp only [SpansFrom] at h
    simp only [hiliteFrom, slice]
    rw [if_pos ⟨h, Nat.le_refl _⟩, List.take_length]
  | cons ij r ih =>
    obtain ⟨i, j⟩ := ij
    rintro beg ⟨h1, h2, h3⟩
    have hle : j ≤ line.length := by
      clear ih
      induction r generalizing j with
      | nil => exact h3
      | cons kl r ih2 =>
        obtain ⟨k, l⟩ := kl
        obtain ⟨a, b, c⟩ := h3
        have := ih2 l (Nat.le_trans h2 (Nat.le_trans a b)) c
        omega
    simp only [hiliteFrom, ih j h3, slice, if_pos (show beg ≤ i ∧ i ≤ line.length by omega),
      if_pos (show i ≤ j ∧ j ≤ line.length by omega), fgBg, Bool.not_false, if_true]
    congr 1
    have e1 : (line.take i).drop beg ++ line.drop i = line.drop beg := by
      conv => rhs; rw [← List.take_append_drop i line]
      rw [List.drop_append_of_le_length (by rw [List.length_take]; omega)]
    have e2 : (line.take j).drop i ++ line.drop j = line.drop i := by
      conv => rhs; rw [← List.take_append_drop j line]
      rw [List.drop_append_of_le_length (by rw [List.length_take]; omega)]
    rw [List.append_assoc, e2, e1]

theorem spans_le {len beg : Nat} {idxs : List (Nat × Nat)} (h : SpansFrom len beg idxs) : beg ≤ len := by
  induction idxs generalizing beg with
  | nil => exact h
  | cons ij r ih =>
    obtain ⟨i, j⟩ := ij
    obtain ⟨h1, h2, h3⟩ := h
    have := ih h3
    omega

theorem take_drop_cat {line : Bytes} {a b : Nat} (h : a ≤ b) :
    line.drop a = (line.take b).drop a ++ line.drop b := by
  by_cases hb : b ≤ line.length
  · conv => lhs; rw [← List.take_append_drop b line]
    rw [List.drop_append_of_le_length (by rw [List.length_take]; omega)]
  · rw [List.take_of_length_le (by omega), List.drop_of_length_le (l := line) (i := b) (by omega)]
    simp

theorem hiliteFrom_coloured (line : Bytes) (idxs : List (Nat × Nat)) :
    ∀ beg, SpansFrom line.length beg idxs →
      ∃ out, hiliteFrom true line idxs beg = some out ∧ Coloured out (line.drop beg) := by
  induction idxs with
  | nil =>
    intro beg h
    simp only [SpansFrom] at h
    simp only [hiliteFrom, slice]
    rw [if_pos ⟨h, Nat.le_refl _⟩, List.take_length]
    exact ⟨_, rfl, coloured_refl _⟩
  | cons ij r ih =>
    obtain ⟨i, j⟩ := ij
    rintro beg ⟨h1, h2, h3⟩
    have hle := spans_le h3
    obtain ⟨out, ho, hc⟩ := ih j h3
    simp only [hiliteFrom, ho, slice, if_pos (show beg ≤ i ∧ i ≤ line.length by omega),
      if_pos (show i ≤ j ∧ j ≤ line.length by omega)]
    refine ⟨_, rfl, ?_⟩
    rw [take_drop_cat (line := line) h1, take_drop_cat (line := line) h2, ← List.append_assoc]
    exact coloured_append (coloured_append (coloured_refl _) (coloured_fgBg _ _ _ _ _ _)) hc

/-- Position `k` lies in one of the spans. -/
def inSpan (idxs : List (Nat × Nat)) (k : Nat) : Bool := idxs.any fun p => decide (p.1 ≤ k ∧ k < p.2)

/-- The characters `s` at the positions from `k`, with the flags of `f`. -/
def lit (f : Nat → Bool) (k : Nat) (s : Bytes) : List (UInt8 × Bool) :=
  s.zipIdx k |>.map fun p => (p.1, f p.2)

theorem lit_nil (f : Nat → Bool) (k : Nat) : lit f k [] = [] := rfl
theorem lit_cons (f : Nat → Bool) (k : Nat) (c : UInt8) (s : Bytes) :
    lit f k (c :: s) = (c, f k) :: lit f (k + 1) s := by simp [lit]

theorem shows_lit {hi : Bool} {f : Nat → Bool} {out : Bytes} {scr : List (UInt8 × Bool)} :
    ∀ (s : Bytes) (k : Nat), (∀ x, k ≤ x → x < k + s.length → f x = hi) → Shows hi out scr →
      Shows hi (s ++ out) (lit f k s ++ scr) := by
  intro s
  induction s with
  | nil => intro k _ h; exact h
  | cons c s ih =>
    intro k hf h
    rw [lit_cons, hf k (Nat.le_refl _) (by simp)]
    exact .char c (ih (k + 1) (fun x h1 h2 => hf x (by omega) (by simp only [List.length_cons]; omega)) h)

theorem lit_append (f : Nat → Bool) (k : Nat) (a b : Bytes) :
    lit f k (a ++ b) = lit f k a ++ lit f (k + a.length) b := by
  unfold lit
  rw [List.zipIdx_append, List.map_append]

theorem lit_congr {f g : Nat → Bool} (s : Bytes) : ∀ (k : Nat), (∀ x, k ≤ x → f x = g x) →
    lit f k s = lit g k s := by
  induction s with
  | nil => intros; rfl
  | cons c s ih =>
    intro k h
    rw [lit_cons, lit_cons, h k (Nat.le_refl _), ih (k + 1) (fun x hx => h x (by omega))]

theorem spans_mem_le {len beg : Nat} {idxs : List (Nat × Nat)} (h : SpansFrom len beg idxs) :
    ∀ p ∈ idxs, beg ≤ p.1 := by
  induction idxs generalizing beg with
  | nil => simp
  | cons ij r ih =>
    obtain ⟨i, j⟩ := ij
    obtain ⟨h1, h2, h3⟩ := h
    intro p hp
    rcases List.mem_cons.1 hp with rfl | hp
    · exact h1
    · have := ih h3 p hp
      omega

theorem hilite_params : codeParams .black { bold := true } (some .yellow) { intense := true } =
    [49, 59, 51, 48, 59, 49, 48, 51] := by decide +kernel

theorem hiliteFrom_shows (line : Bytes) (idxs : List (Nat × Nat)) :
    ∀ beg out, SpansFrom line.length beg idxs → hiliteFrom true line idxs beg = some out →
      Shows false out (lit (inSpan idxs) beg (line.drop beg)) := by
  induction idxs with
  | nil =>
    intro beg out h ho
    simp only [SpansFrom] at h
    simp only [hiliteFrom, slice] at ho
    rw [if_pos ⟨h, Nat.le_refl _⟩, List.take_length] at ho
    cases ho
    have := shows_lit (hi := false) (f := inSpan []) (out := []) (scr := []) (line.drop beg) beg
      (fun _ _ _ => rfl) (.nil false)
    simpa using this
  | cons ij r ih =>
    obtain ⟨i, j⟩ := ij
    rintro beg out ⟨h1, h2, h3⟩ ho
    have hle := spans_le h3
    have hmem := spans_mem_le h3
    obtain ⟨out', ho', -⟩ := hiliteFrom_coloured line r j h3
    have hs := ih j out' h3 ho'
    simp only [hiliteFrom, ho', slice, if_pos (show beg ≤ i ∧ i ≤ line.length by omega),
      if_pos (show i ≤ j ∧ j ≤ line.length by omega), Option.some.injEq] at ho
    subst ho
    rw [take_drop_cat (line := line) h1, take_drop_cat (line := line) h2, lit_append, lit_append]
    have l1 : ((line.take i).drop beg).length = i - beg := by
      rw [List.length_drop, List.length_take]; omega
    have l2 : ((line.take j).drop i).length = j - i := by
      rw [List.length_drop, List.length_take]; omega
    rw [l1, l2, show beg + (i - beg) = i by omega, show i + (j - i) = j by omega]
    simp only [fgBg, Bool.not_true, Bool.false_eq_true, if_false, colourCode_eq, hilite_params]
    have hout : ∀ x, j ≤ x → inSpan ((i, j) :: r) x = inSpan r x := by
      intro x hx
      have : ¬ (i ≤ x ∧ x < j) := by omega
      simp [inSpan]
      omega
    rw [lit_congr (line.drop j) j hout]
    simp only [List.append_assoc]
    refine shows_lit _ _ ?_ ?_
    · intro x hx1 hx2
      rw [l1] at hx2
      unfold inSpan
      rw [List.any_eq_false]
      intro p hp
      rcases List.mem_cons.1 hp with rfl | hp
      · simp; omega
      · have := hmem p hp
        simp; omega
    · have hoff : Shows true (resetCode ++ out') (lit (inSpan r) j (line.drop j)) := .off hs
      have hmid := shows_lit (hi := true) (f := inSpan ((i, j) :: r)) ((line.take j).drop i) i (by
        intro x hx1 hx2
        rw [l2] at hx2
        unfold inSpan
        rw [List.any_eq_true]
        exact ⟨(i, j), by simp, by simp; omega⟩) hoff
      have := Shows.on (hi := false) [49, 59, 51, 48, 59, 49, 48, 51] (by
        rw [← hilite_params]; exact isParams_code _ _ _ _) (by simp) (by decide) hmid
      simpa using this

/-! ### The whole output -/

theorem coloured_lineNumber (n : Int) (h : Bool) :
    Coloured (lineNumber true n h) (lineNumber false n h) := by
  unfold lineNumber
  refine coloured_append (coloured_append ?_ (coloured_refl _)) (coloured_refl _)
  exact coloured_fgBg true (fmtD n) _ _ _ _

theorem coloured_blockRows (find : Bytes → List (Nat × Nat))
    (hf : ∀ line, SpansFrom line.length 0 (find line)) (start : Int) :
    ∀ (lines : List Bytes) (flags : List Bool) (i : Nat) (p : Bytes),
      blockRows false find start i lines flags = some p →
      ∃ out, blockRows true find start i lines flags = some out ∧ Coloured out p := by
  intro lines
  induction lines with
  | nil => intro flags i p h; cases h; exact ⟨[], rfl, .nil⟩
  | cons l ls ih =>
    intro flags i p h
    cases flags with
    | nil => simp [blockRows] at h
    | cons b flags =>
      simp only [blockRows] at h ⊢
      have hl : (if b then hiliteMatches false find l else some l) = some l := by
        split
        · unfold hiliteMatches
          rw [hiliteFrom_false l _ 0 (hf l)]
          simp
        · rfl
      rw [hl] at h
      cases hr : blockRows false find start (i + 1) ls flags with
      | none => simp [hr] at h
      | some rest =>
        simp only [hr, Option.some.injEq] at h
        obtain ⟨out, ho, hc⟩ := ih flags (i + 1) rest hr
        obtain ⟨o, hoo, hoc⟩ : ∃ o, (if b then hiliteMatches true find l else some l) = some o ∧ Coloured o l := by
          split
          · have := hiliteFrom_coloured l (find l) 0 (hf l)
            simpa [hiliteMatches] using this
          · exact ⟨l, rfl, coloured_refl l⟩
        rw [ho, hoo]
        refine ⟨_, rfl, ?_⟩
        rw [← h]
        exact coloured_append (coloured_append (coloured_append (coloured_lineNumber _ _) hoc)
          (coloured_refl _)) hc

theorem coloured_fileBlocks (find : Bytes → List (Nat × Nat))
    (hf : ∀ line, SpansFrom line.length 0 (find line)) (ctx : Int) :
    ∀ (bs : List Block) (p : Bytes), fileBlocks false find ctx bs = some p →
      ∃ out, fileBlocks true find ctx bs = some out ∧ Coloured out p := by
  intro bs
  induction bs with
  | nil => intro p h; cases h; exact ⟨[], rfl, .nil⟩
  | cons b bs ih =>
    intro p h
    simp only [fileBlocks] at h ⊢
    cases h1 : blockRows false find b.start 0 b.lines b.matches_ with
    | none => simp [h1] at h
    | some rows =>
      cases h2 : fileBlocks false find ctx bs with
      | none => simp [h1, h2] at h
      | some rest =>
        simp only [h1, h2, Option.some.injEq] at h
        obtain ⟨o1, e1, c1⟩ := coloured_blockRows find hf _ _ _ _ _ h1
        obtain ⟨o2, e2, c2⟩ := ih _ h2
        rw [e1, e2]
        refine ⟨_, rfl, ?_⟩
        rw [← h]
        exact coloured_append (coloured_append c1 (coloured_refl _)) c2

theorem coloured_presentFiles (find : Bytes → List (Nat × Nat))
    (hf : ∀ line, SpansFrom line.length 0 (find line)) (ctx : Int) :
    ∀ (fs : List (Bytes × List LineMatch)) (p : Bytes), presentFiles false find ctx fs = some p →
      ∃ out, presentFiles true find ctx fs = some out ∧ Coloured out p := by
  intro fs
  induction fs with
  | nil => intro p h; cases h; exact ⟨[], rfl, .nil⟩
  | cons f fs ih =>
    obtain ⟨name, ms⟩ := f
    intro p h
    simp only [presentFiles] at h ⊢
    cases h0 : coalesceMatches ms with
    | none => simp [h0] at h
    | some bs =>
      simp only [h0, Option.bind_some] at h ⊢
      cases h1 : fileBlocks false find ctx bs with
      | none => simp [h1] at h
      | some rows =>
        cases h2 : presentFiles false find ctx fs with
        | none => simp [h1, h2] at h
        | some rest =>
          simp only [h1, h2, Option.some.injEq] at h
          obtain ⟨o1, e1, c1⟩ := coloured_fileBlocks find hf _ _ _ h1
          obtain ⟨o2, e2, c2⟩ := ih _ h2
          rw [e1, e2]
          refine ⟨_, rfl, ?_⟩
          rw [← h]
          exact coloured_append (coloured_append (coloured_append (coloured_append
            (coloured_fgBg true name _ _ _ _) (coloured_refl _)) c1) (coloured_refl _)) c2

end Hound.Client
