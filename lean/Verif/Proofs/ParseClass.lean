import Verif.Spec.Unicode
import Verif.Spec.Regex

/-!
# The operations of Go's parser on classes
-/

namespace Hound.GoRe

variable {orbit : Rune → List Rune}

theorem InR_nil {x : Rune} : ¬ InR [] x := by simp [InR]

theorem InR_cons {p : Rune × Rune} {r : Ranges} {x : Rune} : InR (p :: r) x ↔ (p.1 ≤ x ∧ x ≤ p.2) ∨ InR r x := by
  simp [InR]

theorem ROk_nil : ROk [] := by simp [ROk]

theorem ROk_cons {p : Rune × Rune} {r : Ranges} : ROk (p :: r) ↔ (p.1 ≤ p.2 ∧ p.2 ≤ maxRune) ∧ ROk r := by
  simp [ROk]

/-! ## `appendRange` -/

theorem widen_iff {a b lo hi x : Nat} (h1 : lo ≤ b + 1) (h2 : a ≤ hi + 1) (h3 : a ≤ b) (h4 : lo ≤ hi) :
    ((if lo < a then lo else a) ≤ x ∧ x ≤ (if hi > b then hi else b)) ↔ (a ≤ x ∧ x ≤ b) ∨ (lo ≤ x ∧ x ≤ hi) := by
  split <;> split <;> omega

theorem widen_ok {a b lo hi m : Nat} (h3 : a ≤ b) (h4 : lo ≤ hi) (h5 : b ≤ m) (h6 : hi ≤ m) :
    (if lo < a then lo else a) ≤ (if hi > b then hi else b) ∧ (if hi > b then hi else b) ≤ m := by
  split <;> split <;> omega

theorem touches_iff {p : Rune × Rune} {lo hi : Rune} : touches p lo hi = true ↔ lo ≤ p.2 + 1 ∧ p.1 ≤ hi + 1 := by
  simp [touches]

theorem InR_widen {p : Rune × Rune} {lo hi x : Rune} (ht : touches p lo hi = true) (hp : p.1 ≤ p.2) (hl : lo ≤ hi) :
    ((widen p lo hi).1 ≤ x ∧ x ≤ (widen p lo hi).2) ↔ (p.1 ≤ x ∧ x ≤ p.2) ∨ (lo ≤ x ∧ x ≤ hi) := by
  obtain ⟨h1, h2⟩ := touches_iff.1 ht
  exact widen_iff h1 h2 hp hl

theorem appendRange_spec : ∀ (r : Ranges) {lo hi : Rune}, ROk r → lo ≤ hi → hi ≤ maxRune →
    ROk (appendRange r lo hi) ∧ ∀ x, InR (appendRange r lo hi) x ↔ InR r x ∨ (lo ≤ x ∧ x ≤ hi)
  | [], lo, hi, _, hl, hh => by simp [appendRange, ROk, InR, hl, hh]
  | [p], lo, hi, hr, hl, hh => by
    obtain ⟨hp, -⟩ := ROk_cons.1 hr
    rw [appendRange]
    split
    · rename_i ht
      refine ⟨ROk_cons.2 ⟨widen_ok hp.1 hl hp.2 hh, ROk_nil⟩, fun x => ?_⟩
      rw [InR_cons, InR_cons, InR_widen ht hp.1 hl]
      simp [InR]
    · refine ⟨ROk_cons.2 ⟨hp, ROk_cons.2 ⟨⟨hl, hh⟩, ROk_nil⟩⟩, fun x => ?_⟩
      simp [InR]
  | [p, q], lo, hi, hr, hl, hh => by
    obtain ⟨hp, hr'⟩ := ROk_cons.1 hr
    obtain ⟨hq, -⟩ := ROk_cons.1 hr'
    rw [appendRange]
    split
    · rename_i ht
      refine ⟨ROk_cons.2 ⟨hp, ROk_cons.2 ⟨widen_ok hq.1 hl hq.2 hh, ROk_nil⟩⟩, fun x => ?_⟩
      rw [InR_cons, InR_cons, InR_widen ht hq.1 hl, InR_cons, InR_cons]
      simp only [InR_nil, or_false, or_assoc]
    · split
      · rename_i ht
        refine ⟨ROk_cons.2 ⟨widen_ok hp.1 hl hp.2 hh, ROk_cons.2 ⟨hq, ROk_nil⟩⟩, fun x => ?_⟩
        rw [InR_cons, InR_cons, InR_widen ht hp.1 hl, InR_cons, InR_cons]
        simp only [InR_nil, or_false, false_or, or_assoc, or_comm (a := q.1 ≤ x ∧ x ≤ q.2)]
      · refine ⟨ROk_cons.2 ⟨hp, ROk_cons.2 ⟨hq, ROk_cons.2 ⟨⟨hl, hh⟩, ROk_nil⟩⟩⟩, fun x => ?_⟩
        simp only [InR_cons, InR_nil, or_false, or_assoc]
  | p :: q :: r :: t, lo, hi, hr, hl, hh => by
    obtain ⟨hp, hr'⟩ := ROk_cons.1 hr
    obtain ⟨i1, i2⟩ := appendRange_spec (q :: r :: t) hr' hl hh
    rw [appendRange]
    refine ⟨ROk_cons.2 ⟨hp, i1⟩, fun x => ?_⟩
    rw [InR_cons, InR_cons, i2, or_assoc]

theorem appendOne_spec {r : Ranges} {c : Rune} (hr : ROk r) (hc : c ≤ maxRune) :
    ROk (appendRange r c c) ∧ ∀ x, InR (appendRange r c c) x ↔ InR r x ∨ x = c := by
  obtain ⟨h1, h2⟩ := appendRange_spec r hr (Nat.le_refl c) hc
  refine ⟨h1, fun x => ?_⟩
  rw [h2]
  have : (c ≤ x ∧ x ≤ c) ↔ x = c := ⟨fun h => Nat.le_antisymm h.2 h.1, fun h => by rw [h]; exact ⟨Nat.le_refl _, Nat.le_refl _⟩⟩
  rw [this]

theorem maxFold_le : maxFold ≤ maxRune := by decide

theorem appendOnes_spec : ∀ (l : List Rune) {r : Ranges}, ROk r → (∀ c ∈ l, c ≤ maxRune) →
    ROk (l.foldl (fun r f => appendRange r f f) r) ∧ ∀ x, InR (l.foldl (fun r f => appendRange r f f) r) x ↔ InR r x ∨ x ∈ l
  | [], r, hr, _ => ⟨hr, fun x => by simp⟩
  | c :: l, r, hr, hl => by
    obtain ⟨h1, h2⟩ := appendOne_spec hr (hl c (by simp))
    obtain ⟨i1, i2⟩ := appendOnes_spec l h1 (fun d hd => hl d (List.mem_cons_of_mem _ hd))
    refine ⟨i1, fun x => ?_⟩
    rw [List.foldl_cons, i2, h2, List.mem_cons, or_assoc]

theorem appendOrbit_spec (hb : FoldBounds orbit) {r : Ranges} {c : Rune} (hr : ROk r) (hc : c ≤ maxRune) :
    ROk (appendOrbit orbit r c) ∧ ∀ x, InR (appendOrbit orbit r c) x ↔ InR r x ∨ x = c ∨ x ∈ orbit c := by
  obtain ⟨h1, h2⟩ := appendOne_spec hr hc
  obtain ⟨i1, i2⟩ := appendOnes_spec (orbit c) h1 (fun d hd => Nat.le_trans (hb c d hd).2.2 maxFold_le)
  refine ⟨i1, fun x => ?_⟩
  rw [appendOrbit, i2, h2, or_assoc]

theorem appendOrbits_spec (hb : FoldBounds orbit) : ∀ (l : List Rune) {r : Ranges}, ROk r → (∀ c ∈ l, c ≤ maxRune) →
    ROk (l.foldl (appendOrbit orbit) r) ∧ ∀ x, InR (l.foldl (appendOrbit orbit) r) x ↔ InR r x ∨ ∃ y ∈ l, x = y ∨ x ∈ orbit y
  | [], r, hr, _ => ⟨hr, fun x => by simp⟩
  | c :: l, r, hr, hl => by
    obtain ⟨h1, h2⟩ := appendOrbit_spec hb hr (hl c (by simp))
    obtain ⟨i1, i2⟩ := appendOrbits_spec hb l h1 (fun d hd => hl d (List.mem_cons_of_mem _ hd))
    refine ⟨i1, fun x => ?_⟩
    rw [List.foldl_cons, i2, h2]
    simp only [List.mem_cons, exists_eq_or_imp, or_assoc]

/-- The runes of a set, and with `fold` those that differ from one of them in case only. -/
def Folded (orbit : Rune → List Rune) (fold : Bool) (S : Rune → Prop) (x : Rune) : Prop :=
  S x ∨ (fold = true ∧ ∃ y, S y ∧ x ∈ orbit y)

theorem Folded_false {S : Rune → Prop} {x : Rune} : Folded orbit false S x ↔ S x := by simp [Folded]

theorem Folded_or {fold : Bool} {S S' : Rune → Prop} {x : Rune} :
    Folded orbit fold (fun y => S y ∨ S' y) x ↔ Folded orbit fold S x ∨ Folded orbit fold S' x := by
  constructor
  · rintro ((h | h) | ⟨hf, y, h | h, hy⟩)
    · exact .inl (.inl h)
    · exact .inr (.inl h)
    · exact .inl (.inr ⟨hf, y, h, hy⟩)
    · exact .inr (.inr ⟨hf, y, h, hy⟩)
  · rintro ((h | ⟨hf, y, h, hy⟩) | (h | ⟨hf, y, h, hy⟩))
    · exact .inl (.inl h)
    · exact .inr ⟨hf, y, .inl h, hy⟩
    · exact .inl (.inr h)
    · exact .inr ⟨hf, y, .inr h, hy⟩

theorem Folded_congr {fold : Bool} {S S' : Rune → Prop} (h : ∀ x, S x ↔ S' x) {x : Rune} : Folded orbit fold S x ↔ Folded orbit fold S' x := by
  have : S = S' := funext fun x => propext (h x)
  rw [this]

theorem mem_range_iff {lo hi y : Nat} (h : lo ≤ hi) : y ∈ List.range' lo (hi + 1 - lo) ↔ lo ≤ y ∧ y ≤ hi := by
  rw [List.mem_range'_1]
  omega

theorem appendFoldedRange_spec (hb : FoldBounds orbit) {r : Ranges} {lo hi : Rune} (hr : ROk r) (hl : lo ≤ hi) (hh : hi ≤ maxRune) :
    ROk (appendFoldedRange orbit r lo hi) ∧
      ∀ x, InR (appendFoldedRange orbit r lo hi) x ↔ InR r x ∨ Folded orbit true (fun y => lo ≤ y ∧ y ≤ hi) x := by
  rw [appendFoldedRange]
  split
  · rename_i hc
    obtain ⟨h1, h2⟩ := appendRange_spec r hr hl hh
    refine ⟨h1, fun x => ?_⟩
    rw [h2]
    refine or_congr_right ⟨fun h => .inl h, ?_⟩
    rintro (h | ⟨-, y, -, hy⟩)
    · exact h
    · have := (hb y x hy).2
      exact ⟨Nat.le_trans hc.1 this.1, Nat.le_trans this.2 hc.2⟩
  · split
    · rename_i hc
      obtain ⟨h1, h2⟩ := appendRange_spec r hr hl hh
      refine ⟨h1, fun x => ?_⟩
      rw [h2]
      refine or_congr_right ⟨fun h => .inl h, ?_⟩
      rintro (h | ⟨-, y, hy1, hy⟩)
      · exact h
      · have := (hb y x hy).1
        rcases hc with hc | hc
        · exact absurd (Nat.le_trans this.1 hy1.2) (Nat.not_le.2 hc)
        · exact absurd (Nat.le_trans hy1.1 this.2) (Nat.not_le.2 hc)
    · rename_i hc1 hc2
      rw [not_or, Nat.not_lt, Nat.not_lt] at hc2
      -- the part below `minFold`
      have low : ∃ r' lo', (if lo < minFold then (appendRange r lo (minFold - 1), minFold) else (r, lo)) = (r', lo') ∧ ROk r' ∧
          lo' ≤ hi ∧ lo ≤ lo' ∧ (∀ x, InR r' x ↔ InR r x ∨ (lo ≤ x ∧ x < lo')) ∧ (lo' = lo ∨ lo' = minFold) := by
        split
        · rename_i h
          obtain ⟨h1, h2⟩ := appendRange_spec r hr (lo := lo) (hi := minFold - 1) (Nat.le_sub_one_of_lt h)
            (by decide)
          refine ⟨_, _, rfl, h1, hc2.1, Nat.le_of_lt h, fun x => ?_, .inr rfl⟩
          rw [h2]
          have : x ≤ minFold - 1 ↔ x < minFold := Nat.le_sub_one_iff_lt (by decide)
          rw [this]
        · refine ⟨_, _, rfl, hr, hl, Nat.le_refl _, fun x => ?_, .inl rfl⟩
          refine ⟨.inl, fun h => h.elim id fun h => absurd h.2 (Nat.not_lt.2 h.1)⟩
      obtain ⟨r', lo', e1, hr', hlh', hll, m1, d1⟩ := low
      rw [e1]
      simp only
      have high : ∃ r'' hi', (if hi > maxFold then (appendRange r' (maxFold + 1) hi, maxFold) else (r', hi)) = (r'', hi') ∧ ROk r'' ∧
          lo' ≤ hi' ∧ hi' ≤ hi ∧ (∀ x, InR r'' x ↔ InR r' x ∨ (hi' < x ∧ x ≤ hi)) ∧ (hi' = hi ∨ hi' = maxFold) := by
        split
        · rename_i h
          obtain ⟨h1, h2⟩ := appendRange_spec r' hr' (lo := maxFold + 1) (hi := hi) h hh
          refine ⟨_, _, rfl, h1, ?_, Nat.le_of_lt h, fun x => ?_, .inr rfl⟩
          · rcases d1 with h | h
            · rw [h]; exact hc2.2
            · rw [h]; decide
          · rw [h2]; exact Iff.rfl
        · refine ⟨_, _, rfl, hr', hlh', Nat.le_refl _, fun x => ?_, .inl rfl⟩
          refine ⟨.inl, fun h => h.elim id fun h => absurd h.1 (Nat.not_lt.2 h.2)⟩
      obtain ⟨r'', hi', e2, hr'', hlh'', hhh, m2, d2⟩ := high
      rw [e2]
      simp only
      obtain ⟨i1, i2⟩ := appendOrbits_spec hb (List.range' lo' (hi' + 1 - lo')) hr'' (fun c hc =>
        Nat.le_trans ((mem_range_iff hlh'').1 hc).2 (Nat.le_trans hhh hh))
      refine ⟨i1, fun x => ?_⟩
      rw [i2, m2, m1]
      constructor
      · rintro (((h | h) | h) | ⟨y, hy, h⟩)
        · exact .inl h
        · exact .inr (.inl ⟨h.1, Nat.le_trans (Nat.le_of_lt h.2) hlh'⟩)
        · exact .inr (.inl ⟨Nat.le_trans (Nat.le_trans hll hlh'') (Nat.le_of_lt h.1), h.2⟩)
        · have hy := (mem_range_iff hlh'').1 hy
          have hy' : lo ≤ y ∧ y ≤ hi := ⟨Nat.le_trans hll hy.1, Nat.le_trans hy.2 hhh⟩
          rcases h with rfl | h
          · exact .inr (.inl hy')
          · exact .inr (.inr ⟨rfl, y, hy', h⟩)
      · rintro (h | h | ⟨-, y, hy, h⟩)
        · exact .inl (.inl (.inl h))
        · by_cases h1 : x < lo'
          · exact .inl (.inl (.inr ⟨h.1, h1⟩))
          · by_cases h2 : hi' < x
            · exact .inl (.inr ⟨h2, h.2⟩)
            · exact .inr ⟨x, (mem_range_iff hlh'').2 ⟨Nat.not_lt.1 h1, Nat.not_lt.1 h2⟩, .inl rfl⟩
        · refine .inr ⟨y, (mem_range_iff hlh'').2 ⟨?_, ?_⟩, .inr h⟩
          · rcases d1 with e | e
            · rw [e]; exact hy.1
            · rw [e]; exact (hb y x h).1.1
          · rcases d2 with e | e
            · rw [e]; exact hy.2
            · rw [e]; exact (hb y x h).1.2

theorem appendClass_spec : ∀ (x : Ranges) {r : Ranges}, ROk r → ROk x →
    ROk (appendClass r x) ∧ ∀ y, InR (appendClass r x) y ↔ InR r y ∨ InR x y
  | [], r, hr, _ => ⟨hr, fun y => by simp [appendClass, InR]⟩
  | p :: x, r, hr, hx => by
    obtain ⟨hp, hx⟩ := ROk_cons.1 hx
    obtain ⟨h1, h2⟩ := appendRange_spec r hr hp.1 hp.2
    obtain ⟨i1, i2⟩ := appendClass_spec x h1 hx
    refine ⟨i1, fun y => ?_⟩
    have : appendClass r (p :: x) = appendClass (appendRange r p.1 p.2) x := rfl
    rw [this, i2, h2, InR_cons, or_assoc]

theorem appendFoldedClass_spec (hb : FoldBounds orbit) : ∀ (x : Ranges) {r : Ranges}, ROk r → ROk x →
    ROk (appendFoldedClass orbit r x) ∧ ∀ y, InR (appendFoldedClass orbit r x) y ↔ InR r y ∨ Folded orbit true (InR x) y
  | [], r, hr, _ => ⟨hr, fun y => by simp [appendFoldedClass, InR, Folded]⟩
  | p :: x, r, hr, hx => by
    obtain ⟨hp, hx⟩ := ROk_cons.1 hx
    obtain ⟨h1, h2⟩ := appendFoldedRange_spec hb hr hp.1 hp.2
    obtain ⟨i1, i2⟩ := appendFoldedClass_spec hb x h1 hx
    refine ⟨i1, fun y => ?_⟩
    have : appendFoldedClass orbit r (p :: x) = appendFoldedClass orbit (appendFoldedRange orbit r p.1 p.2) x := rfl
    rw [this, i2, h2, or_assoc, ← Folded_or]
    exact or_congr_right (Folded_congr fun z => InR_cons.symm)

/-! ## Negation -/

theorem InR_sorted : ∀ {r : Ranges} {n : Nat} {x : Rune}, RSorted n r → InR r x → n ≤ x
  | [], _, _, _, h => absurd h InR_nil
  | p :: t, n, x, hs, h => by
    obtain ⟨h1, h2, h3⟩ := hs
    rcases InR_cons.1 h with h | h
    · exact Nat.le_trans h1 h.1
    · have := InR_sorted h3 h
      exact Nat.le_trans h1 (Nat.le_trans h2 (Nat.le_of_succ_le this))

theorem negSplit {next lo hi y m : Nat} (h : next ≤ lo) (h' : lo ≤ hi) :
    ((next ≤ y ∧ y ≤ lo - 1 ∧ next < lo) ∨ (hi + 1 ≤ y ∧ y ≤ m)) ↔ ((next ≤ y ∧ (y ≤ m ∨ y < lo)) ∧ ¬ (lo ≤ y ∧ y ≤ hi)) := by
  omega

theorem appendNegatedFrom_spec : ∀ (x : Ranges) {r : Ranges} {next : Nat}, ROk r → ROk x → RSorted next x →
    ROk (appendNegatedFrom r next x) ∧ ∀ y, InR (appendNegatedFrom r next x) y ↔ InR r y ∨ (next ≤ y ∧ y ≤ maxRune ∧ ¬ InR x y)
  | [], r, next, hr, _, _ => by
    rw [appendNegatedFrom]
    split
    · rename_i h
      obtain ⟨h1, h2⟩ := appendRange_spec r hr (lo := next) (hi := maxRune) h (Nat.le_refl _)
      refine ⟨h1, fun y => ?_⟩
      rw [h2]
      simp [InR]
    · rename_i h
      refine ⟨hr, fun y => ⟨.inl, ?_⟩⟩
      rintro (h' | ⟨h1, h2, -⟩)
      · exact h'
      · exact absurd (Nat.le_trans h1 h2) h
  | (lo, hi) :: x, r, next, hr, hx, hs => by
    obtain ⟨hp, hx⟩ := ROk_cons.1 hx
    obtain ⟨s1, s2, s3⟩ := hs
    simp only at hp s1 s2 s3
    rw [appendNegatedFrom]
    have step : ∃ r', (if next < lo then appendRange r next (lo - 1) else r) = r' ∧ ROk r' ∧
        ∀ y, InR r' y ↔ InR r y ∨ (next ≤ y ∧ y < lo) := by
      split
      · rename_i h
        obtain ⟨h1, h2⟩ := appendRange_spec r hr (lo := next) (hi := lo - 1) (Nat.le_sub_one_of_lt h)
          (Nat.le_trans (Nat.sub_le _ _) (Nat.le_trans hp.1 hp.2))
        refine ⟨_, rfl, h1, fun y => ?_⟩
        rw [h2, Nat.le_sub_one_iff_lt (Nat.lt_of_le_of_lt (Nat.zero_le _) h)]
      · rename_i h
        exact ⟨_, rfl, hr, fun y => ⟨.inl, fun h' => h'.elim id fun h' => absurd (Nat.lt_of_le_of_lt h'.1 h'.2) h⟩⟩
    obtain ⟨r', e, hr', m⟩ := step
    rw [e]
    obtain ⟨i1, i2⟩ := appendNegatedFrom_spec x hr' hx s3
    refine ⟨i1, fun y => ?_⟩
    rw [i2, m, InR_cons]
    constructor
    · rintro ((h | h) | h)
      · exact .inl h
      · refine .inr ⟨h.1, Nat.le_trans (Nat.le_of_lt h.2) (Nat.le_trans hp.1 hp.2), ?_⟩
        rintro (h' | h')
        · exact absurd h'.1 (Nat.not_le.2 h.2)
        · have := InR_sorted s3 h'
          exact absurd (Nat.le_trans hp.1 (Nat.le_of_succ_le this)) (Nat.not_le.2 h.2)
      · refine .inr ⟨Nat.le_trans s1 (Nat.le_trans hp.1 (Nat.le_of_succ_le h.1)), h.2.1, ?_⟩
        rintro (h' | h')
        · exact absurd h'.2 (Nat.not_le.2 h.1)
        · exact h.2.2 h'
    · rintro (h | ⟨h1, h2, h3⟩)
      · exact .inl (.inl h)
      · rw [not_or] at h3
        by_cases h4 : y < lo
        · exact .inl (.inr ⟨h1, h4⟩)
        · refine .inr ⟨?_, h2, h3.2⟩
          exact Nat.lt_of_not_le fun h5 => h3.1 ⟨Nat.not_lt.1 h4, h5⟩

theorem appendNegatedClass_spec {x r : Ranges} (hr : ROk r) (hx : ROk x) (hs : RSorted 0 x) :
    ROk (appendNegatedClass r x) ∧ ∀ y, InR (appendNegatedClass r x) y ↔ InR r y ∨ (y ≤ maxRune ∧ ¬ InR x y) := by
  obtain ⟨h1, h2⟩ := appendNegatedFrom_spec x hr hx hs
  refine ⟨h1, fun y => ?_⟩
  rw [appendNegatedClass, h2]
  simp

theorem negateFrom_spec : ∀ (x : Ranges) {next : Nat}, ROk x → RSorted next x →
    ROk (negateFrom next x) ∧ ∀ y, InR (negateFrom next x) y ↔ next ≤ y ∧ y ≤ maxRune ∧ ¬ InR x y
  | [], next, _, _ => by
    rw [negateFrom]
    split
    · rename_i h
      refine ⟨by simp [ROk, h], fun y => ?_⟩
      simp [InR]
    · rename_i h
      refine ⟨ROk_nil, fun y => iff_of_false InR_nil fun h' => h (Nat.le_trans h'.1 h'.2.1)⟩
  | (lo, hi) :: x, next, hx, hs => by
    obtain ⟨hp, hx⟩ := ROk_cons.1 hx
    obtain ⟨s1, s2, s3⟩ := hs
    simp only at hp s1 s2 s3
    obtain ⟨i1, i2⟩ := negateFrom_spec x hx s3
    have key : ∀ y, (next ≤ y ∧ y ≤ maxRune ∧ ¬ InR ((lo, hi) :: x) y) ↔ (next ≤ y ∧ y < lo) ∨ InR (negateFrom (hi + 1) x) y := by
      intro y
      rw [i2, InR_cons]
      constructor
      · rintro ⟨h1, h2, h3⟩
        rw [not_or] at h3
        by_cases h4 : y < lo
        · exact .inl ⟨h1, h4⟩
        · exact .inr ⟨Nat.lt_of_not_le fun h5 => h3.1 ⟨Nat.not_lt.1 h4, h5⟩, h2, h3.2⟩
      · rintro (h | h)
        · refine ⟨h.1, Nat.le_trans (Nat.le_of_lt h.2) (Nat.le_trans hp.1 hp.2), ?_⟩
          rintro (h' | h')
          · exact absurd h'.1 (Nat.not_le.2 h.2)
          · have := InR_sorted s3 h'
            exact absurd (Nat.le_trans hp.1 (Nat.le_of_succ_le this)) (Nat.not_le.2 h.2)
        · refine ⟨Nat.le_trans s1 (Nat.le_trans hp.1 (Nat.le_of_succ_le h.1)), h.2.1, ?_⟩
          rintro (h' | h')
          · exact absurd h'.2 (Nat.not_le.2 h.1)
          · exact h.2.2 h'
    rw [negateFrom]
    split
    · rename_i h
      refine ⟨ROk_cons.2 ⟨⟨Nat.le_sub_one_of_lt h, Nat.le_trans (Nat.sub_le _ _) (Nat.le_trans hp.1 hp.2)⟩, i1⟩, fun y => ?_⟩
      rw [key, InR_cons, Nat.le_sub_one_iff_lt (Nat.lt_of_le_of_lt (Nat.zero_le _) h)]
    · rename_i h
      refine ⟨i1, fun y => ?_⟩
      rw [key]
      exact ⟨.inr, fun h' => h'.elim (fun h' => absurd (Nat.lt_of_le_of_lt h'.1 h'.2) h) id⟩

/-! ## `cleanClass` -/

/-- The ranges are in order of their lower bounds. -/
def LowSorted : Nat → Ranges → Prop
  | _, [] => True
  | n, p :: t => n ≤ p.1 ∧ LowSorted p.1 t

theorem LowSorted_mono : ∀ {r : Ranges} {n m : Nat}, n ≤ m → LowSorted m r → LowSorted n r
  | [], _, _, _, _ => trivial
  | _ :: _, _, _, h, hs => ⟨Nat.le_trans h hs.1, hs.2⟩

theorem insertRange_low (p : Rune × Rune) : ∀ {r : Ranges} {n : Nat}, n ≤ p.1 → LowSorted n r → LowSorted n (insertRange p r)
  | [], _, hn, _ => ⟨hn, trivial⟩
  | q :: t, n, hn, hs => by
    rw [insertRange]
    split
    · rename_i h
      refine ⟨hn, ?_, hs.2⟩
      simp only [rangeBefore, Bool.or_eq_true, Bool.and_eq_true, decide_eq_true_eq, beq_iff_eq] at h
      rcases h with h | h
      · exact Nat.le_of_lt h
      · rw [h.1]; exact Nat.le_refl _
    · rename_i h
      refine ⟨hs.1, insertRange_low p ?_ hs.2⟩
      simp only [rangeBefore, Bool.or_eq_true, Bool.and_eq_true, decide_eq_true_eq, beq_iff_eq, not_or] at h
      exact Nat.not_lt.1 h.1

theorem insertRange_mem (p x : Rune × Rune) : ∀ r : Ranges, x ∈ insertRange p r ↔ x = p ∨ x ∈ r
  | [] => by simp [insertRange]
  | q :: t => by
    rw [insertRange]
    split
    · simp
    · rw [List.mem_cons, insertRange_mem p x t, List.mem_cons]
      constructor
      · rintro (h | h | h)
        · exact .inr (.inl h)
        · exact .inl h
        · exact .inr (.inr h)
      · rintro (h | h | h)
        · exact .inr (.inl h)
        · exact .inl h
        · exact .inr (.inr h)

theorem sortRanges_low : ∀ r : Ranges, LowSorted 0 (sortRanges r)
  | [] => trivial
  | p :: r => insertRange_low p (Nat.zero_le _) (sortRanges_low r)

theorem sortRanges_mem (x : Rune × Rune) : ∀ r : Ranges, x ∈ sortRanges r ↔ x ∈ r
  | [] => by simp [sortRanges]
  | p :: r => by
    have : sortRanges (p :: r) = insertRange p (sortRanges r) := rfl
    rw [this, insertRange_mem, sortRanges_mem x r, List.mem_cons]

theorem mergeTwo {a b c d x : Nat} (h1 : a ≤ c) (h2 : c ≤ b + 1) (h3 : a ≤ b) (h4 : c ≤ d) :
    (a ≤ x ∧ x ≤ (if d > b then d else b)) ↔ (a ≤ x ∧ x ≤ b) ∨ (c ≤ x ∧ x ≤ d) := by
  split <;> omega

theorem mergeRanges_spec : ∀ (r : Ranges) {p : Rune × Rune} {n : Nat}, n ≤ p.1 → p.1 ≤ p.2 → p.2 ≤ maxRune → ROk r → LowSorted p.1 r →
    ROk (mergeRanges p r) ∧ RSorted n (mergeRanges p r) ∧ ∀ x, InR (mergeRanges p r) x ↔ (p.1 ≤ x ∧ x ≤ p.2) ∨ InR r x
  | [], p, n, hn, hp, hm, _, _ => by
    refine ⟨by simp [mergeRanges, ROk, hp, hm], ⟨hn, hp, trivial⟩, fun x => by simp [mergeRanges, InR]⟩
  | q :: t, p, n, hn, hp, hm, hr, hs => by
    obtain ⟨hq, hr⟩ := ROk_cons.1 hr
    rw [mergeRanges]
    split
    · rename_i h
      have hle : p.2 ≤ (if q.2 > p.2 then q.2 else p.2) := by split; exact Nat.le_of_lt (by assumption); exact Nat.le_refl _
      obtain ⟨i1, i2, i3⟩ := mergeRanges_spec t (p := (p.1, if q.2 > p.2 then q.2 else p.2)) (n := n) hn (Nat.le_trans hp hle)
        (by simp only; split; exact hq.2; exact hm) hr (LowSorted_mono hs.1 hs.2)
      refine ⟨i1, i2, fun x => ?_⟩
      rw [i3, InR_cons, ← or_assoc, mergeTwo hs.1 h hp hq.1]
    · rename_i h
      obtain ⟨i1, i2, i3⟩ := mergeRanges_spec t (p := q) (n := p.2 + 1) (Nat.le_of_lt (Nat.lt_of_not_le h)) hq.1 hq.2 hr hs.2
      refine ⟨ROk_cons.2 ⟨⟨hp, hm⟩, i1⟩, ⟨hn, hp, i2⟩, fun x => ?_⟩
      rw [InR_cons, i3, InR_cons]

theorem cleanClass_spec {r : Ranges} (hr : ROk r) : ROk (cleanClass r) ∧ RSorted 0 (cleanClass r) ∧ ∀ x, InR (cleanClass r) x ↔ InR r x := by
  have h1 := sortRanges_low r
  have h2 : ∀ x, InR (sortRanges r) x ↔ InR r x := fun x => by
    simp only [InR, sortRanges_mem]
  have h3 : ROk (sortRanges r) := fun p hp => hr p ((sortRanges_mem p r).1 hp)
  rw [cleanClass]
  split
  · rename_i e
    rw [e] at h2
    exact ⟨ROk_nil, trivial, h2⟩
  · rename_i p t e
    rw [e] at h1 h2 h3
    obtain ⟨hp, ht⟩ := ROk_cons.1 h3
    obtain ⟨i1, i2, i3⟩ := mergeRanges_spec t (n := 0) (Nat.zero_le _) hp.1 hp.2 ht h1.2
    exact ⟨i1, i2, fun x => by rw [i3, ← h2, InR_cons]⟩

theorem negateClass_spec {r : Ranges} (hr : ROk r) :
    ROk (negateClass (cleanClass r)) ∧ ∀ y, InR (negateClass (cleanClass r)) y ↔ y ≤ maxRune ∧ ¬ InR r y := by
  obtain ⟨h1, h2, h3⟩ := cleanClass_spec hr
  obtain ⟨i1, i2⟩ := negateFrom_spec _ h1 h2
  refine ⟨i1, fun y => ?_⟩
  rw [negateClass, i2, h3]
  simp

/-! ## Groups -/

theorem appendGroup_spec (hb : FoldBounds orbit) {fold : Bool} {r : Ranges} {g : Bool × Ranges} (hr : ROk r) (hg : ROk g.2)
    (hs : RSorted 0 g.2) : ROk (appendGroup orbit fold r g) ∧ ∀ y, InR (appendGroup orbit fold r g) y ↔
      InR r y ∨ (if g.1 then Folded orbit fold (InR g.2) y else y ≤ maxRune ∧ ¬ Folded orbit fold (InR g.2) y) := by
  have hc : ∃ c, (if fold then cleanClass (appendFoldedClass orbit [] g.2) else g.2) = c ∧ ROk c ∧ RSorted 0 c ∧
      ∀ y, InR c y ↔ Folded orbit fold (InR g.2) y := by
    cases fold with
    | false => exact ⟨_, rfl, hg, hs, fun y => Folded_false.symm⟩
    | true =>
      obtain ⟨h1, h2⟩ := appendFoldedClass_spec hb g.2 (r := []) ROk_nil hg
      obtain ⟨i1, i2, i3⟩ := cleanClass_spec h1
      refine ⟨cleanClass (appendFoldedClass orbit [] g.2), rfl, i1, i2, fun y => ?_⟩
      rw [i3, h2]
      simp [InR_nil]
  obtain ⟨c, e, h1, h2, h3⟩ := hc
  rw [appendGroup, e]
  split
  · obtain ⟨i1, i2⟩ := appendClass_spec c hr h1
    exact ⟨i1, fun y => by rw [i2, h3]⟩
  · obtain ⟨i1, i2⟩ := appendNegatedClass_spec hr h1 h2
    exact ⟨i1, fun y => by rw [i2, h3]⟩

/-! ## Ranges with gaps between them -/

/-- The ranges follow one another with gaps between them, from `next` on. -/
def Apart : Nat → Ranges → Prop
  | _, [] => True
  | next, p :: t => next ≤ p.1 ∧ p.1 ≤ p.2 ∧ Apart (p.2 + 2) t

theorem Apart.mono {a b : Nat} (h : a ≤ b) : ∀ {r : Ranges}, Apart b r → Apart a r
  | [], _ => trivial
  | _ :: _, hr => ⟨Nat.le_trans h hr.1, hr.2⟩

theorem apart_low : ∀ {r : Ranges} {n : Nat}, Apart n r → ∀ p ∈ r, n ≤ p.1 ∧ p.1 ≤ p.2
  | [], _, _, p, hp => absurd hp (by simp)
  | q :: t, n, h, p, hp => by
    rcases List.mem_cons.1 hp with rfl | hp
    · exact ⟨h.1, h.2.1⟩
    · have := apart_low h.2.2 p hp
      exact ⟨Nat.le_trans h.1 (Nat.le_trans h.2.1 (Nat.le_trans (Nat.le_add_right _ _) this.1)), this.2⟩

theorem touch_next {p : Rune × Rune} {lo hi : Rune} (h1 : p.1 ≤ p.2) (h2 : p.2 < lo) (h3 : lo ≤ hi) (h : touches p lo hi = true) :
    lo = p.2 + 1 ∧ widen p lo hi = (p.1, hi) := by
  obtain ⟨a, b⟩ := p
  simp only [touches, Bool.and_eq_true, decide_eq_true_eq] at h
  simp only [widen]
  delta Rune at *
  refine ⟨by simp only at *; omega, ?_⟩
  simp only [Prod.mk.injEq]
  constructor <;> (split <;> simp only at * <;> omega)

theorem no_touch {p : Rune × Rune} {lo hi : Rune} (h1 : p.1 ≤ p.2) (h2 : p.2 < lo) (h3 : lo ≤ hi) (h : ¬ touches p lo hi = true) : p.2 + 2 ≤ lo := by
  obtain ⟨a, b⟩ := p
  simp only [touches, Bool.and_eq_true, decide_eq_true_eq] at h
  delta Rune at *
  simp only at *
  omega

theorem appendRange_apart : ∀ {r : Ranges} {n : Nat} {lo hi : Rune}, Apart n r → (∀ p ∈ r, p.2 < lo) → n ≤ lo → lo ≤ hi →
    Apart n (appendRange r lo hi) ∧ ∀ p ∈ appendRange r lo hi, p.2 ≤ hi
  | [], n, lo, hi, _, _, h3, h4 => by
    rw [appendRange]
    exact ⟨⟨h3, h4, trivial⟩, fun p hp => by rw [List.mem_singleton] at hp; rw [hp]; exact Nat.le_refl _⟩
  | [p], n, lo, hi, h1, h2, h3, h4 => by
    have hp := h2 p (by simp)
    rw [appendRange]
    split
    · rename_i h
      obtain ⟨e1, e2⟩ := touch_next h1.2.1 hp h4 h
      rw [e2]
      refine ⟨⟨h1.1, ?_, trivial⟩, fun q hq => by rw [List.mem_singleton] at hq; rw [hq]; exact Nat.le_refl _⟩
      exact Nat.le_trans h1.2.1 (Nat.le_trans (Nat.le_of_lt hp) h4)
    · rename_i h
      refine ⟨⟨h1.1, h1.2.1, no_touch h1.2.1 hp h4 h, h4, trivial⟩, fun q hq => ?_⟩
      simp only [List.mem_cons, List.not_mem_nil, or_false] at hq
      rcases hq with rfl | rfl
      · exact Nat.le_trans (Nat.le_of_lt hp) h4
      · exact Nat.le_refl _
  | [p, q], n, lo, hi, h1, h2, h3, h4 => by
    have hp := h2 p (by simp)
    have hq := h2 q (by simp)
    have hpq := h1.2.2.1
    rw [appendRange]
    split
    · rename_i h
      obtain ⟨e1, e2⟩ := touch_next h1.2.2.2.1 hq h4 h
      rw [e2]
      refine ⟨⟨h1.1, h1.2.1, hpq, Nat.le_trans h1.2.2.2.1 (Nat.le_trans (Nat.le_of_lt hq) h4), trivial⟩, fun x hx => ?_⟩
      simp only [List.mem_cons, List.not_mem_nil, or_false] at hx
      rcases hx with rfl | rfl
      · exact Nat.le_trans (Nat.le_of_lt hp) h4
      · exact Nat.le_refl _
    · rename_i h
      split
      · rename_i h'
        obtain ⟨e1, -⟩ := touch_next h1.2.1 hp h4 h'
        exact absurd (Nat.le_trans hpq (Nat.le_trans h1.2.2.2.1 (Nat.le_of_lt_succ (Nat.lt_of_lt_of_eq hq e1)))) (by simp)
      · refine ⟨⟨h1.1, h1.2.1, hpq, h1.2.2.2.1, no_touch h1.2.2.2.1 hq h4 h, h4, trivial⟩, fun x hx => ?_⟩
        simp only [List.mem_cons, List.not_mem_nil, or_false] at hx
        rcases hx with rfl | rfl | rfl
        · exact Nat.le_trans (Nat.le_of_lt hp) h4
        · exact Nat.le_trans (Nat.le_of_lt hq) h4
        · exact Nat.le_refl _
  | p :: q :: r :: t, n, lo, hi, h1, h2, h3, h4 => by
    rw [appendRange]
    have hlo : p.2 + 2 ≤ lo := Nat.le_trans h1.2.2.1 (Nat.le_trans h1.2.2.2.1 (Nat.le_of_lt (h2 q (by simp))))
    obtain ⟨i1, i2⟩ := appendRange_apart (r := q :: r :: t) h1.2.2 (fun x hx => h2 x (List.mem_cons_of_mem _ hx)) hlo h4
    refine ⟨⟨h1.1, h1.2.1, i1⟩, fun x hx => ?_⟩
    rcases List.mem_cons.1 hx with rfl | hx
    · exact Nat.le_trans (Nat.le_of_lt (h2 _ (by simp))) h4
    · exact i2 x hx

theorem appendClass_apart : ∀ (x : Ranges) {r : Ranges} {n m : Nat}, Apart n r → (∀ p ∈ r, p.2 < m) → n ≤ m → RSorted m x → Apart n (appendClass r x)
  | [], _, _, _, h1, _, _, _ => h1
  | q :: x, r, n, m, h1, h2, h3, h4 => by
    have e : appendClass r (q :: x) = appendClass (appendRange r q.1 q.2) x := rfl
    rw [e]
    obtain ⟨i1, i2⟩ := appendRange_apart (hi := q.2) h1 (fun p hp => Nat.lt_of_lt_of_le (h2 p hp) h4.1) (Nat.le_trans h3 h4.1) h4.2.1
    exact appendClass_apart x i1 (fun p hp => Nat.lt_succ_of_le (i2 p hp)) (Nat.le_trans h3 (Nat.le_trans h4.1 (Nat.le_trans h4.2.1 (Nat.le_succ _)))) h4.2.2

theorem appendNegatedFrom_apart : ∀ (x : Ranges) {r : Ranges} {n m : Nat}, Apart n r → (∀ p ∈ r, p.2 < m) → n ≤ m → RSorted m x →
    Apart n (appendNegatedFrom r m x)
  | [], r, n, m, h1, h2, h3, _ => by
    rw [appendNegatedFrom]
    split
    · rename_i h
      exact (appendRange_apart h1 h2 h3 h).1
    · exact h1
  | (lo, hi) :: x, r, n, m, h1, h2, h3, h4 => by
    have hle : m ≤ lo := h4.1
    have hlh : lo ≤ hi := h4.2.1
    rw [appendNegatedFrom]
    refine appendNegatedFrom_apart x (m := hi + 1) ?_ ?_ (Nat.le_trans h3 (Nat.le_trans hle (Nat.le_succ_of_le hlh))) h4.2.2
    · split
      · rename_i h
        exact (appendRange_apart h1 h2 h3 (Nat.le_sub_one_of_lt h)).1
      · exact h1
    · intro p hp
      split at hp
      · rename_i h
        exact Nat.lt_succ_of_le (Nat.le_trans ((appendRange_apart h1 h2 h3 (Nat.le_sub_one_of_lt h)).2 p hp) (Nat.le_trans (Nat.sub_le _ _) hlh))
      · exact Nat.lt_succ_of_le (Nat.le_trans (Nat.le_of_lt (h2 p hp)) (Nat.le_trans hle hlh))

theorem gap_le {m lo hi : Nat} (h : m < lo) (h' : lo ≤ hi) : lo - 1 + 2 ≤ hi + 1 := by omega

theorem negateFrom_apart : ∀ (x : Ranges) {m : Nat}, RSorted m x → Apart m (negateFrom m x)
  | [], m, _ => by
    rw [negateFrom]
    split
    · rename_i h
      exact ⟨Nat.le_refl _, h, trivial⟩
    · trivial
  | (lo, hi) :: x, m, h => by
    have hle : m ≤ lo := h.1
    have hlh : lo ≤ hi := h.2.1
    have ih := negateFrom_apart x (m := hi + 1) h.2.2
    rw [negateFrom]
    split
    · rename_i hm
      refine ⟨Nat.le_refl _, Nat.le_sub_one_of_lt hm, ih.mono ?_⟩
      exact gap_le hm hlh
    · exact ih.mono (Nat.le_trans hle (Nat.le_succ_of_le hlh))

theorem mergeRanges_apart : ∀ (r : Ranges) {p : Rune × Rune} {n : Nat}, n ≤ p.1 → p.1 ≤ p.2 → (∀ q ∈ r, q.1 ≤ q.2) → LowSorted p.1 r →
    Apart n (mergeRanges p r)
  | [], p, n, hn, hp, _, _ => ⟨hn, hp, trivial⟩
  | q :: t, p, n, hn, hp, hr, hs => by
    rw [mergeRanges]
    split
    · rename_i h
      have hle : p.2 ≤ (if q.2 > p.2 then q.2 else p.2) := by split; exact Nat.le_of_lt (by assumption); exact Nat.le_refl _
      exact mergeRanges_apart t (p := (p.1, if q.2 > p.2 then q.2 else p.2)) hn (Nat.le_trans hp hle) (fun x hx => hr x (List.mem_cons_of_mem _ hx))
        (LowSorted_mono hs.1 hs.2)
    · rename_i h
      exact ⟨hn, hp, mergeRanges_apart t (p := q) (n := p.2 + 2) (Nat.lt_of_not_le h) (hr q (by simp)) (fun x hx => hr x (List.mem_cons_of_mem _ hx)) hs.2⟩

theorem cleanClass_apart {r : Ranges} (hr : ROk r) : Apart 0 (cleanClass r) := by
  have h1 := sortRanges_low r
  have h3 : ∀ q ∈ sortRanges r, q.1 ≤ q.2 := fun p hp => (hr p ((sortRanges_mem p r).1 hp)).1
  rw [cleanClass]
  split
  · trivial
  · rename_i p t e
    rw [e] at h1 h3
    exact mergeRanges_apart t (Nat.zero_le _) (h3 p (by simp)) (fun q hq => h3 q (List.mem_cons_of_mem _ hq)) h1.2

theorem Apart.sorted : ∀ {r : Ranges} {n : Nat}, Apart n r → RSorted n r
  | [], _, _ => trivial
  | p :: t, n, h => ⟨h.1, h.2.1, Apart.sorted (h.2.2.mono (Nat.le_succ _))⟩

theorem sortRanges_apart : ∀ {r : Ranges} {n : Nat}, Apart n r → sortRanges r = r
  | [], _, _ => rfl
  | p :: t, n, h => by
    have e : sortRanges (p :: t) = insertRange p (sortRanges t) := rfl
    rw [e, sortRanges_apart h.2.2]
    cases t with
    | nil => rfl
    | cons q t =>
      have hb : rangeBefore p q = true := by
        have : p.1 < q.1 := Nat.lt_of_le_of_lt h.2.1 (Nat.lt_of_lt_of_le (Nat.lt_add_of_pos_right (by decide)) h.2.2.1)
        simp [rangeBefore, this]
      rw [insertRange, if_pos hb]

theorem mergeRanges_same : ∀ {r : Ranges} {p : Rune × Rune}, Apart (p.2 + 2) r → mergeRanges p r = p :: r
  | [], _, _ => rfl
  | q :: t, p, h => by
    rw [mergeRanges, if_neg (Nat.not_le.2 (Nat.lt_of_succ_le h.1)), mergeRanges_same h.2.2]

/-- Such a class is clean. -/
theorem cleanClass_same {r : Ranges} {n : Nat} (h : Apart n r) : cleanClass r = r := by
  rw [cleanClass, sortRanges_apart h]
  cases r with
  | nil => rfl
  | cons p t => exact mergeRanges_same h.2.2

theorem appendGroup_apart (hb : FoldBounds orbit) {fold : Bool} {g : Bool × Ranges} (hg : ROk g.2) (hs : RSorted 0 g.2) :
    Apart 0 (appendGroup orbit fold [] g) := by
  have hc : ∃ c, (if fold then cleanClass (appendFoldedClass orbit [] g.2) else g.2) = c ∧ RSorted 0 c := by
    cases fold with
    | false => exact ⟨_, rfl, hs⟩
    | true =>
      obtain ⟨h1, -⟩ := appendFoldedClass_spec hb g.2 (r := []) ROk_nil hg
      exact ⟨_, rfl, (cleanClass_spec h1).2.1⟩
  obtain ⟨c, e, h1⟩ := hc
  rw [appendGroup, e]
  split
  · exact appendClass_apart c (r := []) (m := 0) trivial (by simp) (Nat.le_refl _) h1
  · exact appendNegatedFrom_apart c (r := []) (m := 0) trivial (by simp) (Nat.le_refl _) h1

theorem apart_one : ∀ {r : Ranges} {n : Nat} {a : Nat} (k : Nat), Apart n r → (∀ x : Nat, a ≤ x → x ≤ a + k → InR r x) →
    ∃ p ∈ r, p.1 ≤ a ∧ a + k ≤ p.2
  | [], n, a, k, _, h => by
    obtain ⟨p, hp, -⟩ := h a (Nat.le_refl _) (Nat.le_add_right _ _)
    exact absurd hp (by simp)
  | p :: t, n, a, k, h, hx => by
    by_cases h1 : p.1 ≤ a ∧ a ≤ p.2
    · by_cases h2 : a + k ≤ p.2
      · exact ⟨p, by simp, h1.1, h2⟩
      · exfalso
        obtain ⟨q, hq, q1, q2⟩ := hx (p.2 + 1) (Nat.le_succ_of_le h1.2) (Nat.lt_of_not_le h2)
        rcases List.mem_cons.1 hq with rfl | hq
        · exact absurd q2 (Nat.not_succ_le_self _)
        · exact absurd (Nat.le_trans (apart_low h.2.2 q hq).1 q1) (Nat.not_succ_le_self _)
    · have hrest : ∀ x : Nat, a ≤ x → x ≤ a + k → InR t x := by
        have ha : a < p.1 ∨ p.2 < a := by
          by_cases h2 : p.1 ≤ a
          · exact .inr (Nat.lt_of_not_le fun h3 => h1 ⟨h2, h3⟩)
          · exact .inl (Nat.lt_of_not_le h2)
        obtain ⟨q, hq, q1, q2⟩ := hx a (Nat.le_refl _) (Nat.le_add_right _ _)
        have hq' : q ∈ t := by
          rcases List.mem_cons.1 hq with rfl | hq
          · exact absurd ⟨q1, q2⟩ h1
          · exact hq
        have hpa : p.2 < a := by
          rcases ha with ha | ha
          · exact Nat.lt_of_lt_of_le (Nat.lt_of_lt_of_le (Nat.lt_add_of_pos_right (by decide)) (apart_low h.2.2 q hq').1) q1
          · exact ha
        intro x x1 x2
        obtain ⟨q, hq, q1, q2⟩ := hx x x1 x2
        rcases List.mem_cons.1 hq with rfl | hq
        · exact absurd (Nat.le_trans x1 q2) (Nat.not_le.2 hpa)
        · exact ⟨q, hq, q1, q2⟩
      obtain ⟨q, hq, h2⟩ := apart_one k h.2.2 hrest
      exact ⟨q, List.mem_cons_of_mem _ hq, h2⟩

theorem apart_two : ∀ {r : Ranges} {n : Nat} {p q : Rune × Rune}, Apart n r → p ∈ r → q ∈ r → p = q ∨ p.2 < q.1 ∨ q.2 < p.1
  | [], _, _, _, _, hp, _ => absurd hp (by simp)
  | a :: t, n, p, q, h, hp, hq => by
    have hlt : ∀ x ∈ t, a.2 < x.1 := fun x hx => Nat.lt_of_lt_of_le (Nat.lt_add_of_pos_right (by decide)) (apart_low h.2.2 x hx).1
    rcases List.mem_cons.1 hp with e | hp'
    · rcases List.mem_cons.1 hq with e' | hq'
      · exact .inl (e.trans e'.symm)
      · exact .inr (.inl (e ▸ hlt q hq'))
    · rcases List.mem_cons.1 hq with e' | hq'
      · exact .inr (.inr (e' ▸ hlt p hp'))
      · exact apart_two h.2.2 hp' hq'

end Hound.GoRe
