import Verif.Spec.GoTree
import Verif.Proofs.ThompsonBuild

/-! # `Simplify` keeps the meaning of a tree, and `Compile` makes programs of the shape `Spec.Thompson` -/

namespace Hound.GoRe
open Spec

variable {orbit : Rune → List Rune}

/-! ## `Simplify` -/

/-- Two expressions match at the same places. -/
def Same (orbit : Rune → List Rune) (a b : Re) : Prop := ∀ w i j, MatchAt orbit w a i j ↔ MatchAt orbit w b i j

theorem Same.refl (a : Re) : Same orbit a a := fun _ _ _ => Iff.rfl
theorem Same.symm {a b : Re} (h : Same orbit a b) : Same orbit b a := fun w i j => (h w i j).symm
theorem Same.trans {a b c : Re} (h : Same orbit a b) (h' : Same orbit b c) : Same orbit a c :=
  fun w i j => (h w i j).trans (h' w i j)

theorem iter_congr {R S : Nat → Nat → Prop} (h : ∀ i j, R i j ↔ S i j) : ∀ {n i j}, Iter R n i j ↔ Iter S n i j
  | 0, _, _ => Iff.rfl
  | n + 1, i, j => by simp only [Iter, h, iter_congr h (n := n)]

theorem same_star {a b : Re} (h : Same orbit a b) : Same orbit (.star a) (.star b) := fun w i j => by
  simp only [MatchAt, iter_congr (h w)]
theorem same_plus {a b : Re} (h : Same orbit a b) : Same orbit (.plus a) (.plus b) := fun w i j => by
  simp only [MatchAt, iter_congr (h w)]
theorem same_quest {a b : Re} (h : Same orbit a b) : Same orbit (.quest a) (.quest b) := fun w i j => by
  simp only [MatchAt, h w]
theorem same_rep {a b : Re} {lo : Nat} {hi : Option Nat} (h : Same orbit a b) : Same orbit (.rep a lo hi) (.rep b lo hi) :=
  fun w i j => by simp only [MatchAt, iter_congr (h w)]
theorem same_capture {a b : Re} (h : Same orbit a b) : Same orbit (.capture a) (.capture b) := fun w i j => by
  simp only [MatchAt, h w]

/-- Two lists of expressions, one by one. -/
inductive SameL (orbit : Rune → List Rune) : List Re → List Re → Prop
  | nil : SameL orbit [] []
  | cons {a b : Re} {as bs : List Re} : Same orbit a b → SameL orbit as bs → SameL orbit (a :: as) (b :: bs)

theorem same_concat {as bs : List Re} (h : SameL orbit as bs) : Same orbit (.concat as) (.concat bs) := by
  intro w
  simp only [MatchAt]
  induction h with
  | nil => intro i j; simp only [ConcatAt]
  | cons h _ ih => intro i j; simp only [ConcatAt, h w, ih]

theorem same_alternate {as bs : List Re} (h : SameL orbit as bs) : Same orbit (.alternate as) (.alternate bs) := by
  intro w i j
  simp only [MatchAt]
  induction h with
  | nil => simp only [AlternateAt]
  | cons h _ ih => simp only [AlternateAt, h w, ih]

theorem iter_trans_star {R : Nat → Nat → Prop} : ∀ {n i j : Nat}, Iter (fun a b => ∃ m, Iter R m a b) n i j → ∃ m, Iter R m i j
  | 0, i, j, h => ⟨0, h⟩
  | n + 1, i, j, ⟨k, ⟨m, h1⟩, h2⟩ => by
    obtain ⟨m', h3⟩ := iter_trans_star h2
    exact ⟨m + m', iter_add.2 ⟨k, h1, h3⟩⟩

theorem iter_one {R : Nat → Nat → Prop} {i j : Nat} : Iter R 1 i j ↔ R i j := by
  simp only [Iter, exists_eq_right]

theorem iter_eq {n i j : Nat} : Iter (fun a b => a = b) n i j ↔ i = j := by
  induction n generalizing i with
  | zero => rfl
  | succ n ih => simp only [Iter, ih]; exact ⟨fun ⟨k, h1, h2⟩ => h1.trans h2, fun h => ⟨i, rfl, h⟩⟩

/-- The meaning of the three operators. -/
def Op.re (op : Op) (r : Re) : Re :=
  match op with
  | .star => .star r
  | .plus => .plus r
  | .quest => .quest r

theorem same_op {op : Op} {a b : Re} (h : Same orbit a b) : Same orbit (op.re a) (op.re b) := by
  cases op
  · exact same_star h
  · exact same_plus h
  · exact same_quest h

theorem op_empty (op : Op) : Same orbit (op.re .emptyMatch) .emptyMatch := by
  intro w i j
  have h : ∀ a b, MatchAt orbit w .emptyMatch a b ↔ a = b := fun a b => by simp only [MatchAt]
  cases op <;> simp only [Op.re, MatchAt, iter_congr h, iter_eq, exists_const, or_self]

theorem op_idem (op : Op) (r : Re) : Same orbit (op.re (op.re r)) (op.re r) := by
  intro w i j
  cases op <;> simp only [Op.re, MatchAt]
  · constructor
    · rintro ⟨n, h⟩; exact iter_trans_star h
    · rintro ⟨n, h⟩; exact ⟨1, iter_one.2 ⟨n, h⟩⟩
  · constructor
    · rintro ⟨n, k, ⟨m, h1⟩, h2⟩
      have h2' : Iter (fun a b => ∃ m, Iter (MatchAt orbit w r) m a b) n k j := by
        revert h2
        generalize k = a
        induction n generalizing a with
        | zero => exact id
        | succ n ih => rintro ⟨b, ⟨m', h1⟩, h2⟩; exact ⟨b, ⟨m' + 1, h1⟩, ih _ h2⟩
      obtain ⟨m', h3⟩ := iter_trans_star h2'
      exact ⟨m + m', by rw [show m + m' + 1 = (m + 1) + m' by omega]; exact iter_add.2 ⟨k, h1, h3⟩⟩
    · rintro ⟨n, h⟩; exact ⟨0, iter_one.2 ⟨n, h⟩⟩
  · constructor
    · rintro (h | h)
      · exact .inl h
      · exact h
    · exact .inr

theorem node_re (op : Op) (ng : Bool) (s : Syn) : (op.node ng s).re = op.re s.re := by
  cases op <;> simp only [Op.node, Syn.re, Op.re]

theorem op?_re {s : Syn} {op : Op} {ng : Bool} (h : s.op? = some (op, ng)) : ∃ r, s.re = op.re r := by
  cases s <;> simp only [Syn.op?, reduceCtorEq, Option.some.injEq, Prod.mk.injEq] at h
  all_goals
    obtain ⟨rfl, rfl⟩ := h
    simp only [Syn.re]
    exact ⟨_, rfl⟩

theorem simplify1_same (op : Op) (ng : Bool) (s : Syn) : Same orbit (simplify1 op ng s).re (op.re s.re) := by
  unfold simplify1
  split
  · simp only [Syn.re]; exact (op_empty op).symm
  · split
    · rename_i h
      obtain ⟨r, hr⟩ := op?_re h
      rw [hr]; exact (op_idem op r).symm
    · rw [node_re]; exact .refl _

theorem nestQuest_same (ng : Bool) (s : Syn) : ∀ n, ∀ w i j, MatchAt orbit w (nestQuest ng s n).re i j ↔
    ∃ m, m ≤ n + 1 ∧ Iter (MatchAt orbit w s.re) m i j
  | 0, w, i, j => by
    rw [nestQuest, simplify1_same .quest ng s w i j]
    simp only [Op.re, MatchAt]
    constructor
    · rintro (h | h)
      · exact ⟨0, by omega, h⟩
      · exact ⟨1, by omega, iter_one.2 h⟩
    · rintro ⟨m, hm, h⟩
      rcases (by omega : m = 0 ∨ m = 1) with rfl | rfl
      · exact .inl h
      · exact .inr (iter_one.1 h)
  | n + 1, w, i, j => by
    rw [nestQuest, simplify1_same .quest ng _ w i j]
    simp only [Op.re, Syn.re, Syn.res, MatchAt, ConcatAt, exists_eq_right, nestQuest_same ng s n w]
    constructor
    · rintro (h | ⟨k, h1, m, hm, h2⟩)
      · exact ⟨0, by omega, h⟩
      · exact ⟨m + 1, by omega, k, h1, h2⟩
    · rintro ⟨m, hm, h⟩
      cases m with
      | zero => exact .inl h
      | succ m =>
        obtain ⟨k, h1, h2⟩ := h
        exact .inr ⟨k, h1, m, by omega, h2⟩

theorem res_append : ∀ {a b : List Syn}, Syn.res (a ++ b) = Syn.res a ++ Syn.res b
  | [], _ => rfl
  | _ :: a, b => by rw [List.cons_append, Syn.res, Syn.res, res_append, List.cons_append]

theorem res_replicate (s : Syn) : ∀ n, Syn.res (List.replicate n s) = List.replicate n s.re
  | 0 => rfl
  | n + 1 => by rw [List.replicate_succ, List.replicate_succ, Syn.res, res_replicate s n]

theorem simplifyRep_same (ng : Bool) (s : Syn) (lo : Nat) (hi : Option Nat)
    (hle : ∀ h, hi = some h → lo ≤ h) : Same orbit (simplifyRep ng s lo hi).re (.rep s.re lo hi) := by
  intro w i j
  cases hi with
  | none =>
    rw [simplifyRep.eq_def]
    simp only []
    split
    · rename_i h
      subst h
      rw [simplify1_same .star ng s w i j]
      simp only [Op.re, MatchAt, reduceCtorEq, Nat.zero_le, true_and, false_implies, forall_const]
    · split
      · rename_i h
        subst h
        rw [simplify1_same .plus ng s w i j]
        simp only [Op.re, MatchAt, reduceCtorEq, false_implies, forall_const, true_and]
        constructor
        · rintro ⟨n, h⟩; exact ⟨n + 1, by omega, h⟩
        · rintro ⟨n, hn, h⟩; exact ⟨n - 1, by rw [Nat.sub_add_cancel hn]; exact h⟩
      · rename_i h0 h1
        simp only [Syn.re, res_append, res_replicate, Syn.res, MatchAt, concatAt_append, concatAt_replicate, ConcatAt,
          exists_eq_right, simplify1_same .plus ng s w, Op.re, reduceCtorEq, false_implies, forall_const, true_and]
        constructor
        · rintro ⟨k, h2, n, h3⟩
          exact ⟨lo - 1 + (n + 1), by omega, iter_add.2 ⟨k, h2, h3⟩⟩
        · rintro ⟨n, hn, h⟩
          rw [show n = lo - 1 + (n - lo + 1) by omega] at h
          obtain ⟨k, h2, h3⟩ := iter_add.1 h
          exact ⟨k, h2, n - lo, h3⟩
  | some hi =>
    have e : MatchAt orbit w (.rep s.re lo (some hi)) i j ↔ ∃ n, lo ≤ n ∧ n ≤ hi ∧ Iter (MatchAt orbit w s.re) n i j := by
      simp only [MatchAt, Option.some.injEq, forall_eq']
    rw [e, simplifyRep.eq_def]
    simp only []
    split
    · rename_i h
      obtain ⟨rfl, rfl⟩ := h
      simp only [Syn.re, MatchAt]
      constructor
      · intro h; exact ⟨0, by omega, by omega, h⟩
      · rintro ⟨n, _, hn, h⟩
        have : n = 0 := by omega
        subst this; exact h
    · split
      · rename_i h
        obtain ⟨rfl, rfl⟩ := h
        constructor
        · intro h; exact ⟨1, by omega, by omega, iter_one.2 h⟩
        · rintro ⟨n, h1, h2, h⟩
          have : n = 1 := by omega
          subst this; exact iter_one.1 h
      · split
        · rename_i hlt
          split
          · rename_i h0
            subst h0
            rw [nestQuest_same]
            constructor
            · rintro ⟨m, hm, h⟩; exact ⟨m, by omega, by omega, h⟩
            · rintro ⟨m, _, hm, h⟩; exact ⟨m, by omega, h⟩
          · simp only [Syn.re, res_append, res_replicate, Syn.res, MatchAt, concatAt_append, concatAt_replicate, ConcatAt,
              exists_eq_right, nestQuest_same]
            constructor
            · rintro ⟨k, h2, m, hm, h3⟩
              exact ⟨lo + m, by omega, by omega, iter_add.2 ⟨k, h2, h3⟩⟩
            · rintro ⟨n, h1, h2, h⟩
              rw [show n = lo + (n - lo) by omega] at h
              obtain ⟨k, h3, h4⟩ := iter_add.1 h
              exact ⟨k, h3, n - lo, by omega, h4⟩
        · rename_i h0 h1 hlt
          split
          · rename_i hpos
            simp only [Syn.re, res_replicate, MatchAt, concatAt_replicate]
            have : lo = hi := by have := hle hi rfl; omega
            subst this
            constructor
            · intro h; exact ⟨lo, by omega, by omega, h⟩
            · rintro ⟨n, h1, h2, h⟩
              have : n = lo := by omega
              subst this; exact h
          · simp only [Syn.re, MatchAt, false_iff]
            rintro ⟨n, h2, h3, _⟩
            omega
mutual
/-- `Simplify` keeps the meaning. -/
theorem simplify_same : ∀ s : Syn, Bounded s → Same orbit (simplify s).re s.re
  | .noMatch, _ | .emptyMatch, _ | .literal _ _, _ | .charClass _, _ | .anyCharNotNL, _ | .anyChar, _ | .beginLine, _
  | .endLine, _ | .beginText, _ | .endText _, _ | .wordBoundary, _ | .noWordBoundary, _ => .refl _
  | .capture _ _ r, h => by
    simp only [simplify, Syn.re]; exact same_capture (simplify_same r (by simpa only [Bounded] using h))
  | .star ng r, h => by
    simp only [simplify, Syn.re]
    exact (simplify1_same .star ng _).trans (same_star (simplify_same r (by simpa only [Bounded] using h)))
  | .plus ng r, h => by
    simp only [simplify, Syn.re]
    exact (simplify1_same .plus ng _).trans (same_plus (simplify_same r (by simpa only [Bounded] using h)))
  | .quest ng r, h => by
    simp only [simplify, Syn.re]
    exact (simplify1_same .quest ng _).trans (same_quest (simplify_same r (by simpa only [Bounded] using h)))
  | .rep ng r lo hi, h => by
    simp only [Bounded] at h
    simp only [simplify, Syn.re]
    exact (simplifyRep_same ng _ lo hi h.2).trans (same_rep (simplify_same r h.1))
  | .concat rs, h => by
    simp only [simplify, Syn.re]; exact same_concat (simplifyL_same rs (by simpa only [Bounded] using h))
  | .alternate rs, h => by
    simp only [simplify, Syn.re]; exact same_alternate (simplifyL_same rs (by simpa only [Bounded] using h))
theorem simplifyL_same : ∀ rs : List Syn, BoundedL rs → SameL orbit (Syn.res (simplifyL rs)) (Syn.res rs)
  | [], _ => .nil
  | r :: rs, h => by
    simp only [BoundedL] at h
    simp only [simplifyL, Syn.res]
    exact .cons (simplify_same r h.1) (simplifyL_same rs h.2)
end

/-! ## `Compile` -/

/-- The fields `out` of instruction `n` filled in. -/
def fill (out : List Slot) (k n : Nat) (i : Inst) : Inst :=
  let i := if (n, false) ∈ out then setSlot false k i else i
  if (n, true) ∈ out then setSlot true k i else i

theorem setSlot_idem (a : Bool) (k : Nat) (i : Inst) : setSlot a k (setSlot a k i) = setSlot a k i := by
  cases a <;> cases i <;> rfl
theorem setSlot_comm (k : Nat) (i : Inst) : setSlot true k (setSlot false k i) = setSlot false k (setSlot true k i) := by
  cases i <;> rfl

theorem fill_nil (k n : Nat) (i : Inst) : fill [] k n i = i := rfl

theorem fill_cons (s : Slot) (l : List Slot) (k n : Nat) (i : Inst) :
    fill l k n (if s.1 = n then setSlot s.2 k i else i) = fill (s :: l) k n i := by
  obtain ⟨a, b⟩ := s
  simp only [fill, List.mem_cons, Prod.mk.injEq]
  by_cases h : a = n
  · subst h
    simp only [true_and, if_true]
    cases b
    · by_cases h1 : (a, false) ∈ l <;> by_cases h2 : (a, true) ∈ l <;> simp [h1, h2, setSlot_idem]
    · by_cases h1 : (a, false) ∈ l <;> by_cases h2 : (a, true) ∈ l <;>
        simp [h1, h2, setSlot_idem, setSlot_comm]
  · have h' : ¬ n = a := fun e => h e.symm
    simp only [h, h', false_and, false_or, if_false]

theorem patch_get (v : Nat) : ∀ (out : List Slot) (X : List Inst) (n : Nat),
    (patch out v X)[n]? = (X[n]?).map (fill out v n)
  | [], X, n => by
    have : fill [] v n = id := by funext i; rfl
    rw [patch, this, Option.map_id_fun]; rfl
  | s :: l, X, n => by
    rw [patch, patch_get v l, List.getElem?_modify]
    cases X[n]? with
    | none => rfl
    | some i => exact congrArg some (fill_cons s l v n i)

theorem patch_length (v : Nat) : ∀ (out : List Slot) (X : List Inst), (patch out v X).length = X.length
  | [], _ => rfl
  | s :: l, X => by rw [patch, patch_length v l, List.length_modify]

theorem fill_off {out : List Slot} {n : Nat} (h : ∀ s ∈ out, s.1 ≠ n) (k : Nat) (i : Inst) : fill out k n i = i := by
  have h1 : ∀ b, (n, b) ∉ out := fun b hb => h _ hb rfl
  simp only [fill, h1, if_false]

theorem fill_append_left {a b : List Slot} {n : Nat} (h : ∀ s ∈ b, s.1 ≠ n) (k : Nat) (i : Inst) :
    fill (a ++ b) k n i = fill a k n i := by
  have h1 : ∀ c, (n, c) ∉ b := fun c hb => h _ hb rfl
  simp only [fill, List.mem_append, h1, or_false]

theorem fill_append_right {a b : List Slot} {n : Nat} (h : ∀ s ∈ a, s.1 ≠ n) (k : Nat) (i : Inst) :
    fill (a ++ b) k n i = fill b k n i := by
  have h1 : ∀ c, (n, c) ∉ a := fun c hb => h _ hb rfl
  simp only [fill, List.mem_append, h1, false_or]

/-- The instructions from `lo` to `hi` are a fragment for `re`: filled in with `k`, they lead from `f.i` to `k`. -/
structure Good (orbit : Rune → List Rune) (re : Re) (lo hi : Nat) (f : Frag) (X : List Inst) : Prop where
  slots : ∀ s ∈ f.out, lo ≤ s.1 ∧ s.1 < hi
  dead : f.i = 0 → ∀ w i j, ¬ MatchAt orbit w re i j
  frag : ∀ (P : List Inst) (k : Nat), P[0]? = some .fail →
    (∀ n, lo ≤ n → n < hi → P[n]? = (X[n]?).map (fill f.out k n)) → Thompson orbit P re f.i k

variable {r r1 r2 re re' : Re} {lo mid hi : Nat} {f f1 f2 : Frag} {X X' : List Inst}

theorem Good.same (h : Good orbit re lo hi f X) (he : Same orbit re' re) : Good orbit re' lo hi f X where
  slots := h.slots
  dead h0 w i j := fun hm => h.dead h0 w i j ((he w i j).1 hm)
  frag P k h0 hP := .simplify he (h.frag P k h0 hP)

theorem Good.agree (h : Good orbit re lo hi f X) (he : ∀ n, lo ≤ n → n < hi → X'[n]? = X[n]?) : Good orbit re lo hi f X' where
  slots := h.slots
  dead := h.dead
  frag P k h0 hP := h.frag P k h0 fun n h1 h2 => by rw [hP n h1 h2, he n h1 h2]

theorem Good.widen (h : Good orbit re mid hi f X) {lo' hi' : Nat} (h1 : lo' ≤ mid) (h2 : hi ≤ hi') :
    Good orbit re lo' hi' f X where
  slots s hs := ⟨Nat.le_trans h1 (h.slots s hs).1, Nat.lt_of_lt_of_le (h.slots s hs).2 h2⟩
  dead := h.dead
  frag P k h0 hP := h.frag P k h0 fun n h3 h4 => hP n (Nat.le_trans h1 h3) (Nat.lt_of_lt_of_le h4 h2)

theorem thompson_dead {P : List Inst} {k : Nat} (h : ∀ w i j, ¬ MatchAt orbit w re i j) (h0 : P[0]? = some .fail) :
    Thompson orbit P re 0 k :=
  .simplify (re' := .noMatch) (fun w i j => by simp only [MatchAt, iff_false]; exact h w i j) (.fail h0)

theorem good_dead (h : ∀ w i j, ¬ MatchAt orbit w re i j) : Good orbit re lo hi {} X where
  slots := by intro s hs; cases hs
  dead _ := h
  frag _ _ h0 _ := thompson_dead h h0

theorem good_single {i : Inst} {nl : Bool} (hX : 0 < X.length)
    (h : ∀ (P : List Inst) (e k : Nat), P[e]? = some (setSlot false k i) → Thompson orbit P re e k) :
    Good orbit re X.length (X.length + 1) (single i nl X).1 (single i nl X).2 where
  slots := by
    intro s hs
    rw [single, List.mem_singleton] at hs
    subst hs
    exact ⟨Nat.le_refl _, Nat.lt_succ_self _⟩
  dead h0 := absurd h0 (by simp only [single]; omega)
  frag P k _ hP := by
    refine h P _ k ?_
    have := hP X.length (Nat.le_refl _) (Nat.lt_succ_self _)
    simpa [single, fill] using this

theorem cat_length (f1 f2 : Frag) (X : List Inst) : (cat f1 f2 X).2.length = X.length := by
  unfold cat; split
  · rfl
  · exact patch_length _ _ _

theorem good_cat (h1 : Good orbit r1 lo mid f1 X) (h2 : Good orbit r2 mid hi f2 X) (hm : lo ≤ mid) (hh : mid ≤ hi) :
    Good orbit (.concat [r1, r2]) lo hi (cat f1 f2 X).1 (cat f1 f2 X).2 ∧
    ∀ n, n < lo → (cat f1 f2 X).2[n]? = X[n]? := by
  have hc : ∀ w i j, MatchAt orbit w (.concat [r1, r2]) i j ↔ ∃ k, MatchAt orbit w r1 i k ∧ MatchAt orbit w r2 k j := by
    intro w i j; simp only [MatchAt, ConcatAt, exists_eq_right]
  unfold cat
  split
  · rename_i h
    refine ⟨good_dead fun w i j hm => ?_, fun _ _ => rfl⟩
    obtain ⟨k, ha, hb⟩ := (hc w i j).1 hm
    rcases h with h | h
    · exact h1.dead h _ _ _ ha
    · exact h2.dead h _ _ _ hb
  · rename_i h
    refine ⟨⟨fun s hs => ⟨Nat.le_trans hm (h2.slots s hs).1, (h2.slots s hs).2⟩, fun h0 => absurd h0 (fun e => h (.inl e)),
      fun P k h0 hP => ?_⟩, fun n hn => ?_⟩
    · refine .concatCons (h1.frag P f2.i h0 fun n h3 h4 => ?_) (.concatCons (h2.frag P k h0 fun n h3 h4 => ?_) .concatNil)
      · rw [hP n h3 (by omega)]
        simp only [patch_get, Option.map_map]
        congr 1
        funext i
        exact fill_off (fun s hs => by have := (h2.slots s hs).1; omega) _ _
      · rw [hP n (by omega) h4]
        simp only [patch_get, Option.map_map]
        congr 1
        funext i
        exact congrArg _ (fill_off (fun s hs => by have := (h1.slots s hs).2; omega) _ _)
    · simp only [patch_get]
      cases X[n]? with
      | none => rfl
      | some i => exact congrArg some (fill_off (fun s hs => by have := (h1.slots s hs).1; omega) _ _)

theorem good_alt (h1 : Good orbit r1 lo mid f1 X) (h2 : Good orbit r2 mid X.length f2 X) (hm : lo ≤ mid)
    (hh : mid ≤ X.length) (hX : 0 < X.length) :
    Good orbit (.alternate [r1, r2]) lo (alt f1 f2 X).2.length (alt f1 f2 X).1 (alt f1 f2 X).2 ∧
    X.length ≤ (alt f1 f2 X).2.length ∧ ∀ n, n < X.length → (alt f1 f2 X).2[n]? = X[n]? := by
  have hc : ∀ w i j, MatchAt orbit w (.alternate [r1, r2]) i j ↔ MatchAt orbit w r1 i j ∨ MatchAt orbit w r2 i j := by
    intro w i j; simp only [MatchAt, AlternateAt, or_false]
  unfold alt
  split
  · rename_i h
    refine ⟨(h2.widen hm (Nat.le_refl _)).same fun w i j => ?_, Nat.le_refl _, fun _ _ => rfl⟩
    rw [hc]; exact ⟨fun h' => h'.resolve_left (h1.dead h w i j), .inr⟩
  · split
    · rename_i h
      refine ⟨(h1.widen (Nat.le_refl _) hh).same fun w i j => ?_, Nat.le_refl _, fun _ _ => rfl⟩
      rw [hc]; exact ⟨fun h' => h'.resolve_right (h2.dead h w i j), .inl⟩
    · have hlen : (X ++ [Inst.alt f1.i f2.i]).length = X.length + 1 := by simp
      refine ⟨⟨fun s hs => ?_, fun h0 => absurd h0 (by simp only []; omega), fun P k h0 hP => ?_⟩, by simp,
        fun n hn => by rw [List.getElem?_append_left hn]⟩
      · rw [hlen]
        rcases List.mem_append.1 hs with hs | hs
        · have := h1.slots s hs; omega
        · have := h2.slots s hs; omega
      · simp only [hlen] at hP
        have hl : P[X.length]? = some (.alt f1.i f2.i) := by
          rw [hP X.length (by omega) (by omega)]
          simp only [List.getElem?_concat_length, Option.map_some]
          rw [fill_off]
          intro s hs
          rcases List.mem_append.1 hs with hs | hs
          · have := h1.slots s hs; omega
          · have := h2.slots s hs; omega
        refine .altCons hl (.inl rfl) (h1.frag P k h0 fun n h3 h4 => ?_) (.altOne (h2.frag P k h0 fun n h3 h4 => ?_))
        · rw [hP n h3 (by omega), List.getElem?_append_left (by omega)]
          congr 1; funext i
          exact fill_append_left (fun s hs => by have := h2.slots s hs; omega) _ _
        · rw [hP n (by omega) (by omega), List.getElem?_append_left (by omega)]
          congr 1; funext i
          exact fill_append_right (fun s hs => by have := h1.slots s hs; omega) _ _

theorem choice_alt (i k : Nat) (ng : Bool) : IsAlt (setSlot (!ng) k (choice i ng)) i k := by
  cases ng
  · exact .inl rfl
  · exact .inr (.inl rfl)

theorem quest_length (ng : Bool) (f : Frag) (X : List Inst) : (quest ng f X).2.length = X.length + 1 := by simp [quest]
theorem loop_length (ng : Bool) (f : Frag) (X : List Inst) : (loop ng f X).2.length = X.length + 1 := by
  simp [loop, patch_length]

/-- The instruction of a repetition, filled in. -/
theorem choice_fill {out : List Slot} {n i k : Nat} {ng : Bool} (h1 : (n, !ng) ∈ out) (h2 : (n, ng) ∉ out) :
    IsAlt (fill out k n (choice i ng)) i k := by
  have : fill out k n (choice i ng) = setSlot (!ng) k (choice i ng) := by
    cases ng <;> simp_all [fill]
  rw [this]; exact choice_alt i k ng

theorem good_quest (ng : Bool) (h : Good orbit r lo X.length f X) (hh : lo ≤ X.length) (hX : 0 < X.length) :
    Good orbit (.quest r) lo (X.length + 1) (quest ng f X).1 (quest ng f X).2 ∧
    ∀ n, n < X.length → (quest ng f X).2[n]? = X[n]? := by
  refine ⟨⟨fun s hs => ?_, fun h0 => absurd h0 (by simp only [quest]; omega), fun P k h0 hP => ?_⟩,
    fun n hn => by rw [quest, List.getElem?_append_left hn]⟩
  · rcases List.mem_cons.1 hs with rfl | hs
    · exact ⟨hh, Nat.lt_succ_self _⟩
    · have := h.slots s hs; omega
  · simp only [quest] at hP ⊢
    have hl := hP X.length hh (Nat.lt_succ_self _)
    rw [List.getElem?_concat_length, Option.map_some] at hl
    refine .quest hl (choice_fill (List.mem_cons_self ..) ?_) (h.frag P k h0 fun n h3 h4 => ?_)
    · intro hs
      rcases List.mem_cons.1 hs with e | hs
      · cases ng <;> simp at e
      · have := h.slots _ hs; simp only [] at this; omega
    · rw [hP n h3 (by omega), List.getElem?_append_left h4]
      congr 1; funext i
      exact fill_append_right (a := [_]) (fun s hs => by rw [List.mem_singleton] at hs; subst hs; simp only []; omega) _ _

theorem loop_frag (ng : Bool) (h : Good orbit r lo X.length f X) (hh : lo ≤ X.length) {P : List Inst} {k : Nat}
    (h0 : P[0]? = some .fail)
    (hP : ∀ n, lo ≤ n → n < X.length + 1 → P[n]? = ((loop ng f X).2[n]?).map (fill (loop ng f X).1.out k n)) :
    Thompson orbit P r f.i X.length ∧ ∃ i, P[X.length]? = some i ∧ IsAlt i f.i k := by
  simp only [loop, patch_get, Option.map_map] at hP
  constructor
  · refine h.frag P X.length h0 fun n h3 h4 => ?_
    rw [hP n h3 (by omega), List.getElem?_append_left h4]
    congr 1; funext i
    exact fill_off (fun s hs => by rw [List.mem_singleton] at hs; subst hs; simp only []; omega) _ _
  · have hl := hP X.length hh (Nat.lt_succ_self _)
    rw [List.getElem?_concat_length, Option.map_some, Function.comp_apply] at hl
    rw [fill_off (out := f.out) (fun s hs => by have := h.slots s hs; omega)] at hl
    refine ⟨_, hl, choice_fill (List.mem_singleton.2 rfl) ?_⟩
    intro hs
    rw [List.mem_singleton] at hs
    cases ng <;> simp at hs

theorem loop_keep (ng : Bool) (h : Good orbit r lo X.length f X) (hh : lo ≤ X.length) {n : Nat} (hn : n < lo) :
    (loop ng f X).2[n]? = X[n]? := by
  simp only [loop, patch_get]
  rw [List.getElem?_append_left (by omega)]
  cases X[n]? with
  | none => rfl
  | some i => exact congrArg some (fill_off (fun s hs => by have := h.slots s hs; omega) _ _)

theorem good_loop (ng : Bool) (h : Good orbit r lo X.length f X) (hh : lo ≤ X.length) (hX : 0 < X.length) :
    Good orbit (.star r) lo (X.length + 1) (loop ng f X).1 (loop ng f X).2 where
  slots := by
    intro s hs
    rw [loop, List.mem_singleton] at hs
    subst hs
    exact ⟨hh, Nat.lt_succ_self _⟩
  dead h0 := absurd h0 (by simp only [loop]; omega)
  frag P k h0 hP := by
    obtain ⟨h1, i, h2, h3⟩ := loop_frag ng h hh h0 hP
    exact .star h2 h3 h1

theorem good_plus (ng : Bool) (h : Good orbit r lo X.length f X) (hh : lo ≤ X.length) :
    Good orbit (.plus r) lo (X.length + 1) (plus ng f X).1 (plus ng f X).2 where
  slots := by
    intro s hs
    rw [plus, loop, List.mem_singleton] at hs
    subst hs
    exact ⟨hh, Nat.lt_succ_self _⟩
  dead h0 w i j := by
    simp only [MatchAt, Iter]
    rintro ⟨n, k, h1, _⟩
    exact h.dead h0 _ _ _ h1
  frag P k h0 hP := by
    obtain ⟨h1, i, h2, h3⟩ := loop_frag ng h hh h0 hP
    exact .plus h2 h3 h1

theorem star_same (r : Re) : Same orbit (.star r) (.quest (.plus r)) := by
  intro w i j
  simp only [MatchAt]
  constructor
  · rintro ⟨n, h⟩
    cases n with
    | zero => exact .inl h
    | succ n => exact .inr ⟨n, h⟩
  · rintro (h | ⟨n, h⟩)
    · exact ⟨0, h⟩
    · exact ⟨n + 1, h⟩

theorem good_star (ng : Bool) (h : Good orbit r lo X.length f X) (hh : lo ≤ X.length) (hX : 0 < X.length) :
    Good orbit (.star r) lo (star ng f X).2.length (star ng f X).1 (star ng f X).2 ∧
    X.length ≤ (star ng f X).2.length ∧ ∀ n, n < lo → (star ng f X).2[n]? = X[n]? := by
  unfold star
  split
  · have hp := good_plus ng h hh
    have hl : (plus ng f X).2.length = X.length + 1 := loop_length ng f X
    rw [← hl] at hp
    obtain ⟨hq, hk⟩ := good_quest ng hp (by omega) (by omega)
    refine ⟨?_, ?_, fun n hn => ?_⟩
    · rw [quest_length]; exact hq.same (star_same r)
    · rw [quest_length]; omega
    · rw [hk n (by omega)]; exact loop_keep ng h hh hn
  · refine ⟨?_, ?_, fun n hn => loop_keep ng h hh hn⟩
    · rw [loop_length]; exact good_loop ng h hh hX
    · rw [loop_length]; omega

/-- What a step of the compiler leaves behind: a fragment from `lo` to the end, and nothing changed before it. -/
structure Done (orbit : Rune → List Rune) (re : Re) (lo : Nat) (X : List Inst) (b : Built) : Prop where
  good : Good orbit re lo b.2.length b.1 b.2
  len : lo ≤ b.2.length
  keep : ∀ n, n < lo → b.2[n]? = X[n]?

theorem Done.same {b : Built} (h : Done orbit re lo X b) (he : Same orbit re' re) : Done orbit re' lo X b :=
  ⟨h.good.same he, h.len, h.keep⟩

theorem done_single {i : Inst} {nl : Bool} (hX : 0 < X.length)
    (h : ∀ (P : List Inst) (e k : Nat), P[e]? = some (setSlot false k i) → Thompson orbit P re e k) :
    Done orbit re X.length X (single i nl X) := by
  have hl : (single i nl X).2.length = X.length + 1 := by simp [single]
  refine ⟨?_, by omega, fun n hn => by rw [single, List.getElem?_append_left hn]⟩
  rw [hl]; exact good_single hX h

/-- One more part of a concatenation. -/
theorem done_cat {b : Built} (h1 : Good orbit r1 lo X.length f X) (hh : lo ≤ X.length) (h2 : Done orbit r2 X.length X b) :
    Done orbit (.concat [r1, r2]) lo X (cat f b.1 b.2) := by
  obtain ⟨hg, hk⟩ := good_cat (h1.agree (X' := b.2) fun n _ hn => h2.keep n hn) h2.good hh h2.len
  refine ⟨?_, ?_, fun n hn => ?_⟩
  · rw [cat_length]; exact hg
  · rw [cat_length]; have := h2.len; omega
  · rw [hk n hn, h2.keep n (by omega)]

theorem concat_snoc (as : List Re) (a : Re) : Same orbit (.concat (as ++ [a])) (.concat [.concat as, a]) := by
  intro w i j
  simp only [MatchAt, concatAt_append, ConcatAt, exists_eq_right]

theorem alternateAt_append {w : Bytes} : ∀ {xs ys : List Re} {i j : Nat},
    AlternateAt orbit w (xs ++ ys) i j ↔ AlternateAt orbit w xs i j ∨ AlternateAt orbit w ys i j
  | [], ys, i, j => by simp [AlternateAt]
  | x :: xs, ys, i, j => by simp only [List.cons_append, AlternateAt, alternateAt_append (xs := xs), or_assoc]

theorem alternate_snoc (as : List Re) (a : Re) : Same orbit (.alternate (as ++ [a])) (.alternate [.alternate as, a]) := by
  intro w i j
  simp only [MatchAt, alternateAt_append, AlternateAt, or_false]

theorem litAt_append {fold : Bool} {w : Bytes} : ∀ {xs ys : List Rune} {i j : Nat},
    LitAt orbit fold w (xs ++ ys) i j ↔ ∃ k, LitAt orbit fold w xs i k ∧ LitAt orbit fold w ys k j
  | [], ys, i, j => by simp [LitAt]
  | x :: xs, ys, i, j => by
    simp only [List.cons_append, LitAt, litAt_append (xs := xs)]
    constructor
    · rintro ⟨a, k, h1, h2, m, h3, h4⟩; exact ⟨m, ⟨a, k, h1, h2, h3⟩, h4⟩
    · rintro ⟨m, ⟨a, k, h1, h2, h3⟩, h4⟩; exact ⟨a, k, h1, h2, m, h3, h4⟩

theorem literal_snoc (rs : List Rune) (x : Rune) (fold : Bool) :
    Same orbit (.literal (rs ++ [x]) fold) (.concat [.literal rs fold, .literal [x] fold]) := by
  intro w i j
  simp only [MatchAt, ConcatAt, litAt_append, exists_eq_right]

/-! ### Rune instructions -/

theorem runeOut_set {i : Inst} (h : (runeOut i).isSome) (k : Nat) : runeOut (setSlot false k i) = some k := by
  cases i <;> simp_all [runeOut, setSlot]

theorem instHas_set (i : Inst) (k : Nat) (x : Rune) : InstHas orbit (setSlot false k i) x ↔ InstHas orbit i x := by
  cases i with
  | rune rs f o => match rs with
    | [] => exact Iff.rfl
    | [a] => exact Iff.rfl
    | a :: b :: l => exact Iff.rfl
  | _ => exact Iff.rfl

theorem single_rune (x : Rune) (fold : Bool) (hX : 0 < X.length) :
    Done orbit (.literal [x] fold) X.length X (single (runeInstOf orbit [x] fold) false X) := by
  refine done_single hX fun P e k he => ?_
  refine .litCons he (runeOut_set ?_ k) (fun y => ?_) .litNil
  · simp only [runeInstOf]; split <;> rfl
  · rw [instHas_set, runeInstOf]
    split
    · rename_i h
      simp only [Bool.and_eq_true] at h
      simp only [InstHas, h.1]
    · rename_i h
      simp only [InstHas, FoldsTo]
      constructor
      · exact .inl
      · rintro (h' | ⟨h1, h2⟩)
        · exact h'
        · rw [h1, Bool.true_and, Bool.not_eq_true, Bool.not_eq_false', List.isEmpty_iff] at h
          rw [h] at h2; cases h2

theorem compileRunes_done {fold : Bool} : ∀ {rs done : List Rune} {f : Frag} {X : List Inst} {lo : Nat},
    Good orbit (.literal done fold) lo X.length f X → lo ≤ X.length → 0 < X.length →
    Done orbit (.literal (done ++ rs) fold) lo X (compileRunes orbit fold rs (f, X))
  | [], done, f, X, lo, h, hh, _ => by
    rw [List.append_nil]; exact ⟨h, hh, fun _ _ => rfl⟩
  | x :: rs, done, f, X, lo, h, hh, hX => by
    have h2 := single_rune (orbit := orbit) x fold hX
    have h3 := (done_cat h hh h2).same (literal_snoc done x fold)
    have h4 := compileRunes_done (rs := rs) h3.good h3.len (by rw [cat_length]; have := h2.len; omega)
    rw [List.append_assoc, List.singleton_append] at h4
    exact ⟨h4.good, h4.len, fun n hn => by rw [← h3.keep n hn]; exact h4.keep n hn⟩

theorem flat_eq : ∀ ps : List (Rune × Rune), flatRanges ps = Hound.flatRanges ps
  | [] => rfl
  | p :: ps => by rw [flatRanges, Hound.flatRanges, flat_eq ps]

theorem valid_le (r : Nat) (h : validRune r = true) : r ≤ 0x10FFFF := by
  simp only [validRune, Bool.or_eq_true, Bool.and_eq_true, decide_eq_true_eq, LT.lt, LE.le] at h
  rcases h with h | h
  · exact Nat.le_of_lt (Nat.lt_of_lt_of_le h (by decide))
  · exact h.2

theorem same_any : Same orbit (.charClass [((0 : Nat), (0x10FFFF : Nat))]) .anyChar := by
  intro w i j
  simp only [MatchAt, List.mem_singleton, exists_eq_left]
  constructor
  · rintro ⟨r, _, _, h⟩; exact ⟨r, h⟩
  · rintro ⟨r, h⟩
    exact ⟨r, Nat.zero_le _, valid_le r h.1, h⟩

theorem same_anyNotNL : Same orbit (.charClass [((0 : Nat), (9 : Nat)), ((11 : Nat), (0x10FFFF : Nat))]) .anyCharNotNL := by
  intro w i j
  simp only [MatchAt, List.mem_cons, List.not_mem_nil, or_false, exists_eq_or_imp, exists_eq_left]
  constructor
  · rintro (⟨r, h1, h2, h⟩ | ⟨r, h1, h2, h⟩)
    · exact ⟨r, by intro e; subst e; exact absurd h2 (by decide), h⟩
    · exact ⟨r, by intro e; subst e; exact absurd h1 (by decide), h⟩
  · rintro ⟨r, hr, h⟩
    have hv := h.1
    have key : ∀ r : Nat, validRune r = true → r ≠ 10 → r ≤ 9 ∨ (11 ≤ r ∧ r ≤ 0x10FFFF) := by
      intro r h1 h2
      have := valid_le r h1
      omega
    rcases key r hv hr with h1 | ⟨h1, h2⟩
    · exact .inl ⟨r, Nat.zero_le _, h1, h⟩
    · exact .inr ⟨r, h1, h2, h⟩

theorem thompson_flat {ranges : List (Rune × Rune)} {P : List Inst} {e k : Nat}
    (he : P[e]? = some (setSlot false k (.rune (flatRanges ranges) false 0))) : Thompson orbit P (.charClass ranges) e k :=
  .charClass he rfl fun x => by rw [instHas_set, flat_eq]; exact instHas_flat

theorem single_class (ranges : List (Rune × Rune)) (hX : 0 < X.length) :
    Done orbit (.charClass ranges) X.length X (single (runeInstOf orbit (flatRanges ranges) false) false X) := by
  match ranges with
  | [] => exact done_single hX fun P e k he => thompson_flat he
  | [(a, b)] =>
    refine done_single hX fun P e k he => ?_
    simp only [flatRanges, runeInstOf] at he
    split at he
    · rename_i h
      subst h
      refine .charClass he rfl fun x => ?_
      simp only [setSlot, InstHas, List.mem_singleton, exists_eq_left]
      exact ⟨fun h => by subst h; exact ⟨Nat.le_refl _, Nat.le_refl _⟩, fun h => Nat.le_antisymm h.2 h.1⟩
    · split at he
      · rename_i h
        obtain ⟨rfl, rfl⟩ := h
        exact .simplify same_any (.anyChar he rfl fun x => trivial)
      · exact thompson_flat he
  | [(a, b), (c, d)] =>
    refine done_single hX fun P e k he => ?_
    simp only [flatRanges, runeInstOf] at he
    split at he
    · rename_i h
      obtain ⟨rfl, rfl, rfl, rfl⟩ := h
      exact .simplify same_anyNotNL (.anyCharNotNL he rfl fun x => Iff.rfl)
    · exact thompson_flat he
  | p :: q :: s :: l => exact done_single hX fun P e k he => thompson_flat he

/-! ### The whole compiler -/

theorem done_nop {re : Re} (hX : 0 < X.length) (h : ∀ (P : List Inst) (k : Nat), Thompson orbit P re k k) :
    Done orbit re X.length X (single (.nop 0) true X) :=
  done_single hX fun P e k he => .skip he (.inl rfl) (h P k)

theorem single_length (i : Inst) (nl : Bool) (X : List Inst) : (single i nl X).2.length = X.length + 1 := by simp [single]

mutual
theorem compile_done : ∀ (s : Syn) {X : List Inst} {b : Built}, 0 < X.length → compile orbit s X = some b →
    Done orbit s.re X.length X b
  | .noMatch, X, b, hX, h => by
    rw [compile, Option.some.injEq] at h
    subst h
    exact ⟨good_dead fun w i j => by simp only [Syn.re, MatchAt, not_false_eq_true], Nat.le_refl _, fun _ _ => rfl⟩
  | .emptyMatch, X, b, hX, h => by
    rw [compile, Option.some.injEq] at h
    subst h
    exact done_nop hX fun _ _ => .emptyMatch
  | .literal [] fold, X, b, hX, h => by
    rw [compile, Option.some.injEq] at h
    subst h
    exact done_nop hX fun _ _ => .litNil
  | .literal (r :: rs) fold, X, b, hX, h => by
    rw [compile, Option.some.injEq] at h
    subst h
    have h1 := single_rune (orbit := orbit) r fold hX
    have h2 := compileRunes_done (rs := rs) h1.good h1.len (by rw [single_length]; omega)
    exact ⟨h2.good, h2.len, fun n hn => (h2.keep n hn).trans (h1.keep n hn)⟩
  | .charClass ranges, X, b, hX, h => by
    rw [compile, Option.some.injEq] at h
    subst h
    exact single_class ranges hX
  | .anyCharNotNL, X, b, hX, h => by
    rw [compile, Option.some.injEq] at h
    subst h
    exact done_single hX fun P e k he => .anyCharNotNL he rfl fun _ => Iff.rfl
  | .anyChar, X, b, hX, h => by
    rw [compile, Option.some.injEq] at h
    subst h
    exact done_single hX fun P e k he => .anyChar he rfl fun _ => trivial
  | .beginLine, X, b, hX, h => by
    rw [compile, Option.some.injEq] at h
    subst h
    exact done_single hX fun P e k he => .beginLine he
  | .endLine, X, b, hX, h => by
    rw [compile, Option.some.injEq] at h
    subst h
    exact done_single hX fun P e k he => .endLine he
  | .beginText, X, b, hX, h => by
    rw [compile, Option.some.injEq] at h
    subst h
    exact done_single hX fun P e k he => .beginText he
  | .endText _, X, b, hX, h => by
    rw [compile, Option.some.injEq] at h
    subst h
    exact done_single hX fun P e k he => .endText he
  | .wordBoundary, X, b, hX, h => by
    rw [compile, Option.some.injEq] at h
    subst h
    exact done_single hX fun P e k he => .wordBoundary he
  | .noWordBoundary, X, b, hX, h => by
    rw [compile, Option.some.injEq] at h
    subst h
    exact done_single hX fun P e k he => .noWordBoundary he
  | .capture cap name r, X, b, hX, h => by
    rw [compile, Option.map_eq_some_iff] at h
    obtain ⟨sub, hs, hb⟩ := h
    subst hb
    have h1 : Done orbit .emptyMatch X.length X (single (.capture 0) true X) :=
      done_single hX fun P e k he => .skip he (.inr rfl) .emptyMatch
    have h2 := compile_done r (by rw [single_length]; omega) hs
    have h2len := h2.len
    rw [single_length] at h2len
    have h3 : Done orbit .emptyMatch sub.2.length sub.2 (single (.capture 0) true sub.2) :=
      done_single (by omega) fun P e k he => .skip he (.inr rfl) .emptyMatch
    -- the fragment of the group, seen in the instructions with the closing one
    have g1 : Good orbit .emptyMatch X.length (X.length + 1) (single (.capture 0) true X).1
        (single (.capture 0) true sub.2).2 := by
      have := h1.good
      rw [single_length] at this
      refine this.agree fun n _ hn => ?_
      rw [h3.keep n (by omega), h2.keep n (by rw [single_length]; exact hn)]
    have g2 : Good orbit r.re (X.length + 1) sub.2.length sub.1 (single (.capture 0) true sub.2).2 := by
      have := h2.good
      rw [single_length] at this
      exact this.agree fun n _ hn => h3.keep n hn
    obtain ⟨g4, k4⟩ := good_cat g1 g2 (by omega) (by omega)
    have g5 : Good orbit .emptyMatch sub.2.length (sub.2.length + 1) (single (.capture 0) true sub.2).1
        (cat (single (.capture 0) true X).1 sub.1 (single (.capture 0) true sub.2).2).2 := by
      have := h3.good
      rw [single_length] at this
      refine this.agree fun n hn _ => ?_
      unfold cat
      split
      · rfl
      · simp only [patch_get]
        cases (single (.capture 0) true sub.2).2[n]? with
        | none => rfl
        | some i =>
          refine congrArg some (fill_off (fun s hs => ?_) _ _)
          have := g1.slots s hs
          omega
    obtain ⟨g6, k6⟩ := good_cat g4 g5 (by omega) (by omega)
    refine ⟨?_, ?_, fun n hn => ?_⟩
    · have hl : (cat (cat (single (.capture 0) true X).1 sub.1 (single (.capture 0) true sub.2).2).1
          (single (.capture 0) true sub.2).1
          (cat (single (.capture 0) true X).1 sub.1 (single (.capture 0) true sub.2).2).2).2.length = sub.2.length + 1 := by
        rw [cat_length, cat_length, single_length]
      simp only []
      rw [hl]
      refine g6.same fun w i j => ?_
      simp only [Syn.re, MatchAt, ConcatAt, exists_eq_right, exists_eq_left']
    · rw [cat_length, cat_length, single_length]; omega
    · rw [k6 n hn, k4 n hn, h3.keep n (by omega), h2.keep n (by rw [single_length]; omega), h1.keep n hn]
  | .star ng r, X, b, hX, h => by
    rw [compile, Option.map_eq_some_iff] at h
    obtain ⟨sub, hs, hb⟩ := h
    subst hb
    have h2 := compile_done r hX hs
    have hl := h2.len
    obtain ⟨h3, h4, h5⟩ := good_star ng h2.good h2.len (by omega)
    rw [Syn.re]
    exact ⟨h3, by omega, fun n hn => (h5 n hn).trans (h2.keep n hn)⟩
  | .plus ng r, X, b, hX, h => by
    rw [compile, Option.map_eq_some_iff] at h
    obtain ⟨sub, hs, hb⟩ := h
    subst hb
    have h2 := compile_done r hX hs
    have hl := h2.len
    have hpl : (plus ng sub.1 sub.2).2.length = sub.2.length + 1 := loop_length ng sub.1 sub.2
    rw [Syn.re]
    refine ⟨?_, ?_, fun n hn => (loop_keep ng h2.good h2.len hn).trans (h2.keep n hn)⟩
    · rw [hpl]; exact good_plus ng h2.good h2.len
    · rw [hpl]; omega
  | .quest ng r, X, b, hX, h => by
    rw [compile, Option.map_eq_some_iff] at h
    obtain ⟨sub, hs, hb⟩ := h
    subst hb
    have h2 := compile_done r hX hs
    have hl := h2.len
    obtain ⟨h3, h5⟩ := good_quest ng h2.good h2.len (by omega)
    rw [Syn.re]
    refine ⟨?_, ?_, fun n hn => (h5 n (by omega)).trans (h2.keep n hn)⟩
    · rw [quest_length]; exact h3
    · rw [quest_length]; omega
  | .rep _ _ _ _, X, b, hX, h => by rw [compile] at h; cases h
  | .concat [], X, b, hX, h => by
    rw [compile, Option.some.injEq] at h
    subst h
    exact done_nop hX fun _ _ => by rw [Syn.re, Syn.res]; exact .concatNil
  | .concat (r :: rs), X, b, hX, h => by
    rw [compile, Option.bind_eq_some_iff] at h
    obtain ⟨c, hc, h⟩ := h
    have h1 := compile_done r hX hc
    have h1' := h1.same (re' := .concat [r.re]) fun w i j => by simp only [MatchAt, ConcatAt, exists_eq_right]
    have := h1.len
    have h2 := compileCat_done rs h1'.good h1'.len (by omega) h
    rw [Syn.re, Syn.res]
    exact ⟨h2.good, h2.len, fun n hn => (h2.keep n hn).trans (h1.keep n hn)⟩
  | .alternate rs, X, b, hX, h => by
    rw [compile] at h
    have h2 := compileAlt_done rs (done := []) (lo := X.length)
      (good_dead fun w i j => by simp only [MatchAt, AlternateAt, not_false_eq_true]) (Nat.le_refl _) hX h
    rw [Syn.re]
    exact h2
theorem compileCat_done : ∀ (rs : List Syn) {done : List Re} {f : Frag} {X : List Inst} {lo : Nat} {b : Built},
    Good orbit (.concat done) lo X.length f X → lo ≤ X.length → 0 < X.length → compileCat orbit rs f X = some b →
    Done orbit (.concat (done ++ Syn.res rs)) lo X b
  | [], done, f, X, lo, b, h, hh, _, hb => by
    rw [compileCat, Option.some.injEq] at hb
    subst hb
    rw [Syn.res, List.append_nil]
    exact ⟨h, hh, fun _ _ => rfl⟩
  | r :: rs, done, f, X, lo, b, h, hh, hX, hb => by
    rw [compileCat, Option.bind_eq_some_iff] at hb
    obtain ⟨c, hc, hb⟩ := hb
    have h2 := compile_done r hX hc
    have h3 := (done_cat h hh h2).same (concat_snoc done r.re)
    have h4 := compileCat_done rs h3.good h3.len (by rw [cat_length]; have := h2.len; omega) hb
    rw [List.append_assoc, List.singleton_append] at h4
    rw [Syn.res]
    exact ⟨h4.good, h4.len, fun n hn => (h4.keep n hn).trans (h3.keep n hn)⟩
theorem compileAlt_done : ∀ (rs : List Syn) {done : List Re} {f : Frag} {X : List Inst} {lo : Nat} {b : Built},
    Good orbit (.alternate done) lo X.length f X → lo ≤ X.length → 0 < X.length → compileAlt orbit rs f X = some b →
    Done orbit (.alternate (done ++ Syn.res rs)) lo X b
  | [], done, f, X, lo, b, h, hh, _, hb => by
    rw [compileAlt, Option.some.injEq] at hb
    subst hb
    rw [Syn.res, List.append_nil]
    exact ⟨h, hh, fun _ _ => rfl⟩
  | r :: rs, done, f, X, lo, b, h, hh, hX, hb => by
    rw [compileAlt, Option.bind_eq_some_iff] at hb
    obtain ⟨c, hc, hb⟩ := hb
    have h2 := compile_done r hX hc
    have hl := h2.len
    obtain ⟨g, gl, gk⟩ := good_alt (h.agree (X' := c.2) fun n _ hn => h2.keep n hn) h2.good hh h2.len (by omega)
    have h4 := compileAlt_done rs (g.same (alternate_snoc done r.re)) (by omega) (by omega) hb
    rw [List.append_assoc, List.singleton_append] at h4
    rw [Syn.res]
    refine ⟨h4.good, h4.len, fun n hn => ?_⟩
    rw [h4.keep n hn, gk n (by omega), h2.keep n (by omega)]
end

/-- A compiled program has the shape `Spec.Compiles` for its tree. -/
theorem compileProg_compiles {s : Syn} {p : Prog} (h : compileProg orbit s = some p) : Compiles orbit s.re p := by
  rw [compileProg, Option.map_eq_some_iff] at h
  obtain ⟨b, hb, rfl⟩ := h
  have h1 := compile_done s (X := [.fail]) (Nat.lt_succ_self 0) hb
  have hl : 1 ≤ b.2.length := h1.len
  have hoff : ∀ n, n = 0 ∨ n = b.2.length → ∀ i, fill b.1.out b.2.length n i = i := by
    intro n hn i
    refine fill_off (fun s hs => ?_) _ _
    have := h1.good.slots s hs
    simp only [List.length_singleton] at this
    omega
  refine ⟨b.2.length, h1.good.frag _ _ ?_ fun n h2 h3 => ?_, ?_⟩
  · simp only [patch_get]
    rw [List.getElem?_append_left (by omega), h1.keep 0 (Nat.lt_succ_self 0)]
    exact congrArg some (hoff 0 (.inl rfl) _)
  · simp only [patch_get]
    rw [List.getElem?_append_left h3]
  · simp only [patch_get]
    rw [List.getElem?_concat_length]
    exact congrArg some (hoff _ (.inr rfl) _)

end Hound.GoRe
