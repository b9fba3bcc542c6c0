import Verif.Spec.Tree
import Verif.Proofs.BuildIndex

namespace Hound
open Spec

/-- A visited file: its path, its name, what it is. -/
abbrev Leaf := List Bytes × Bytes × FsNode

mutual
/-- What the walk visits besides directories. -/
def leavesN (opt : IndexOptions) (p : List Bytes) (nm : Bytes) : FsNode → List Leaf
  | .dir readable entries => if LeftOut opt nm then [] else if readable then leavesF opt p entries else []
  | .irregular => [(p, nm, .irregular)]
  | .file o r => [(p, nm, .file o r)]
  | .gone => [(p, nm, .gone)]
def leavesF (opt : IndexOptions) (p : List Bytes) : FsForest → List Leaf
  | .nil => []
  | .cons name n rest => leavesN opt (p ++ [name]) name n ++ leavesF opt p rest
end

/-! ## Paths -/

theorem joinRel_relPath {p : List Bytes} (h : p = [] ∨ relPath p ≠ [46]) (name : Bytes) :
    joinRel (relPath p) name = relPath (p ++ [name]) := by
  rcases h with rfl | h
  · simp [joinRel, relPath]
  · cases p with
    | nil => simp [relPath] at h
    | cons a t =>
      rw [joinRel, if_neg h]
      clear h
      induction t generalizing a with
      | nil => simp [relPath]
      | cons b t ih =>
        have := ih b
        simp only [relPath, List.cons_append] at this ⊢
        rw [← this]; simp

theorem cut_slash {a b x y : Bytes} (ha : (47 : UInt8) ∉ a) (hb : (47 : UInt8) ∉ b)
    (h : a ++ 47 :: x = b ++ 47 :: y) : a = b ∧ x = y := by
  induction a generalizing b with
  | nil =>
    cases b with
    | nil => simpa using h
    | cons c b => simp at h hb; exact absurd h.1 hb.1
  | cons c a ih =>
    cases b with
    | nil => simp at h ha; exact absurd h.1.symm ha.1
    | cons d b =>
      simp only [List.cons_append, List.cons.injEq, List.mem_cons, not_or] at h ha hb
      obtain ⟨rfl, h⟩ := h
      obtain ⟨rfl, hxy⟩ := ih ha.2 hb.2 h
      exact ⟨rfl, hxy⟩

theorem slash_mem_relPath {a b : Bytes} {t : List Bytes} : (47 : UInt8) ∈ relPath (a :: b :: t) := by
  simp [relPath]

theorem relPath_inj : ∀ {p q : List Bytes}, (∀ a ∈ p, GoodName a) → (∀ a ∈ q, GoodName a) →
    relPath p = relPath q → p = q
  | [], [], _, _, _ => rfl
  | [], [b], _, hq, h => absurd h.symm (hq b (by simp)).2.2
  | [], b :: c :: t, _, _, h => by
    have := slash_mem_relPath (a := b) (b := c) (t := t)
    rw [← h] at this
    simp [relPath] at this
  | [a], [], hp, _, h => absurd h (hp a (by simp)).2.2
  | a :: c :: t, [], _, _, h => by
    have := slash_mem_relPath (a := a) (b := c) (t := t)
    rw [h] at this
    simp [relPath] at this
  | [a], [b], _, _, h => by simpa [relPath] using h
  | [a], b :: c :: t, hp, _, h => by
    have := slash_mem_relPath (a := b) (b := c) (t := t)
    rw [← h] at this
    exact absurd this (hp a (by simp)).2.1
  | a :: c :: t, [b], _, hq, h => by
    have := slash_mem_relPath (a := a) (b := c) (t := t)
    rw [h] at this
    exact absurd this (hq b (by simp)).2.1
  | a :: c :: t, b :: d :: u, hp, hq, h => by
    obtain ⟨rfl, h'⟩ := cut_slash (hp a (by simp)).2.1 (hq b (by simp)).2.1 h
    rw [relPath_inj (fun x hx => hp x (by simp [hx])) (fun x hx => hq x (by simp [hx])) h']

theorem relPath_ne_dot {p : List Bytes} (h : ∀ a ∈ p, GoodName a) : p = [] ∨ relPath p ≠ [46] := by
  cases p with
  | nil => exact .inl rfl
  | cons a t =>
    refine .inr fun e => ?_
    have := relPath_inj h (q := []) (by simp) e
    simp at this

/-! ## The walk as a run through the leaves -/

/-- Why a visited file is excluded. -/
noncomputable def exOf (opt : IndexOptions) (l : Leaf) : Option ExReason :=
  if l.2.1 ∈ opt.specialFiles then none
  else if opt.excludeDotFiles ∧ l.2.1.head? = some 46 then some .dotFile
  else match l.2.2 with
    | .irregular => some .invalidMode
    | .file _ r => if isTextFile r = some true then (addAnswer r).map .add else some .notText
    | _ => none

/-- The call of `Add` for a visited file. -/
def addOf (opt : IndexOptions) (l : Leaf) : Option (Bytes × Reader) :=
  if LeftOut opt l.2.1 then none
  else match l.2.2 with
    | .file _ r => if isTextFile r = some true then some (relPath l.1, r) else none
    | _ => none

/-- The state after visiting some leaves. -/
structure After (opt : IndexOptions) (ls : List Leaf) (before : List (Bytes × Bytes)) (s s' : WalkSt) : Prop where
  inv : WInv [] (before ++ indexedOf (ls.filterMap (addOf opt))) s'.ix
  run : s.ix.addAll (ls.filterMap (addOf opt)) =
    some ((ls.filterMap (addOf opt)).map (fun f => addAnswer f.2), s'.ix)
  excluded : s'.excluded = s.excluded ++ ls.filterMap (fun l => (exOf opt l).map (relPath l.1, ·))
  raw : s'.raw = s.raw ++ (ls.filterMap (addOf opt)).map (fun f => (f.1, f.2.delivered))
  fine : ∀ l ∈ ls, l.2.2.isGone = false ∧ (¬ LeftOut opt l.2.1 → ∀ o r, l.2.2 = .file o r → o = true ∧ isTextFile r ≠ none)

theorem After.refl {opt : IndexOptions} {before : List (Bytes × Bytes)} {s : WalkSt} (h : WInv [] before s.ix) :
    After opt [] before s s := ⟨by simpa [indexedOf] using h, rfl, by simp, by simp, by simp⟩

theorem addAll_append {ix ix1 ix2 : IW} {fs gs : List (Bytes × Reader)} {a b : List (Option SkipReason)}
    (h1 : ix.addAll fs = some (a, ix1)) (h2 : ix1.addAll gs = some (b, ix2)) :
    ix.addAll (fs ++ gs) = some (a ++ b, ix2) := by
  induction fs generalizing ix a with
  | nil =>
    simp only [IW.addAll, Option.some.injEq, Prod.mk.injEq] at h1
    obtain ⟨rfl, rfl⟩ := h1
    simpa using h2
  | cons f fs ih =>
    obtain ⟨name, r⟩ := f
    simp only [IW.addAll, List.cons_append] at h1 ⊢
    cases hx : ix.add name r with
    | none => rw [hx] at h1; simp at h1
    | some x =>
      obtain ⟨res, ix'⟩ := x
      rw [hx] at h1
      simp only at h1 ⊢
      cases hy : ix'.addAll fs with
      | none => rw [hy] at h1; simp at h1
      | some y =>
        obtain ⟨ress, ix''⟩ := y
        rw [hy] at h1
        simp only [Option.some.injEq, Prod.mk.injEq] at h1
        obtain ⟨rfl, rfl⟩ := h1
        rw [ih hy]
        simp

theorem indexedOf_append (fs gs : List (Bytes × Reader)) : indexedOf (fs ++ gs) = indexedOf fs ++ indexedOf gs := by
  unfold indexedOf
  rw [List.filterMap_append]

theorem After.trans {opt : IndexOptions} {ls ms : List Leaf} {before : List (Bytes × Bytes)} {s s1 s2 : WalkSt}
    (h1 : After opt ls before s s1)
    (h2 : After opt ms (before ++ indexedOf (ls.filterMap (addOf opt))) s1 s2) : After opt (ls ++ ms) before s s2 where
  inv := by
    rw [List.filterMap_append, indexedOf_append, ← List.append_assoc]
    exact h2.inv
  run := by
    rw [List.filterMap_append, List.map_append]
    exact addAll_append h1.run h2.run
  excluded := by rw [h2.excluded, h1.excluded, List.filterMap_append, List.append_assoc]
  raw := by rw [h2.raw, h1.raw, List.filterMap_append, List.map_append, List.append_assoc]
  fine := fun l hl => (List.mem_append.mp hl).elim (h1.fine l) (h2.fine l)

/-- Visiting a file. -/
theorem visit_leaf {opt : IndexOptions} {p : List Bytes} {nm : Bytes} {n : FsNode} {s : WalkSt}
    {before : List (Bytes × Bytes)} (h : WInv [] before s.ix) (hn : n.isDir = false) :
    (∀ s', visit opt (relPath p) nm n s = .next s' → After opt [(p, nm, n)] before s s') ∧
    ∀ s', visit opt (relPath p) nm n s ≠ .skipDir s' := by
  have hskip : ∀ e : Option ExReason, exOf opt (p, nm, n) = e → addOf opt (p, nm, n) = none →
      ∀ s', ({ s with excluded := s.excluded ++ (e.map (relPath p, ·)).toList } : WalkSt) = s' →
      n.isGone = false → (¬ LeftOut opt nm → ∀ o r, n = .file o r → o = true ∧ isTextFile r ≠ none) →
      After opt [(p, nm, n)] before s s' := by
    intro e h1 h2 s' h3 h4 h5
    subst h3 h1
    refine ⟨?_, ?_, ?_, ?_, fun l hl => by rw [List.mem_singleton.mp hl]; exact ⟨h4, h5⟩⟩
    · simpa [h2, indexedOf] using h
    · simp [h2, IW.addAll]
    · simp only [List.filterMap_cons, List.filterMap_nil]
      cases exOf opt (p, nm, n) <;> simp
    · simp [h2]
  by_cases hs : nm ∈ opt.specialFiles
  · have he : exOf opt (p, nm, n) = none := by simp [exOf, hs]
    have ha : addOf opt (p, nm, n) = none := by simp [addOf, LeftOut, hs]
    have hlo : LeftOut opt nm := .inl hs
    cases n <;> simp_all [visit, FsNode.isDir, FsNode.isGone]
  by_cases hd : opt.excludeDotFiles = true ∧ nm.head? = some 46
  · have he : exOf opt (p, nm, n) = some .dotFile := by simp [exOf, hs, hd]
    have ha : addOf opt (p, nm, n) = none := by simp [addOf, LeftOut, hd]
    have hlo : LeftOut opt nm := .inr hd
    cases n <;> simp_all [visit, FsNode.isDir, FsNode.isGone]
  have hlo : ¬ LeftOut opt nm := by rintro (h | h) <;> contradiction
  cases n with
  | dir a b => simp [FsNode.isDir] at hn
  | gone => simp [visit, FsNode.isGone]
  | irregular =>
    have he : exOf opt (p, nm, .irregular) = some .invalidMode := by simp only [exOf, if_neg hs, if_neg hd]
    have ha : addOf opt (p, nm, .irregular) = none := by simp [addOf]
    simp only [visit, FsNode.isGone, Bool.false_eq_true, if_false, if_neg hs, if_neg hd]
    refine ⟨fun s' hs' => hskip _ he ha s' (by simpa using hs') rfl (fun _ o r h => by cases h), by simp⟩
  | file o r =>
    simp only [visit, FsNode.isGone, Bool.false_eq_true, if_false, if_neg hs, if_neg hd]
    cases o with
    | false => simp
    | true =>
      simp only [Bool.not_true]
      cases ht : isTextFile r with
      | none => simp
      | some b =>
        cases b with
        | false =>
          have he : exOf opt (p, nm, .file true r) = some .notText := by
            simp only [exOf, if_neg hs, if_neg hd, ht]; simp
          have ha : addOf opt (p, nm, .file true r) = none := by simp [addOf, ht]
          refine ⟨fun s' hs' => hskip _ he ha s' (by simpa using hs') rfl
            (fun _ o r h => by cases h; simp [ht]), by simp⟩
        | true =>
          have he : exOf opt (p, nm, .file true r) = (addAnswer r).map .add := by
            simp only [exOf, if_neg hs, if_neg hd, ht]; simp
          have ha : addOf opt (p, nm, .file true r) = some (relPath p, r) := by simp [addOf, hlo, ht]
          simp only [addFileToIndex]
          obtain ⟨h1, h2⟩ := add_step h (relPath p, r)
          by_cases hc : ((relPath p, r).2.Ok ∧ verdict (relPath p, r).2.content = none →
              (0 : UInt8) ∉ (relPath p, r).1 ∧ (namesData (before.map (·.1))).length < 2 ^ 32)
          · obtain ⟨ix', h3, h4⟩ := h1 hc
            simp only at h3
            rw [h3]
            constructor
            · intro s' hs'
              have hix : s'.ix = ix' ∧ s'.raw = s.raw ++ [(relPath p, r.delivered)] ∧
                  s'.excluded = s.excluded ++ ((addAnswer r).map fun x => (relPath p, ExReason.add x)).toList := by
                cases hans : addAnswer r <;> rw [hans] at hs' <;> simp at hs' <;> subst hs' <;> simp
              refine ⟨?_, ?_, ?_, ?_, by simp [FsNode.isGone, ht]⟩
              · simpa [ha, hix.1] using h4
              · simp [ha, IW.addAll, h3, hix.1]
              · rw [hix.2.2]
                simp only [List.filterMap_cons, List.filterMap_nil, he]
                cases addAnswer r <;> simp
              · simp [ha, hix.2.1]
            · intro s'
              cases addAnswer r <;> simp
          · rw [h2 hc]; simp

mutual
theorem walkNode_spec {opt : IndexOptions} (p : List Bytes) (hp : ∀ a ∈ p, GoodName a) (nm : Bytes) (n : FsNode)
    (hn : WellNamed n) (s : WalkSt) {before : List (Bytes × Bytes)} (h : WInv [] before s.ix) :
    (∀ s', walkNode opt (relPath p) nm n s = .next s' → After opt (leavesN opt p nm n) before s s') ∧
    ∀ s', walkNode opt (relPath p) nm n s = .skipDir s' → n.isDir = true ∧ After opt (leavesN opt p nm n) before s s' := by
  match n, hn with
  | .dir readable entries, hn =>
    simp only [WellNamed] at hn
    simp only [walkNode, leavesN, FsNode.isDir]
    by_cases hl : LeftOut opt nm
    · rw [if_pos hl]
      have hv : visit opt (relPath p) nm (.dir readable entries) s = .skipDir s := by
        simp only [visit, FsNode.isGone, Bool.false_eq_true, if_false]
        by_cases hs : nm ∈ opt.specialFiles
        · simp [hs, FsNode.isDir]
        · have hd : opt.excludeDotFiles = true ∧ nm.head? = some 46 := hl.resolve_left hs
          simp only [if_neg hs, if_pos hd, FsNode.isDir]; rfl
      rw [hv]
      constructor
      · intro s' hs'; simp at hs'
      · intro s' hs'
        simp at hs'; subst hs'
        exact ⟨trivial, After.refl h⟩
    · rw [if_neg hl]
      have hv : visit opt (relPath p) nm (.dir readable entries) s = .next s := by
        have hs : nm ∉ opt.specialFiles := fun h => hl (.inl h)
        have hd : ¬ (opt.excludeDotFiles = true ∧ nm.head? = some 46) := fun h => hl (.inr h)
        simp only [visit, FsNode.isGone, Bool.false_eq_true, if_false, if_neg hs, if_neg hd]
      rw [hv]
      simp only
      cases readable with
      | false =>
        simp only [Bool.false_eq_true, if_false]
        constructor
        · intro s' hs'; simp at hs'; subst hs'; exact After.refl h
        · intro s' hs'; simp at hs'
      | true =>
        simp only [if_true]
        have := walkForest_spec (opt := opt) p hp entries hn s h
        exact ⟨this.1, fun s' hs' => absurd hs' (this.2 s')⟩
  | .irregular, _ =>
    have := visit_leaf (opt := opt) (p := p) (nm := nm) (n := .irregular) h rfl
    simp only [walkNode, leavesN]
    exact ⟨this.1, fun s' hs' => absurd hs' (this.2 s')⟩
  | .gone, _ =>
    have := visit_leaf (opt := opt) (p := p) (nm := nm) (n := .gone) h rfl
    simp only [walkNode, leavesN]
    exact ⟨this.1, fun s' hs' => absurd hs' (this.2 s')⟩
  | .file o r, _ =>
    have := visit_leaf (opt := opt) (p := p) (nm := nm) (n := .file o r) h rfl
    simp only [walkNode, leavesN]
    exact ⟨this.1, fun s' hs' => absurd hs' (this.2 s')⟩
theorem walkForest_spec {opt : IndexOptions} (p : List Bytes) (hp : ∀ a ∈ p, GoodName a) (f : FsForest)
    (hf : WellNamedAll f) (s : WalkSt) {before : List (Bytes × Bytes)} (h : WInv [] before s.ix) :
    (∀ s', walkForest opt (relPath p) f s = .next s' → After opt (leavesF opt p f) before s s') ∧
    ∀ s', walkForest opt (relPath p) f s ≠ .skipDir s' := by
  match f, hf with
  | .nil, _ =>
    simp only [walkForest, leavesF]
    refine ⟨fun s' hs' => ?_, by simp⟩
    simp at hs'; subst hs'; exact After.refl h
  | .cons name n rest, hf =>
    simp only [WellNamedAll] at hf
    obtain ⟨hg, _, hn, hr⟩ := hf
    simp only [walkForest, leavesF]
    rw [joinRel_relPath (relPath_ne_dot hp)]
    have hp' : ∀ a ∈ p ++ [name], GoodName a := by
      intro a ha
      rcases List.mem_append.mp ha with ha | ha
      · exact hp a ha
      · rw [List.mem_singleton.mp ha]; exact hg
    obtain ⟨h1, h2⟩ := walkNode_spec (opt := opt) (p ++ [name]) hp' name n hn s h
    cases hw : walkNode opt (relPath (p ++ [name])) name n s with
    | next s1 =>
      simp only
      have ha := h1 s1 hw
      obtain ⟨h3, h4⟩ := walkForest_spec (opt := opt) p hp rest hr s1 ha.inv
      exact ⟨fun s' hs' => ha.trans (h3 s' hs'), h4⟩
    | skipDir s1 =>
      obtain ⟨hd, ha⟩ := h2 s1 hw
      simp only [hd, if_true]
      obtain ⟨h3, h4⟩ := walkForest_spec (opt := opt) p hp rest hr s1 ha.inv
      exact ⟨fun s' hs' => ha.trans (h3 s' hs'), h4⟩
    | err => simp
    | crash => simp
end

/-! ## The leaves are the files of the tree -/

mutual
theorem mem_leavesN {opt : IndexOptions} (p : List Bytes) (nm : Bytes) (n : FsNode) (l : Leaf) :
    l ∈ leavesN opt p nm n ↔ ∃ q, l.1 = p ++ q ∧ Under opt (· = true) nm n q l.2.1 l.2.2 ∧ l.2.2.isDir = false := by
  have hleaf : ∀ m : FsNode, m.isDir = false → (l = (p, nm, m) ↔
      ∃ q, l.1 = p ++ q ∧ Under opt (· = true) nm m q l.2.1 l.2.2 ∧ l.2.2.isDir = false) := by
    intro m hm
    constructor
    · rintro rfl
      exact ⟨[], by simp, .here nm m, hm⟩
    · rintro ⟨q, h1, h2, h3⟩
      obtain ⟨l1, l2, l3⟩ := l
      cases h2 with
      | here => simp at h1; rw [h1]
      | step => simp [FsNode.isDir] at hm
  match n with
  | .irregular => simpa [leavesN] using hleaf .irregular rfl
  | .gone => simpa [leavesN] using hleaf .gone rfl
  | .file o r => simpa [leavesN] using hleaf (.file o r) rfl
  | .dir readable entries =>
    simp only [leavesN]
    by_cases hl : LeftOut opt nm
    · rw [if_pos hl]
      simp only [List.not_mem_nil, false_iff]
      rintro ⟨q, h1, h2, h3⟩
      obtain ⟨l1, l2, l3⟩ := l
      cases h2 with
      | here => simp [FsNode.isDir] at h3
      | step h => exact h hl
    · rw [if_neg hl]
      cases readable with
      | false =>
        simp only [Bool.false_eq_true, if_false, List.not_mem_nil, false_iff]
        rintro ⟨q, h1, h2, h3⟩
        obtain ⟨l1, l2, l3⟩ := l
        cases h2 with
        | here => simp [FsNode.isDir] at h3
        | step _ h => cases h
      | true =>
        simp only [if_true]
        rw [mem_leavesF]
        constructor
        · rintro ⟨name, m, q, h1, h2, h3, h4⟩
          exact ⟨name :: q, by rw [h2], .step hl rfl h1 h3, h4⟩
        · rintro ⟨q, h1, h2, h3⟩
          obtain ⟨l1, l2, l3⟩ := l
          cases h2 with
          | here => simp [FsNode.isDir] at h3
          | step _ _ ha hb => exact ⟨_, _, _, ha, by simpa using h1, hb, h3⟩
theorem mem_leavesF {opt : IndexOptions} (p : List Bytes) (f : FsForest) (l : Leaf) :
    l ∈ leavesF opt p f ↔ ∃ name n q, (name, n) ∈ entriesOf f ∧ l.1 = p ++ name :: q ∧
      Under opt (· = true) name n q l.2.1 l.2.2 ∧ l.2.2.isDir = false := by
  match f with
  | .nil => simp [leavesF, entriesOf]
  | .cons name n rest =>
    simp only [leavesF, List.mem_append, entriesOf, List.mem_cons]
    rw [mem_leavesN, mem_leavesF]
    constructor
    · rintro (⟨q, h1, h2, h3⟩ | ⟨name', n', q, h0, h1, h2, h3⟩)
      · exact ⟨name, n, q, .inl rfl, by simpa using h1, h2, h3⟩
      · exact ⟨name', n', q, .inr h0, h1, h2, h3⟩
    · rintro ⟨name', n', q, h0 | h0, h1, h2, h3⟩
      · cases h0
        exact .inl ⟨q, by simpa using h1, h2, h3⟩
      · exact .inr ⟨name', n', q, h0, h1, h2, h3⟩
end

theorem wellNamed_entry : ∀ {f : FsForest}, WellNamedAll f → ∀ {name : Bytes} {n : FsNode}, (name, n) ∈ entriesOf f →
    GoodName name ∧ WellNamed n ∧ ∀ n', (name, n') ∈ entriesOf f → n' = n
  | .nil, _, _, _, h => by simp [entriesOf] at h
  | .cons name' m rest, hf, name, n, h => by
    simp only [WellNamedAll] at hf
    obtain ⟨h1, h2, h3, h4⟩ := hf
    simp only [entriesOf, List.mem_cons, Prod.mk.injEq] at h ⊢
    rcases h with ⟨rfl, rfl⟩ | h
    · refine ⟨h1, h3, ?_⟩
      rintro n' (⟨_, rfl⟩ | h)
      · rfl
      · exact absurd rfl (h2 _ h)
    · obtain ⟨g1, g2, g3⟩ := wellNamed_entry h4 h
      refine ⟨g1, g2, ?_⟩
      rintro n' (⟨rfl, _⟩ | h')
      · exact absurd rfl (h2 _ h)
      · exact g3 n' h'

/-- A path leads to one thing. -/
theorem under_det {opt : IndexOptions} {R R' : Bool → Prop} {top : Bytes} {n : FsNode} {p : List Bytes} {a b : Bytes} {m m' : FsNode}
    (hn : WellNamed n) (h : Under opt R top n p a m) (h' : Under opt R' top n p b m') : a = b ∧ m = m' := by
  induction h generalizing b m' with
  | here => cases h'; exact ⟨rfl, rfl⟩
  | step _ _ he _ ih =>
    cases h' with
    | step _ _ he' hu' =>
      simp only [WellNamed] at hn
      obtain ⟨_, g2, g3⟩ := wellNamed_entry hn he
      cases g3 _ he'
      exact ih g2 hu'

theorem under_good {opt : IndexOptions} {R : Bool → Prop} {top : Bytes} {n : FsNode} {p : List Bytes} {a : Bytes} {m : FsNode}
    (hn : WellNamed n) (h : Under opt R top n p a m) : ∀ x ∈ p, GoodName x := by
  induction h with
  | here => simp
  | step _ _ he _ ih =>
    simp only [WellNamed] at hn
    obtain ⟨g1, g2, _⟩ := wellNamed_entry hn he
    intro x hx
    rcases List.mem_cons.mp hx with rfl | hx
    · exact g1
    · exact ih g2 x hx

theorem under_mono {opt : IndexOptions} {R R' : Bool → Prop} (hR : ∀ b, R b → R' b) {top : Bytes} {n : FsNode} {p : List Bytes}
    {a : Bytes} {m : FsNode} (h : Under opt R top n p a m) : Under opt R' top n p a m := by
  induction h with
  | here => exact .here _ _
  | step h1 h2 h3 _ ih => exact .step h1 (hR _ h2) h3 ih

/-- Two files of a tree with the same text as path are the same. -/
theorem under_rel {opt : IndexOptions} {R R' : Bool → Prop} {top : Bytes} {n : FsNode} {p q : List Bytes} {a b : Bytes} {m m' : FsNode}
    (hn : WellNamed n) (h : Under opt R top n p a m) (h' : Under opt R' top n q b m') (e : relPath p = relPath q) :
    a = b ∧ m = m' := by
  cases relPath_inj (under_good hn h) (under_good hn h') e
  exact under_det hn h h'

/-- **What `indexAllFiles` leaves behind.** -/
theorem indexAllFiles_ok {cfg : IWConfig} (hc : 0 < cfg.npost) {opt : IndexOptions} {rootName : Bytes} {root : FsNode}
    (hn : WellNamed root) {d : BuiltDir} (h : indexAllFiles cfg opt rootName root = .ok d) :
    ∃ ls : List Leaf, (∀ l, l ∈ ls ↔ Under opt (· = true) rootName root l.1 l.2.1 l.2.2 ∧ l.2.2.isDir = false) ∧
      buildIndex cfg [] (ls.filterMap (addOf opt)) =
        some ((ls.filterMap (addOf opt)).map (fun f => addAnswer f.2), d.tri) ∧
      d.excluded = ls.filterMap (fun l => (exOf opt l).map (relPath l.1, ·)) ∧
      d.raw = (ls.filterMap (addOf opt)).map (fun f => (f.1, f.2.delivered)) ∧
      ∀ l ∈ ls, l.2.2.isGone = false ∧ (¬ LeftOut opt l.2.1 → ∀ o r, l.2.2 = .file o r → o = true ∧ isTextFile r ≠ none) := by
  refine ⟨leavesN opt [] rootName root, ?_, ?_⟩
  · intro l
    rw [mem_leavesN]
    simp
  · have hw := walkNode_spec (opt := opt) [] (by simp) rootName root hn { ix := IW.create cfg } (wInv_create hc [])
    simp only [indexAllFiles] at h
    have hrel : relPath [] = [46] := rfl
    rw [hrel] at hw
    have key : ∀ s, After opt (leavesN opt [] rootName root) [] { ix := IW.create cfg } s →
        (match s.ix.flush with
          | none => BuildRes.crash
          | some tri => .ok ⟨tri, s.excluded, s.raw⟩) = .ok d → 
        buildIndex cfg [] ((leavesN opt [] rootName root).filterMap (addOf opt)) =
            some (((leavesN opt [] rootName root).filterMap (addOf opt)).map (fun f => addAnswer f.2), d.tri) ∧
          d.excluded = (leavesN opt [] rootName root).filterMap (fun l => (exOf opt l).map (relPath l.1, ·)) ∧
          d.raw = ((leavesN opt [] rootName root).filterMap (addOf opt)).map (fun f => (f.1, f.2.delivered)) ∧
          ∀ l ∈ leavesN opt [] rootName root, l.2.2.isGone = false ∧
            (¬ LeftOut opt l.2.1 → ∀ o r, l.2.2 = .file o r → o = true ∧ isTextFile r ≠ none) := by
      intro s hs hd
      cases hf : s.ix.flush with
      | none => rw [hf] at hd; cases hd
      | some tri =>
        rw [hf] at hd
        simp only [BuildRes.ok.injEq] at hd
        subst hd
        refine ⟨?_, ?_, ?_, hs.fine⟩
        · have hrun := hs.run
          simp only at hrun
          simp only [buildIndex]
          have hp : (IW.create cfg).addPaths [] = IW.create cfg := rfl
          rw [hp, hrun]
          simp only [hf]
        · simpa using hs.excluded
        · simpa using hs.raw
    cases hr : walkNode opt [46] rootName root { ix := IW.create cfg } with
    | crash => rw [hr] at h; cases h
    | err => rw [hr] at h; cases h
    | next s => rw [hr] at h; exact key s (hw.1 s hr) h
    | skipDir s => rw [hr] at h; exact key s (hw.2 s hr).2 h

/-! ## When the walk gets through -/

theorem addsOk_append : ∀ {fs gs : List (Bytes × Reader)} {before : List (Bytes × Bytes)},
    AddsOk before (fs ++ gs) ↔ AddsOk before fs ∧ AddsOk (before ++ indexedOf fs) gs
  | [], gs, before => by simp [AddsOk, indexedOf]
  | f :: fs, gs, before => by
    simp only [List.cons_append, AddsOk]
    rw [addsOk_append, and_assoc, indexedOf_cons f fs, List.append_assoc]

/-- A visited file does not stop the walk. -/
def LeafFine (opt : IndexOptions) (l : Leaf) : Prop :=
  l.2.2.isGone = false ∧ (¬ LeftOut opt l.2.1 → ∀ o r, l.2.2 = .file o r → o = true ∧ isTextFile r ≠ none)

theorem visit_fine {opt : IndexOptions} {p : List Bytes} {nm : Bytes} {n : FsNode} {s : WalkSt}
    {before : List (Bytes × Bytes)} (h : WInv [] before s.ix) (hn : n.isDir = false) (hf : LeafFine opt (p, nm, n))
    (ha : AddsOk before ([(p, nm, n)].filterMap (addOf opt))) : ∃ s', visit opt (relPath p) nm n s = .next s' := by
  obtain ⟨hg, hf⟩ := hf
  simp only at hg hf
  simp only [visit, hg, hn, Bool.false_eq_true, if_false]
  by_cases hs : nm ∈ opt.specialFiles
  · rw [if_pos hs]; exact ⟨_, rfl⟩
  rw [if_neg hs]
  by_cases hd : opt.excludeDotFiles = true ∧ nm.head? = some 46
  · rw [if_pos hd]; exact ⟨_, rfl⟩
  rw [if_neg hd]
  have hlo : ¬ LeftOut opt nm := by rintro (h | h) <;> contradiction
  cases n with
  | dir a b => simp [FsNode.isDir] at hn
  | gone => simp [FsNode.isGone] at hg
  | irregular => exact ⟨_, rfl⟩
  | file o r =>
    obtain ⟨rfl, ht⟩ := hf hlo o r rfl
    simp only [Bool.not_true, Bool.false_eq_true, if_false]
    cases ht' : isTextFile r with
    | none => exact absurd ht' ht
    | some b =>
      cases b with
      | false => exact ⟨_, rfl⟩
      | true =>
        have hadd : addOf opt (p, nm, .file true r) = some (relPath p, r) := by simp [addOf, hlo, ht']
        simp only [List.filterMap_cons, List.filterMap_nil, hadd, AddsOk] at ha
        obtain ⟨ix', h1, _⟩ := (add_step h (relPath p, r)).1 ha.1
        simp only at h1
        simp only [addFileToIndex, h1]
        cases addAnswer r <;> exact ⟨_, rfl⟩

mutual
theorem walkNode_fine {opt : IndexOptions} (p : List Bytes) (hp : ∀ a ∈ p, GoodName a) (nm : Bytes) (n : FsNode)
    (hn : WellNamed n) (s : WalkSt) {before : List (Bytes × Bytes)} (h : WInv [] before s.ix)
    (hf : ∀ l ∈ leavesN opt p nm n, LeafFine opt l) (ha : AddsOk before ((leavesN opt p nm n).filterMap (addOf opt))) :
    ∃ s', walkNode opt (relPath p) nm n s = .next s' ∨ walkNode opt (relPath p) nm n s = .skipDir s' := by
  match n, hn with
  | .dir readable entries, hn =>
    simp only [WellNamed] at hn
    simp only [walkNode]
    simp only [leavesN] at hf ha
    by_cases hs : nm ∈ opt.specialFiles
    · simp only [visit, FsNode.isGone, FsNode.isDir, Bool.false_eq_true, if_false, if_pos hs]
      exact ⟨s, .inr rfl⟩
    by_cases hd : opt.excludeDotFiles = true ∧ nm.head? = some 46
    · simp only [visit, FsNode.isGone, FsNode.isDir, Bool.false_eq_true, if_false, if_neg hs, if_pos hd]
      exact ⟨s, .inr rfl⟩
    have hl : ¬ LeftOut opt nm := by rintro (h | h) <;> contradiction
    rw [if_neg hl] at hf ha
    simp only [visit, FsNode.isGone, Bool.false_eq_true, if_false, if_neg hs, if_neg hd]
    cases readable with
    | false => exact ⟨s, .inl rfl⟩
    | true =>
      simp only [if_true] at hf ha ⊢
      obtain ⟨s', hs'⟩ := walkForest_fine (opt := opt) p hp entries hn s h hf ha
      exact ⟨s', .inl hs'⟩
  | .irregular, _ =>
    simp only [leavesN] at hf ha
    obtain ⟨s', hs'⟩ := visit_fine (opt := opt) (p := p) (nm := nm) h rfl (hf _ (by simp)) ha
    exact ⟨s', .inl (by simpa only [walkNode] using hs')⟩
  | .gone, _ =>
    simp only [leavesN] at hf ha
    obtain ⟨s', hs'⟩ := visit_fine (opt := opt) (p := p) (nm := nm) h rfl (hf _ (by simp)) ha
    exact ⟨s', .inl (by simpa only [walkNode] using hs')⟩
  | .file o r, _ =>
    simp only [leavesN] at hf ha
    obtain ⟨s', hs'⟩ := visit_fine (opt := opt) (p := p) (nm := nm) h rfl (hf _ (by simp)) ha
    exact ⟨s', .inl (by simpa only [walkNode] using hs')⟩
theorem walkForest_fine {opt : IndexOptions} (p : List Bytes) (hp : ∀ a ∈ p, GoodName a) (f : FsForest)
    (hn : WellNamedAll f) (s : WalkSt) {before : List (Bytes × Bytes)} (h : WInv [] before s.ix)
    (hf : ∀ l ∈ leavesF opt p f, LeafFine opt l) (ha : AddsOk before ((leavesF opt p f).filterMap (addOf opt))) :
    ∃ s', walkForest opt (relPath p) f s = .next s' := by
  match f, hn with
  | .nil, _ => exact ⟨s, by simp only [walkForest]⟩
  | .cons name n rest, hn =>
    simp only [WellNamedAll] at hn
    obtain ⟨hg, _, hn, hr⟩ := hn
    simp only [leavesF, List.filterMap_append, addsOk_append] at hf ha
    simp only [walkForest]
    rw [joinRel_relPath (relPath_ne_dot hp)]
    have hp' : ∀ a ∈ p ++ [name], GoodName a := by
      intro a ha
      rcases List.mem_append.mp ha with ha | ha
      · exact hp a ha
      · rw [List.mem_singleton.mp ha]; exact hg
    have hspec := walkNode_spec (opt := opt) (p ++ [name]) hp' name n hn s h
    obtain ⟨s1, h1 | h1⟩ := walkNode_fine (opt := opt) (p ++ [name]) hp' name n hn s h
      (fun l hl => hf l (List.mem_append_left _ hl)) ha.1
    · have := hspec.1 s1 h1
      simp only [h1]
      exact walkForest_fine p hp rest hr s1 this.inv (fun l hl => hf l (List.mem_append_right _ hl)) ha.2
    · obtain ⟨hd, this⟩ := hspec.2 s1 h1
      simp only [h1, hd, if_true]
      exact walkForest_fine p hp rest hr s1 this.inv (fun l hl => hf l (List.mem_append_right _ hl)) ha.2
end

end Hound
