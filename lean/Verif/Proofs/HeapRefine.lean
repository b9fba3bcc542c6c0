import Verif.Proofs.HeapQuery

/-! # Refinement of the whole analysis -/

namespace Hound
open Heap HInfo

def Sep (h : Heap) (l : List Slice) : Prop := (∀ s ∈ l, Valid h s) ∧ l.Pairwise Disj

/-- Old arrays not owned by `l` are unchanged. -/
def FrameL (h : Heap) (l : List Slice) (h' : Heap) : Prop :=
  h.arrs.length ≤ h'.arrs.length ∧
  ∀ a, a < h.arrs.length → (∀ s ∈ l, s.arr ≠ some a) → h'.arrs.getD a [] = h.arrs.getD a []

/-- `s` uses an array of `l`, a new array, or none. -/
def From (h : Heap) (l : List Slice) (s : Slice) : Prop :=
  s.arr = none ∨ (∃ t ∈ l, s.arr = t.arr) ∨ ∃ a, s.arr = some a ∧ h.arrs.length ≤ a

structure Step (h : Heap) (l : List Slice) (h' : Heap) (l' : List Slice) : Prop where
  frame : FrameL h l h'
  sep : Sep h' l'
  src : ∀ s ∈ l', From h l s

theorem Step.trans {h h1 h2 l l1 l2} (a : Step h l h1 l1) (b : Step h1 l1 h2 l2) : Step h l h2 l2 := by
  refine ⟨⟨Nat.le_trans a.frame.1 b.frame.1, ?_⟩, b.sep, ?_⟩
  · intro i hi hne
    rw [b.frame.2 i (Nat.lt_of_lt_of_le hi a.frame.1), a.frame.2 i hi hne]
    intro s hs
    rcases a.src s hs with h | ⟨t, ht, h⟩ | ⟨k, hk, h⟩
    · simp [h]
    · rw [h]; exact hne t ht
    · rw [hk]; intro e; cases e; omega
  · intro s hs
    rcases b.src s hs with h | ⟨t, ht, h⟩ | ⟨k, hk, h⟩
    · exact Or.inl h
    · have := a.src t ht
      unfold From at this ⊢
      rw [h]; exact this
    · exact Or.inr (Or.inr ⟨k, hk, Nat.le_trans a.frame.1 h⟩)

theorem sep_perm {h : Heap} {l l' : List Slice} (p : l.Perm l') (s : Sep h l) : Sep h l' :=
  ⟨fun t ht => s.1 t (p.mem_iff.2 ht), (p.pairwise_iff (fun hd => Disj.symm hd)).1 s.2⟩

theorem Step.weaken {h : Heap} {l l' : List Slice} (s : Sep h l) (sm : l'.Sublist l) :
    Step h l h l' := by
  refine ⟨⟨Nat.le_refl _, fun _ _ _ => rfl⟩, ?_, ?_⟩
  · exact ⟨fun t ht => s.1 t (sm.subset ht), s.2.sublist sm⟩
  · intro t ht
    exact Or.inr (Or.inl ⟨t, sm.subset ht, rfl⟩)

theorem Step.perm {h : Heap} {l l' : List Slice} (s : Sep h l) (p : l.Perm l') :
    Step h l h l' := by
  refine ⟨⟨Nat.le_refl _, fun _ _ _ => rfl⟩, sep_perm p s, ?_⟩
  intro t ht
  exact Or.inr (Or.inl ⟨t, p.mem_iff.2 ht, rfl⟩)

/-- One operation on a member of the list. -/
theorem Step.op {h h' : Heap} {s s' : Slice} {v} {A B : List Slice} (sp : Sep h (A ++ s :: B))
    (o : OpS h s h' s' v) :
    Step h (A ++ s :: B) h' (A ++ s' :: B) ∧ (∀ t ∈ A ++ B, h'.read t = h.read t) ∧
      h'.read s' = v := by
  have hpw := List.pairwise_append.1 sp.2
  have hB := List.pairwise_cons.1 hpw.2.1
  have hdj : ∀ t ∈ A ++ B, Disj t s := by
    intro t ht
    rcases List.mem_append.1 ht with ht | ht
    · exact hpw.2.2 t ht s (by simp)
    · exact (hB.1 t ht).symm
  have hval : ∀ t ∈ A ++ B, Valid h t := fun t ht => sp.1 t (by
    rcases List.mem_append.1 ht with ht | ht <;> simp [ht])
  refine ⟨⟨⟨o.frame.1, ?_⟩, ⟨?_, ?_⟩, ?_⟩, ?_, o.val⟩
  · intro a ha hne
    exact o.frame.2 a ha (hne s (by simp))
  · intro t ht
    rcases List.mem_append.1 ht with h1 | h1
    · exact (Valid.frame o.frame (hval t (by simp [h1])) (hdj t (by simp [h1]))).1
    · rcases List.mem_cons.1 h1 with rfl | h1
      · exact o.valid
      · exact (Valid.frame o.frame (hval t (by simp [h1])) (hdj t (by simp [h1]))).1
  · rw [List.pairwise_append]
    refine ⟨hpw.1, List.pairwise_cons.2 ⟨?_, hB.2⟩, ?_⟩
    · intro t ht
      exact (o.disj (hval t (by simp [ht])) (hdj t (by simp [ht]))).symm
    · intro t ht u hu
      rcases List.mem_cons.1 hu with rfl | hu
      · exact o.disj (hval t (by simp [ht])) (hdj t (by simp [ht]))
      · exact hpw.2.2 t ht u (by simp [hu])
  · intro t ht
    rcases List.mem_append.1 ht with h1 | h1
    · exact Or.inr (Or.inl ⟨t, by simp [h1], rfl⟩)
    · rcases List.mem_cons.1 h1 with rfl | h1
      · rcases o.own with h | h
        · exact Or.inr (Or.inl ⟨s, by simp, h⟩)
        · exact Or.inr (Or.inr h)
      · exact Or.inr (Or.inl ⟨t, by simp [h1], rfl⟩)
  · intro t ht
    exact (Valid.frame o.frame (hval t ht) (hdj t ht)).2

theorem sep_cons_nil {h : Heap} {l : List Slice} (s : Sep h l) : Sep h (Slice.nil :: l) := by
  refine ⟨?_, List.pairwise_cons.2 ⟨fun _ _ => Or.inl rfl, s.2⟩⟩
  intro t ht
  rcases List.mem_cons.1 ht with rfl | ht
  · exact valid_nil h
  · exact s.1 t ht

theorem Step.addNil {h : Heap} {l : List Slice} (s : Sep h l) : Step h l h (Slice.nil :: l) := by
  refine ⟨⟨Nat.le_refl _, fun _ _ _ => rfl⟩, sep_cons_nil s, ?_⟩
  intro t ht
  rcases List.mem_cons.1 ht with rfl | ht
  · exact Or.inl rfl
  · exact Or.inr (Or.inl ⟨t, ht, rfl⟩)

/-- A new slice. -/
theorem Step.fresh {h h' : Heap} {s' : Slice} {v} {l : List Slice} (sp : Sep h l)
    (o : OpS h Slice.nil h' s' v) :
    Step h l h' (s' :: l) ∧ (∀ t ∈ l, h'.read t = h.read t) ∧ h'.read s' = v := by
  obtain ⟨a, b, c⟩ := Step.op (A := []) (B := l) (sep_cons_nil sp) o
  exact ⟨(Step.addNil sp).trans a, b, c⟩

/-- Something that only allocates leaves existing slices alone. -/
theorem Step.par {h h' : Heap} {l l' : List Slice} (sp : Sep h l) (st : Step h [] h' l') :
    Step h l h' (l ++ l') ∧ ∀ t ∈ l, h'.read t = h.read t := by
  have hf : Frame h h' := ⟨st.frame.1, fun a ha => st.frame.2 a ha (by simp)⟩
  have hv : ∀ t ∈ l, Valid h' t ∧ h'.read t = h.read t := by
    intro t ht
    refine Valid.frame (s := Slice.nil) ⟨hf.1, fun a ha _ => hf.2 a ha⟩ (sp.1 t ht) ?_
    unfold Disj
    cases e : t.arr with
    | none => exact Or.inl rfl
    | some a => right; simp [Slice.nil]
  refine ⟨⟨⟨hf.1, fun a ha _ => hf.2 a ha⟩, ⟨?_, ?_⟩, ?_⟩, fun t ht => (hv t ht).2⟩
  · intro t ht
    rcases List.mem_append.1 ht with ht | ht
    · exact (hv t ht).1
    · exact st.sep.1 t ht
  · rw [List.pairwise_append]
    refine ⟨sp.2, st.sep.2, ?_⟩
    intro t ht u hu
    unfold Disj
    cases e : t.arr with
    | none => exact Or.inl rfl
    | some a =>
      right
      have hta := ((sp.1 t ht).2 a e).1
      rcases st.src u hu with h | ⟨k, hk, _⟩ | ⟨k, hk, h⟩
      · simp [h]
      · simp at hk
      · rw [hk]; intro e; cases e; omega
  · intro t ht
    rcases List.mem_append.1 ht with ht | ht
    · exact Or.inr (Or.inl ⟨t, ht, rfl⟩)
    · rcases st.src t ht with h | ⟨k, hk, _⟩ | h
      · exact Or.inl h
      · simp at hk
      · exact Or.inr (Or.inr h)

/-! ## Infos -/

def slices (i : HInfo) : List Slice := i.exact.toList ++ [i.pre, i.suf]

/-- The value an info stands for. -/
def absI (h : Heap) (i : HInfo) : RegexpInfo :=
  ⟨i.canEmpty, i.exact.map h.read, h.read i.pre, h.read i.suf, i.mat⟩

theorem absI_mk {h : Heap} {ce ex p u m} :
    absI h ⟨ce, ex, p, u, m⟩ = ⟨ce, ex.map h.read, h.read p, h.read u, m⟩ := rfl

theorem absI_congr {h h' : Heap} {i : HInfo} (hr : ∀ t ∈ slices i, h'.read t = h.read t) :
    absI h' i = absI h i := by
  obtain ⟨ce, ex, p, u, m⟩ := i
  unfold absI
  cases ex with
  | none =>
    simp only [slices, Option.toList, List.nil_append, List.mem_cons, List.not_mem_nil, or_false] at hr
    rw [hr p (Or.inl rfl), hr u (Or.inr rfl)]; rfl
  | some e =>
    simp only [slices, Option.toList, List.cons_append, List.nil_append, List.mem_cons,
      List.not_mem_nil, or_false] at hr
    simp only [Option.map_some]
    rw [hr p (Or.inr (Or.inl rfl)), hr u (Or.inr (Or.inr rfl)), hr e (Or.inl rfl)]

theorem simplifySets_spec {h : Heap} {i : HInfo} (he : i.exact = none) (sp : Sep h (slices i)) :
    Step h (slices i) (HInfo.simplifySets h i).1 (slices (HInfo.simplifySets h i).2) ∧
    absI (HInfo.simplifySets h i).1 (HInfo.simplifySets h i).2 =
      RegexpInfo.simplifySets (absI h i) := by
  obtain ⟨ce, ex, p, u, m⟩ := i
  simp only at he; subst he
  simp only [slices, Option.toList, List.nil_append] at sp ⊢
  unfold HInfo.simplifySets RegexpInfo.simplifySets
  simp only [absI_mk, Option.map_none]
  obtain ⟨o1, q1⟩ := simplifySet_spec (b := false) (q := m) (sp.1 p (by simp))
  obtain ⟨a1, a2, a3⟩ := Step.op (A := []) (B := [u]) sp o1
  obtain ⟨o2, q2⟩ := simplifySet_spec (b := true) (q := (HInfo.simplifySet false h m p).2.1)
    (a1.sep.1 u (by simp))
  obtain ⟨b1, b2, b3⟩ := Step.op (A := [(HInfo.simplifySet false h m p).2.2]) (B := []) a1.sep o2
  refine ⟨a1.trans b1, ?_⟩
  rw [b3, q2, a2 u (by simp), b2 _ (by simp), a3, q1]

theorem simplify_spec {grow} {h : Heap} {i : HInfo} {f : Bool} (sp : Sep h (slices i)) :
    Step h (slices i) (HInfo.simplify grow h i f).1 (slices (HInfo.simplify grow h i f).2) ∧
    absI (HInfo.simplify grow h i f).1 (HInfo.simplify grow h i f).2 =
      RegexpInfo.simplify (absI h i) f := by
  obtain ⟨ce, ex, p, u, m⟩ := i
  cases ex with
  | none =>
    unfold HInfo.simplify RegexpInfo.simplify
    simp only [absI_mk, Option.map_none]
    exact simplifySets_spec (i := ⟨ce, none, p, u, m⟩) rfl sp
  | some e =>
    simp only [slices, Option.toList, List.cons_append, List.nil_append] at sp
    unfold HInfo.simplify RegexpInfo.simplify
    simp only [absI_mk, Option.map_some]
    have o1 := clean_spec (b := false) (sp.1 e (by simp))
    obtain ⟨a1, a2, a3⟩ := Step.op (A := []) (B := [p, u]) sp o1
    rw [a3]
    split
    · simp only [HInfo.addExact, RegexpInfo.addExact, a3]
      have o2 := addAll_spec (grow := grow)
        ((cleanSet false (h.read e)).map RegexpInfo.head2) _ _ (a1.sep.1 p (by simp))
      obtain ⟨b1, b2, b3⟩ := Step.op (A := [(h.clean false e).2]) (B := [u]) a1.sep o2
      have o3 := addAll_spec (grow := grow)
        ((cleanSet false (h.read e)).map RegexpInfo.tail2) _ _ (b1.sep.1 u (by simp))
      obtain ⟨c1, c2, c3⟩ := Step.op (A := [(h.clean false e).2, _]) (B := []) b1.sep o3
      have w := Step.weaken (l' := [_, _]) c1.sep (List.sublist_cons_self _ _)
      have st := ((a1.trans b1).trans c1).trans w
      obtain ⟨d1, d2⟩ := simplifySets_spec (h := _)
        (i := ⟨ce, none, _, _, m.andTrigrams (cleanSet false (h.read e))⟩) rfl w.sep
      refine ⟨st.trans d1, ?_⟩
      rw [d2]
      simp only [absI_mk, Option.map_none]
      rw [c3, c2 _ (by simp), b3, b2 u (by simp), a2 p (by simp), a2 u (by simp)]
    · refine ⟨a1, ?_⟩
      simp only [absI_mk, Option.map_some]
      rw [a3, a2 p (by simp), a2 u (by simp)]


theorem Step.addNils {h : Heap} {l : List Slice} (s : Sep h l) :
    Step h l h (l ++ [Slice.nil, Slice.nil]) :=
  ((Step.addNil s).trans (Step.addNil (Step.addNil s).sep)).trans
    (Step.perm (Step.addNil (Step.addNil s).sep).sep (by
      show ([Slice.nil, Slice.nil] ++ l).Perm _
      exact List.perm_append_comm))

/-- Sets of slices that one may drop. -/
theorem Step.drop {h h' : Heap} {l l1 l2 : List Slice} (s : Step h l h' l1) (sm : l2.Sublist l1) :
    Step h l h' l2 := s.trans (Step.weaken s.sep sm)

theorem concat_spec {grow} {x y : HInfo} {st : HSt} (sp : Sep st.heap (slices x ++ slices y)) :
    Step st.heap (slices x ++ slices y) (HInfo.concat grow x y st).1.heap
      (slices (HInfo.concat grow x y st).2) ∧
    absI (HInfo.concat grow x y st).1.heap (HInfo.concat grow x y st).2 =
      RegexpInfo.concat (absI st.heap x) (absI st.heap y) ∧
    (HInfo.concat grow x y st).1.hazard = st.hazard := by
  obtain ⟨h, hz⟩ := st
  obtain ⟨xc, xe, xp, xu, xm⟩ := x
  obtain ⟨yc, ye, yp, yu, ym⟩ := y
  -- it suffices to treat the part before `simplify`
  have fin : ∀ (h' : Heap) (xy : HInfo) (L : List Slice) (V : RegexpInfo), Step h L h' (slices xy) →
      absI h' xy = V →
      Step h L (HInfo.simplify grow h' xy false).1 (slices (HInfo.simplify grow h' xy false).2) ∧
      absI (HInfo.simplify grow h' xy false).1 (HInfo.simplify grow h' xy false).2 =
        RegexpInfo.simplify V false := by
    intro h' xy L V s1 s2
    obtain ⟨a, b⟩ := simplify_spec (grow := grow) (f := false) s1.sep
    exact ⟨s1.trans a, by rw [b, s2]⟩
  cases xe with
  | some a =>
    cases ye with
    | some b =>
      simp only [slices, Option.toList, List.cons_append, List.nil_append] at sp
      simp only [HInfo.concat, RegexpInfo.concat, absI_mk, Option.map_some]
      obtain ⟨a1, a2, a3⟩ := Step.fresh (l := []) (Step.weaken sp (List.nil_sublist _)).sep
        (cross_spec (grow := grow) (s := a) (t := b) (b := false) (h := h))
      have s1 := (Step.weaken sp (List.nil_sublist _)).trans (a1.trans (Step.addNils a1.sep))
      obtain ⟨f1, f2⟩ := fin _ ⟨false, some _, Slice.nil, Slice.nil, xm.and ym⟩ _ _ s1 rfl
      refine ⟨f1, ?_, trivial⟩
      rw [f2]
      simp only [absI_mk, Option.map_some, a3, read_nil]
    | none =>
      simp only [slices, Option.toList, List.cons_append, List.nil_append] at sp
      simp only [HInfo.concat, RegexpInfo.concat, absI_mk, Option.map_some, Option.map_none]
      obtain ⟨a1, a2, a3⟩ := Step.fresh sp
        (cross_spec (grow := grow) (s := a) (t := yp) (b := false) (h := h))
      cases yc with
      | false =>
        simp only [concatSuf, Bool.false_eq_true, if_false]
        have s1 := a1.drop (l2 := [_, yu]) (by
          apply List.Sublist.cons_cons
          exact (List.sublist_append_right [a, xp, xu, yp] [yu]))
        obtain ⟨f1, f2⟩ := fin _ ⟨false, none, _, yu, xm.and ym⟩ _ _ s1 rfl
        refine ⟨f1, ?_, trivial⟩
        rw [f2]
        simp only [absI_mk, Option.map_none, a3, a2 yu (by simp)]
      | true =>
        simp only [concatSuf, if_true]
        obtain ⟨b1, b2, b3⟩ := Step.op (A := [_, a, xp, xu, yp]) (B := []) a1.sep
          (union_spec (grow := grow) (t := xu) (b := true) (a1.sep.1 yu (by simp)))
        have s1 := (a1.trans b1).drop (l2 := [_, _]) (by
          apply List.Sublist.cons_cons
          exact (List.sublist_append_right [a, xp, xu, yp] [_]))
        obtain ⟨f1, f2⟩ := fin _ ⟨false, none, _, _, xm.and ym⟩ _ _ s1 rfl
        refine ⟨f1, ?_, trivial⟩
        rw [f2]
        simp only [absI_mk, Option.map_none, b3, b2 _ (List.mem_append_left _ (List.mem_cons_self ..)), a3,
          a2 yu (by simp), a2 xu (by simp)]
  | none =>
    -- the prefix of `xy`
    have hpre : ∀ Y : List Slice, Sep h (xp :: xu :: Y) → yp ∈ Y ∨ xc = false →
        Step h (xp :: xu :: Y)
          (concatPre grow h ⟨xc, none, xp, xu, xm⟩ ⟨yc, ye, yp, yu, ym⟩).1
          ((concatPre grow h ⟨xc, none, xp, xu, xm⟩ ⟨yc, ye, yp, yu, ym⟩).2 :: xu :: Y) ∧
        (∀ t ∈ xu :: Y,
          (concatPre grow h ⟨xc, none, xp, xu, xm⟩ ⟨yc, ye, yp, yu, ym⟩).1.read t = h.read t) ∧
        (concatPre grow h ⟨xc, none, xp, xu, xm⟩ ⟨yc, ye, yp, yu, ym⟩).1.read
          (concatPre grow h ⟨xc, none, xp, xu, xm⟩ ⟨yc, ye, yp, yu, ym⟩).2 =
          (if xc then unionSet (h.read xp) (h.read yp) false else h.read xp) := by
      intro Y sY _
      cases xc with
      | false =>
        simp only [concatPre, Bool.false_eq_true, if_false]
        refine ⟨Step.weaken sY (List.Sublist.refl _), ?_, ?_⟩ <;> simp
      | true =>
        simp only [concatPre, if_true]
        exact Step.op (A := []) (B := xu :: Y) sY
          (union_spec (grow := grow) (t := yp) (b := false) (sY.1 xp (by simp)))
    cases ye with
    | some b =>
      simp only [slices, Option.toList, List.cons_append, List.nil_append] at sp
      simp only [HInfo.concat, RegexpInfo.concat, absI_mk, Option.map_some, Option.map_none]
      obtain ⟨a1, a2, a3⟩ := hpre _ sp (Or.inl (by simp))
      generalize concatPre grow h ⟨xc, none, xp, xu, xm⟩ ⟨yc, some b, yp, yu, ym⟩ = P at a1 a2 a3 ⊢
      obtain ⟨h1, p⟩ := P
      simp only at a1 a2 a3 ⊢
      obtain ⟨b1, b2, b3⟩ := Step.fresh a1.sep
        (cross_spec (grow := grow) (s := xu) (t := b) (b := true))
      have s0 := a1.trans (b1.trans (Step.perm b1.sep (List.Perm.swap _ _ _)))
      have s1 := s0.drop (l2 := [_, _]) (by
        apply List.Sublist.cons_cons; apply List.Sublist.cons_cons; exact List.nil_sublist _)
      obtain ⟨f1, f2⟩ := fin _ ⟨false, none, _, _, xm.and ym⟩ _ _ s1 rfl
      refine ⟨f1, ?_, trivial⟩
      rw [f2]
      simp only [absI_mk, Option.map_none, b3, b2 _ (List.mem_cons_self ..), a3, a2 xu (by simp), a2 b (by simp)]
      rfl
    | none =>
      simp only [slices, Option.toList, List.cons_append, List.nil_append] at sp
      simp only [HInfo.concat, RegexpInfo.concat, absI_mk, Option.map_none]
      obtain ⟨a1, a2, a3⟩ := hpre _ sp (Or.inl (by simp))
      generalize concatPre grow h ⟨xc, none, xp, xu, xm⟩ ⟨yc, none, yp, yu, ym⟩ = P at a1 a2 a3 ⊢
      obtain ⟨h1, p⟩ := P
      simp only at a1 a2 a3 ⊢
      -- the suffix of `xy`
      have hsuf : Step h1 [p, xu, yp, yu] (concatSuf grow h1 ⟨xc, none, xp, xu, xm⟩ ⟨yc, none, yp, yu, ym⟩).1
            [p, xu, yp, (concatSuf grow h1 ⟨xc, none, xp, xu, xm⟩ ⟨yc, none, yp, yu, ym⟩).2] ∧
          (∀ t ∈ [p, xu, yp], (concatSuf grow h1 ⟨xc, none, xp, xu, xm⟩ ⟨yc, none, yp, yu, ym⟩).1.read t =
            h1.read t) ∧
          (concatSuf grow h1 ⟨xc, none, xp, xu, xm⟩ ⟨yc, none, yp, yu, ym⟩).1.read
            (concatSuf grow h1 ⟨xc, none, xp, xu, xm⟩ ⟨yc, none, yp, yu, ym⟩).2 =
            (if yc then unionSet (h1.read yu) (h1.read xu) true else h1.read yu) := by
        cases yc with
        | false =>
          simp only [concatSuf, Bool.false_eq_true, if_false]
          refine ⟨Step.weaken a1.sep (List.Sublist.refl _), ?_, ?_⟩ <;> simp
        | true =>
          simp only [concatSuf, if_true]
          exact Step.op (A := [p, xu, yp]) (B := []) a1.sep
            (union_spec (grow := grow) (t := xu) (b := true) (a1.sep.1 yu (by simp)))
      generalize concatSuf grow h1 ⟨xc, none, xp, xu, xm⟩ ⟨yc, none, yp, yu, ym⟩ = S at hsuf ⊢
      obtain ⟨h2, u⟩ := S
      simp only at hsuf ⊢
      obtain ⟨b1, b2, b3⟩ := hsuf
      have s0 := a1.trans b1
      have e1 : h2.read xu = h.read xu := by rw [b2 xu (by simp), a2 xu (by simp)]
      have e2 : h2.read yp = h.read yp := by rw [b2 yp (by simp), a2 yp (by simp)]
      have e3 : h2.read p = (if xc then unionSet (h.read xp) (h.read yp) false else h.read xp) := by
        rw [b2 p (by simp), a3]
      have e4 : h2.read u = (if yc then unionSet (h.read yu) (h.read xu) true else h.read yu) := by
        rw [b3, a2 yu (by simp), a2 xu (by simp)]
      rw [e1, e2]
      split
      · rename_i hc
        obtain ⟨c1, c2, c3⟩ := Step.fresh s0.sep
          (cross_spec (grow := grow) (s := xu) (t := yp) (b := false))
        have s1 := (s0.trans c1).drop (l2 := [p, u]) (by
          apply List.Sublist.cons; apply List.Sublist.cons_cons
          apply List.Sublist.cons; apply List.Sublist.cons; exact List.Sublist.refl _)
        obtain ⟨f1, f2⟩ := fin _ ⟨false, none, p, u, (xm.and ym).andTrigrams _⟩ _ _ s1 rfl
        refine ⟨f1, ?_, trivial⟩
        rw [f2]
        simp only [absI_mk, Option.map_none]
        rw [c2 p (by simp), c2 u (by simp), c3, e1, e2, e3, e4]
        congr 2
        exact (if_pos hc).symm
      · rename_i hc
        have s1 := s0.drop (l2 := [p, u]) (by
          apply List.Sublist.cons_cons
          apply List.Sublist.cons; apply List.Sublist.cons; exact List.Sublist.refl _)
        obtain ⟨f1, f2⟩ := fin _ ⟨false, none, p, u, xm.and ym⟩ _ _ s1 rfl
        refine ⟨f1, ?_, trivial⟩
        rw [f2]
        simp only [absI_mk, Option.map_none]
        rw [e3, e4]
        congr 2
        exact (if_neg hc).symm


theorem union_fresh {grow b} {h : Heap} {s t : Slice} (hn : h.inPlace s (h.read t) = false) :
    OpS h Slice.nil (h.union grow s t b).1 (h.union grow s t b).2
      (unionSet (h.read s) (h.read t) b) := by
  unfold Heap.union
  have hn' : ¬ (s.len + (h.read t).length ≤ h.cap s) := by
    simpa [Heap.inPlace] using hn
  have o1 : OpS h Slice.nil (h.append grow s (h.read t)).1 (h.append grow s (h.read t)).2
      (h.read s ++ h.read t) := by
    unfold Heap.append; rw [if_neg hn']; exact alloc_spec
  have o2 := clean_spec (b := b) o1.valid
  rw [o1.val] at o2
  exact o1.trans o2

theorem alternate_spec {grow} {x y : HInfo} {st : HSt} (sp : Sep st.heap (slices x ++ slices y))
    (hz : (HInfo.alternate grow x y st).1.hazard = false) :
    Step st.heap (slices x ++ slices y) (HInfo.alternate grow x y st).1.heap
      (slices (HInfo.alternate grow x y st).2) ∧
    absI (HInfo.alternate grow x y st).1.heap (HInfo.alternate grow x y st).2 =
      RegexpInfo.alternate (absI st.heap x) (absI st.heap y) ∧
    st.hazard = false := by
  obtain ⟨h, hz0⟩ := st
  obtain ⟨xc, xe, xp, xu, xm⟩ := x
  obtain ⟨yc, ye, yp, yu, ym⟩ := y
  have fin : ∀ (h' : Heap) (xy : HInfo) (L : List Slice) (V : RegexpInfo), Step h L h' (slices xy) →
      absI h' xy = V →
      Step h L (HInfo.simplify grow h' xy false).1 (slices (HInfo.simplify grow h' xy false).2) ∧
      absI (HInfo.simplify grow h' xy false).1 (HInfo.simplify grow h' xy false).2 =
        RegexpInfo.simplify V false := by
    intro h' xy L V s1 s2
    obtain ⟨a, b⟩ := simplify_spec (grow := grow) (f := false) s1.sep
    exact ⟨s1.trans a, by rw [b, s2]⟩
  cases xe with
  | some a =>
    cases ye with
    | some b =>
      simp only [slices, Option.toList, List.cons_append, List.nil_append] at sp
      simp only [HInfo.alternate, RegexpInfo.alternate, absI_mk, Option.map_some] at hz ⊢
      obtain ⟨a1, a2, a3⟩ := Step.op (A := []) (B := [xp, xu, b, yp, yu]) sp
        (union_spec (grow := grow) (t := b) (b := false) (sp.1 a (by simp)))
      have s0 := a1.drop (l2 := [_]) (List.Sublist.cons_cons _ (List.nil_sublist _))
      have s1 := s0.trans (Step.addNils s0.sep)
      obtain ⟨f1, f2⟩ := fin _ ⟨xc || yc, some _, Slice.nil, Slice.nil, xm.or ym⟩ _ _ s1 rfl
      refine ⟨f1, ?_, hz⟩
      rw [f2]
      simp only [absI_mk, Option.map_some, a3, read_nil]
    | none =>
      simp only [slices, Option.toList, List.cons_append, List.nil_append] at sp
      simp only [HInfo.alternate, RegexpInfo.alternate, absI_mk, Option.map_some, Option.map_none] at hz ⊢
      simp only [Bool.or_eq_false_iff] at hz
      obtain ⟨⟨hz1, hz2⟩, hz3⟩ := hz
      obtain ⟨a1, a2, a3⟩ := Step.fresh sp (union_fresh (grow := grow) (b := false) hz2)
      obtain ⟨b1, b2, b3⟩ := Step.fresh a1.sep (union_fresh (grow := grow) (b := true) hz3)
      have s0 := (a1.trans b1).trans (Step.perm b1.sep (List.Perm.swap _ _ _))
      have s1 := s0.drop (l2 := [_, _]) (by
        apply List.Sublist.cons_cons; apply List.Sublist.cons_cons; exact List.nil_sublist _)
      obtain ⟨f1, f2⟩ := fin _ ⟨xc || yc, none, _, _,
        (HInfo.addExact (Heap.union grow (Heap.union grow h a yp false).1 a yu true).1
          ⟨xc, some a, xp, xu, xm⟩).mat.or ym⟩ _ _ s1 rfl
      refine ⟨f1, ?_, hz1⟩
      rw [f2]
      simp only [absI_mk, Option.map_none, HInfo.addExact, RegexpInfo.addExact]
      rw [b3, b2 _ (List.mem_cons_self ..), a3, b2 a (by simp), a2 a (by simp), a2 yu (by simp)]
  | none =>
    cases ye with
    | some b =>
      simp only [slices, Option.toList, List.cons_append, List.nil_append] at sp
      simp only [HInfo.alternate, RegexpInfo.alternate, absI_mk, Option.map_some, Option.map_none] at hz ⊢
      obtain ⟨a1, a2, a3⟩ := Step.op (A := []) (B := [xu, b, yp, yu]) sp
        (union_spec (grow := grow) (t := b) (b := false) (sp.1 xp (by simp)))
      obtain ⟨b1, b2, b3⟩ := Step.op (A := [_]) (B := [b, yp, yu]) a1.sep
        (union_spec (grow := grow) (t := b) (b := true) (a1.sep.1 xu (by simp)))
      have s1 := (a1.trans b1).drop (l2 := [_, _]) (by
        apply List.Sublist.cons_cons; apply List.Sublist.cons_cons; exact List.nil_sublist _)
      obtain ⟨f1, f2⟩ := fin _ ⟨xc || yc, none, _, _,
        xm.or (HInfo.addExact (Heap.union grow (Heap.union grow h xp b false).1 xu b true).1
          ⟨yc, some b, yp, yu, ym⟩).mat⟩ _ _ s1 rfl
      refine ⟨f1, ?_, hz⟩
      rw [f2]
      simp only [absI_mk, Option.map_none, HInfo.addExact, RegexpInfo.addExact]
      rw [b3, b2 _ (by simp), a3, b2 b (by simp), a2 b (by simp), a2 xu (by simp)]
    | none =>
      simp only [slices, Option.toList, List.cons_append, List.nil_append] at sp
      simp only [HInfo.alternate, RegexpInfo.alternate, absI_mk, Option.map_none] at hz ⊢
      obtain ⟨a1, a2, a3⟩ := Step.op (A := []) (B := [xu, yp, yu]) sp
        (union_spec (grow := grow) (t := yp) (b := false) (sp.1 xp (by simp)))
      obtain ⟨b1, b2, b3⟩ := Step.op (A := [_]) (B := [yp, yu]) a1.sep
        (union_spec (grow := grow) (t := yu) (b := true) (a1.sep.1 xu (by simp)))
      have s1 := (a1.trans b1).drop (l2 := [_, _]) (by
        apply List.Sublist.cons_cons; apply List.Sublist.cons_cons; exact List.nil_sublist _)
      obtain ⟨f1, f2⟩ := fin _ ⟨xc || yc, none, _, _, xm.or ym⟩ _ _ s1 rfl
      refine ⟨f1, ?_, hz⟩
      rw [f2]
      simp only [absI_mk, Option.map_none]
      rw [b3, b2 _ (by simp), a3, a2 yu (by simp), a2 xu (by simp)]

/-! ## The analysis -/

/-- `st'`, `i` were obtained from `st` by allocation only, and `i` stands for `v`. -/
structure Ref (st st' : HSt) (i : HInfo) (v : RegexpInfo) : Prop where
  step : Step st.heap [] st'.heap (slices i)
  val : absI st'.heap i = v
  hz : st.hazard = false

theorem sep_nil (h : Heap) : Sep h [] := ⟨by simp, List.Pairwise.nil⟩

theorem Step.refl_nil (h : Heap) : Step h [] h [] := Step.weaken (sep_nil h) (List.Sublist.refl _)

theorem noMatch_ref {st : HSt} (hz : st.hazard = false) : Ref st st HInfo.noMatch RegexpInfo.noMatch :=
  ⟨Step.addNils (sep_nil _), by simp [absI, HInfo.noMatch, RegexpInfo.noMatch, read_nil], hz⟩

theorem any_ref {st : HSt} {c : Bool} (hz : st.hazard = false) :
    Ref st ⟨((st.heap.alloc [[]] 1).1.alloc [[]] 1).1, st.hazard⟩
      ⟨c, none, (st.heap.alloc [[]] 1).2, ((st.heap.alloc [[]] 1).1.alloc [[]] 1).2, Query.allQ⟩
      ⟨c, none, [[]], [[]], Query.allQ⟩ := by
  obtain ⟨a1, a2, a3⟩ := Step.fresh (sep_nil st.heap) (alloc_spec (xs := [[]]) (c := 1))
  obtain ⟨b1, b2, b3⟩ := Step.fresh a1.sep (alloc_spec (xs := [[]]) (c := 1))
  refine ⟨(a1.trans b1).trans (Step.perm b1.sep (List.Perm.swap _ _ _)), ?_, hz⟩
  simp only [absI_mk, Option.map_none]
  rw [b3, b2 _ (by simp), a3]

theorem anyMatch_ref {st : HSt} (hz : st.hazard = false) :
    Ref st (HInfo.anyMatch st).1 (HInfo.anyMatch st).2 RegexpInfo.anyMatch := any_ref hz

theorem anyChar_ref {st : HSt} (hz : st.hazard = false) :
    Ref st (HInfo.anyChar st).1 (HInfo.anyChar st).2 RegexpInfo.anyChar := any_ref hz

theorem emptyString_ref {st : HSt} (hz : st.hazard = false) :
    Ref st (HInfo.emptyString st).1 (HInfo.emptyString st).2 RegexpInfo.emptyString := by
  obtain ⟨a1, a2, a3⟩ := Step.fresh (sep_nil st.heap) (alloc_spec (xs := [[]]) (c := 1))
  refine ⟨a1.trans (Step.addNils a1.sep), ?_, hz⟩
  simp only [HInfo.emptyString, absI_mk, Option.map_some, read_nil]
  rw [a3]; rfl

/-- A new exact set, simplified. -/
theorem exact_ref {grow} {st : HSt} {h1 : Heap} {e : Slice} {v : List Bytes} (hz : st.hazard = false)
    (o : OpS st.heap Slice.nil h1 e v) :
    Ref st ⟨(HInfo.simplify grow h1 ⟨false, some e, Slice.nil, Slice.nil, Query.allQ⟩ false).1, st.hazard⟩
      (HInfo.simplify grow h1 ⟨false, some e, Slice.nil, Slice.nil, Query.allQ⟩ false).2
      (RegexpInfo.simplify ⟨false, some v, [], [], Query.allQ⟩ false) := by
  obtain ⟨a1, a2, a3⟩ := Step.fresh (sep_nil st.heap) o
  have s1 := a1.trans (Step.addNils a1.sep)
  obtain ⟨b1, b2⟩ := simplify_spec (grow := grow) (f := false)
    (i := ⟨false, some e, Slice.nil, Slice.nil, Query.allQ⟩) s1.sep
  refine ⟨s1.trans b1, ?_, hz⟩
  rw [b2]
  simp only [absI_mk, Option.map_some, a3, read_nil]

theorem analyzeClass_ref {grow} {ranges} {st : HSt} (hz : st.hazard = false) :
    Ref st (HInfo.analyzeClass grow ranges st).1 (HInfo.analyzeClass grow ranges st).2
      (RegexpInfo.analyzeClass ranges) := by
  unfold HInfo.analyzeClass RegexpInfo.analyzeClass
  split
  · exact noMatch_ref hz
  split
  · exact anyChar_ref hz
  · have := addAll_spec (grow := grow) (RegexpInfo.classStrings ranges) st.heap Slice.nil (valid_nil _)
    rw [read_nil, List.nil_append] at this
    exact exact_ref hz this

/-- Two analyses one after the other, both live. -/
theorem Ref.both {st st1 st2 : HSt} {x y : HInfo} {v w} (hx : Ref st st1 x v) (hy : Ref st1 st2 y w) :
    Step st.heap [] st2.heap (slices x ++ slices y) ∧ absI st2.heap x = v ∧ absI st2.heap y = w := by
  obtain ⟨a, b⟩ := Step.par hx.step.sep hy.step
  exact ⟨hx.step.trans a, by rw [absI_congr b, hx.val], hy.val⟩

theorem concat_ref {grow} {st st1 st2 : HSt} {x y : HInfo} {v w} (hx : Ref st st1 x v)
    (hy : Ref st1 st2 y w) :
    Ref st (HInfo.concat grow x y st2).1 (HInfo.concat grow x y st2).2 (RegexpInfo.concat v w) := by
  obtain ⟨a, b, c⟩ := hx.both hy
  obtain ⟨d, e, f⟩ := concat_spec (grow := grow) a.sep
  exact ⟨a.trans d, by rw [e, b, c], hx.hz⟩

theorem alternate_ref {grow} {st st1 st2 : HSt} {x y : HInfo} {v w} (hx : Ref st st1 x v)
    (hy : Ref st1 st2 y w) (hz : (HInfo.alternate grow x y st2).1.hazard = false) :
    Ref st (HInfo.alternate grow x y st2).1 (HInfo.alternate grow x y st2).2
      (RegexpInfo.alternate v w) := by
  obtain ⟨a, b, c⟩ := hx.both hy
  obtain ⟨d, e, f⟩ := alternate_spec (grow := grow) a.sep hz
  exact ⟨a.trans d, by rw [e, b, c], hx.hz⟩

theorem analyzePlus_ref {grow} {st st1 : HSt} {x : HInfo} {v} (hx : Ref st st1 x v) :
    Ref st (HInfo.analyzePlus grow x st1).1 (HInfo.analyzePlus grow x st1).2
      (RegexpInfo.analyzePlus v) := by
  obtain ⟨c, e, p, u, m⟩ := x
  have hv := hx.val
  subst hv
  have hs := hx.step
  cases e with
  | none =>
    simp only [HInfo.analyzePlus, RegexpInfo.analyzePlus, absI_mk, Option.map_none]
    obtain ⟨a, b⟩ := simplify_spec (grow := grow) (f := false) hs.sep
    exact ⟨hs.trans a, b, hx.hz⟩
  | some e =>
    simp only [slices, Option.toList, List.cons_append, List.nil_append] at hs
    simp only [HInfo.analyzePlus, RegexpInfo.analyzePlus, absI_mk, Option.map_some]
    have o := append_spec (grow := grow) (xs := st1.heap.read e) (valid_nil st1.heap)
    rw [read_nil, List.nil_append] at o
    obtain ⟨a1, a2, a3⟩ := Step.fresh hs.sep o
    have s0 := (hs.trans a1).trans (Step.perm a1.sep (List.Perm.swap _ _ _))
    have s1 := s0.drop (l2 := [_, _]) (by
      apply List.Sublist.cons_cons; apply List.Sublist.cons_cons; exact List.nil_sublist _)
    obtain ⟨b1, b2⟩ := simplify_spec (grow := grow) (f := false)
      (i := ⟨c, none, e, _, m⟩) s1.sep
    refine ⟨s1.trans b1, ?_, hx.hz⟩
    rw [b2]
    simp only [absI_mk, Option.map_none]
    rw [a3, a2 e (by simp)]

theorem analyzeFolds_ref {grow orbit} : ∀ (rs : List Rune) {st st1 : HSt} {x : HInfo} {v},
    Ref st st1 x v → st1.hazard = false →
    Ref st (HInfo.analyzeFolds grow orbit rs x st1).1 (HInfo.analyzeFolds grow orbit rs x st1).2
      (rs.foldl (fun info r => RegexpInfo.concat info (RegexpInfo.analyzeFold1 orbit r)) v) ∧
    (HInfo.analyzeFolds grow orbit rs x st1).1.hazard = false
  | [], _, _, _, _, hx, hz => ⟨by simpa [HInfo.analyzeFolds] using hx, hz⟩
  | r :: rs, st, st1, x, v, hx, hz => by
    simp only [HInfo.analyzeFolds, List.foldl_cons]
    have hy := analyzeClass_ref (grow := grow) (ranges := (r, r) :: (orbit r).map fun r1 => (r1, r1)) hz
    have hy' : (HInfo.analyzeFold1 grow orbit r st1).1.hazard = false := by
      unfold HInfo.analyzeFold1 HInfo.analyzeClass
      split
      · exact hz
      split
      · exact hz
      · exact hz
    exact analyzeFolds_ref rs (concat_ref (grow := grow) hx hy) (by
      simp only [HInfo.concat]; exact hy')

theorem analyzeLiteral_ref {grow orbit rs f} {st : HSt} (hz : st.hazard = false) :
    Ref st (HInfo.analyzeLiteral grow orbit rs f st).1 (HInfo.analyzeLiteral grow orbit rs f st).2
      (RegexpInfo.analyzeLiteral orbit rs f) := by
  unfold HInfo.analyzeLiteral RegexpInfo.analyzeLiteral
  split
  · split
    · exact emptyString_ref hz
    · exact analyzeClass_ref hz
    · rename_i h0 h1
      have := (analyzeFolds_ref (grow := grow) (orbit := orbit) rs (emptyString_ref hz) hz).1
      match rs, h0, h1, this with
      | [], h0, _, _ => exact absurd rfl h0
      | [r], _, h1, _ => exact absurd rfl (h1 r)
      | a :: b :: rs, _, _, this => exact this
  · exact exact_ref hz alloc_spec

end Hound
