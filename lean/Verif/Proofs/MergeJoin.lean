import Verif.Proofs.MergeLists

namespace Hound
namespace Merge
open Spec

/-! ## What the merged lists contain -/

theorem union_right (L : List Nat) : union L [] = L := by cases L <;> simp [union]
theorem union_left (L : List Nat) : union [] L = L := by cases L <;> simp [union]

/-- The list of a trigram. -/
def lk (ls : List (Nat × List Nat)) (t : Nat) : List Nat := ((ls.find? (fun g => decide (g.1 = t))).map (·.2)).getD []

theorem lk_cons (g : Nat × List Nat) (ls : List (Nat × List Nat)) (t : Nat) :
    lk (g :: ls) t = if g.1 = t then g.2 else lk ls t := by
  unfold lk
  rw [List.find?_cons]
  by_cases h : g.1 = t <;> simp [h]

theorem lk_none {ls : List (Nat × List Nat)} {t : Nat} (h : ∀ g ∈ ls, g.1 ≠ t) : lk ls t = [] := by
  induction ls with
  | nil => rfl
  | cons g ls ih => rw [lk_cons, if_neg (h g (by simp)), ih (fun x hx => h x (by simp [hx]))]

theorem lk_mem {ls : List (Nat × List Nat)} {t : Nat} (h : lk ls t ≠ []) : (t, lk ls t) ∈ ls := by
  induction ls with
  | nil => exact absurd rfl h
  | cons g ls ih =>
    rw [lk_cons] at h ⊢
    by_cases hg : g.1 = t
    · rw [if_pos hg]
      subst hg
      simp
    · rw [if_neg hg] at h ⊢
      exact List.mem_cons_of_mem _ (ih h)

theorem mem_nonEmpty {t u : Nat} {L ids : List Nat} : (t, ids) ∈ nonEmpty u L ↔ t = u ∧ ids = L ∧ ids ≠ [] := by
  unfold nonEmpty
  by_cases h : L = []
  · subst h
    simp
  · rw [if_neg h, List.mem_singleton, Prod.mk.injEq]
    constructor
    · rintro ⟨rfl, rfl⟩; exact ⟨rfl, rfl, h⟩
    · rintro ⟨rfl, rfl, _⟩; exact ⟨rfl, rfl⟩

/-- The mapped list of a trigram in the first and in the second index, merged. -/
def both (m1 m2 : List IdRange) (ls1 ls2 : List (Nat × List Nat)) (t : Nat) : List Nat :=
  union ((lk ls1 t).filterMap (mapId m1)) ((lk ls2 t).filterMap (mapId m2))

theorem mem_join {m1 m2 : List IdRange} : ∀ (n : Nat) (ls1 ls2 : List (Nat × List Nat)), ls1.length + ls2.length ≤ n →
    ls1.Pairwise (fun a b => a.1 < b.1) → ls2.Pairwise (fun a b => a.1 < b.1) → ∀ (t : Nat) (ids : List Nat),
    (t, ids) ∈ join m1 m2 ls1 ls2 ↔ ids ≠ [] ∧ ids = both m1 m2 ls1 ls2 t := by
  intro n
  induction n with
  | zero =>
    intro ls1 ls2 hn h1 h2 t ids
    have e1 : ls1 = [] := List.length_eq_zero_iff.1 (by omega)
    have e2 : ls2 = [] := List.length_eq_zero_iff.1 (by omega)
    subst e1 e2
    simp only [join, both, lk, List.find?_nil, Option.map_none, Option.getD_none, List.filterMap_nil, union,
      List.not_mem_nil, false_iff]
    intro ⟨a, b⟩
    exact a (by simpa using b)
  | succ n ih =>
    intro ls1 ls2 hn h1 h2 t ids
    have left : ∀ (g : Nat × List Nat) (rem : List (Nat × List Nat)), ls1 = g :: rem → (∀ h ∈ ls2, g.1 < h.1) →
        join m1 m2 ls1 ls2 = nonEmpty g.1 (g.2.filterMap (mapId m1)) ++ join m1 m2 rem ls2 →
        ((t, ids) ∈ join m1 m2 ls1 ls2 ↔ ids ≠ [] ∧ ids = both m1 m2 ls1 ls2 t) := by
      intro g rem hrem hlt hj
      subst hrem
      rw [List.pairwise_cons] at h1
      rw [hj, List.mem_append, mem_nonEmpty, ih rem ls2 (by simp at hn; omega) h1.2 h2]
      unfold both
      rw [lk_cons]
      by_cases ht : g.1 = t
      · subst ht
        rw [if_pos rfl, lk_none (fun h hh => by have := h1.1 h hh; omega),
          lk_none (ls := ls2) (fun h hh => by have := hlt h hh; omega)]
        simp only [List.filterMap_nil, union_right]
        constructor
        · rintro (⟨_, a, b⟩ | ⟨a, b⟩)
          · exact ⟨b, a⟩
          · exact absurd b a
        · rintro ⟨a, b⟩
          exact Or.inl ⟨by trivial, b, a⟩
      · rw [if_neg ht]
        constructor
        · rintro (⟨a, _⟩ | a)
          · exact absurd a.symm ht
          · exact a
        · exact Or.inr
    have right : ∀ (g : Nat × List Nat) (rem : List (Nat × List Nat)), ls2 = g :: rem → (∀ h ∈ ls1, g.1 < h.1) →
        join m1 m2 ls1 ls2 = nonEmpty g.1 (g.2.filterMap (mapId m2)) ++ join m1 m2 ls1 rem →
        ((t, ids) ∈ join m1 m2 ls1 ls2 ↔ ids ≠ [] ∧ ids = both m1 m2 ls1 ls2 t) := by
      intro g rem hrem hlt hj
      subst hrem
      rw [List.pairwise_cons] at h2
      rw [hj, List.mem_append, mem_nonEmpty, ih ls1 rem (by simp at hn; omega) h1 h2.2]
      unfold both
      rw [lk_cons]
      by_cases ht : g.1 = t
      · subst ht
        rw [if_pos rfl, lk_none (ls := rem) (fun h hh => by have := h2.1 h hh; omega),
          lk_none (ls := ls1) (fun h hh => by have := hlt h hh; omega)]
        simp only [List.filterMap_nil, union_left, union_right]
        constructor
        · rintro (⟨_, a, b⟩ | ⟨a, b⟩)
          · exact ⟨b, a⟩
          · exact absurd b a
        · rintro ⟨a, b⟩
          exact Or.inl ⟨by trivial, b, a⟩
      · rw [if_neg ht]
        constructor
        · rintro (⟨a, _⟩ | a)
          · exact absurd a.symm ht
          · exact a
        · exact Or.inr
    match ls1, ls2, h1, h2 with
    | [], [], _, _ => exact ih [] [] (by simp) List.Pairwise.nil List.Pairwise.nil t ids
    | g :: rem, [], h1, h2 => exact left g rem rfl (by simp) (by rw [join])
    | [], g :: rem, h1, h2 => exact right g rem rfl (by simp) (by rw [join])
    | g :: rem, h :: rem', h1, h2 =>
      have h1' := List.pairwise_cons.1 h1
      have h2' := List.pairwise_cons.1 h2
      by_cases hlt : g.1 < h.1
      · refine left g rem rfl ?_ (by rw [join, if_pos hlt])
        intro x hx
        rcases List.mem_cons.1 hx with rfl | hx
        · exact hlt
        · have := h2'.1 x hx; omega
      · by_cases hgt : h.1 < g.1
        · refine right h rem' rfl ?_ (by rw [join, if_neg hlt, if_pos hgt])
          intro x hx
          rcases List.mem_cons.1 hx with rfl | hx
          · exact hgt
          · have := h1'.1 x hx; omega
        · have heq : h.1 = g.1 := by omega
          rw [join, if_neg hlt, if_neg hgt, List.mem_append, mem_nonEmpty,
            ih rem rem' (by simp at hn; omega) h1'.2 h2'.2]
          unfold both
          rw [lk_cons, lk_cons, heq]
          by_cases ht : g.1 = t
          · subst ht
            rw [if_pos rfl, if_pos rfl, lk_none (ls := rem) (fun x hx => by have := h1'.1 x hx; omega),
              lk_none (ls := rem') (fun x hx => by have := h2'.1 x hx; omega)]
            simp only [List.filterMap_nil, union_right]
            constructor
            · rintro (⟨_, a, b⟩ | ⟨a, b⟩)
              · exact ⟨b, a⟩
              · exact absurd b a
            · rintro ⟨a, b⟩
              exact Or.inl ⟨by trivial, b, a⟩
          · rw [if_neg ht, if_neg ht]
            constructor
            · rintro (⟨a, _⟩ | a)
              · exact absurd a.symm ht
              · exact a
            · exact Or.inr

/-- A trigram of the merged lists is one of the first or of the second index. -/
theorem join_tri {m1 m2 : List IdRange} {ls1 ls2 : List (Nat × List Nat)} (h1 : ls1.Pairwise (fun a b => a.1 < b.1))
    (h2 : ls2.Pairwise (fun a b => a.1 < b.1)) {g : Nat × List Nat} (hg : g ∈ join m1 m2 ls1 ls2) :
    (∃ h ∈ ls1, h.1 = g.1) ∨ (∃ h ∈ ls2, h.1 = g.1) := by
  obtain ⟨a, b⟩ := (mem_join _ ls1 ls2 (Nat.le_refl _) h1 h2 g.1 g.2).1 hg
  by_cases e1 : lk ls1 g.1 = []
  · by_cases e2 : lk ls2 g.1 = []
    · rw [both, e1, e2] at b
      simp [union] at b
      exact absurd b a
    · exact Or.inr ⟨_, lk_mem e2, rfl⟩
  · exact Or.inl ⟨_, lk_mem e1, rfl⟩

theorem nonEmpty_append_sorted {t : Nat} {L : List Nat} {gs : List (Nat × List Nat)}
    (h : gs.Pairwise (fun a b => a.1 < b.1)) (ht : ∀ g ∈ gs, t < g.1) :
    (nonEmpty t L ++ gs).Pairwise (fun a b => a.1 < b.1) := by
  unfold nonEmpty
  split
  · simpa using h
  · rw [List.singleton_append, List.pairwise_cons]
    exact ⟨ht, h⟩

theorem join_sorted {m1 m2 : List IdRange} : ∀ (n : Nat) (ls1 ls2 : List (Nat × List Nat)), ls1.length + ls2.length ≤ n →
    ls1.Pairwise (fun a b => a.1 < b.1) → ls2.Pairwise (fun a b => a.1 < b.1) →
    (join m1 m2 ls1 ls2).Pairwise (fun a b => a.1 < b.1) := by
  intro n
  induction n with
  | zero =>
    intro ls1 ls2 hn h1 h2
    have e1 : ls1 = [] := List.length_eq_zero_iff.1 (by omega)
    have e2 : ls2 = [] := List.length_eq_zero_iff.1 (by omega)
    subst e1 e2
    simp [join]
  | succ n ih =>
    intro ls1 ls2 hn h1 h2
    match ls1, ls2, h1, h2 with
    | [], [], _, _ => simp [join]
    | g :: rem, [], h1, h2 =>
      have h1' := List.pairwise_cons.1 h1
      rw [join]
      refine nonEmpty_append_sorted (ih rem [] (by simp at hn; simp; omega) h1'.2 h2) (fun x hx => ?_)
      rcases join_tri h1'.2 h2 hx with ⟨y, hy, e⟩ | ⟨y, hy, e⟩
      · have := h1'.1 y hy; omega
      · simp at hy
    | [], g :: rem, h1, h2 =>
      have h2' := List.pairwise_cons.1 h2
      rw [join]
      refine nonEmpty_append_sorted (ih [] rem (by simp at hn; simp; omega) h1 h2'.2) (fun x hx => ?_)
      rcases join_tri h1 h2'.2 hx with ⟨y, hy, e⟩ | ⟨y, hy, e⟩
      · simp at hy
      · have := h2'.1 y hy; omega
    | g :: rem, h :: rem', h1, h2 =>
      have h1' := List.pairwise_cons.1 h1
      have h2' := List.pairwise_cons.1 h2
      rw [join]
      split
      · rename_i hlt
        refine nonEmpty_append_sorted (ih rem (h :: rem') (by simp at hn ⊢; omega) h1'.2 h2) (fun x hx => ?_)
        rcases join_tri h1'.2 h2 hx with ⟨y, hy, e⟩ | ⟨y, hy, e⟩
        · have := h1'.1 y hy; omega
        · rcases List.mem_cons.1 hy with rfl | hy
          · omega
          · have := h2'.1 y hy; omega
      · split
        · refine nonEmpty_append_sorted (ih (g :: rem) rem' (by simp at hn ⊢; omega) h1 h2'.2) (fun x hx => ?_)
          rcases join_tri h1 h2'.2 hx with ⟨y, hy, e⟩ | ⟨y, hy, e⟩
          · rcases List.mem_cons.1 hy with rfl | hy
            · omega
            · have := h1'.1 y hy; omega
          · have := h2'.1 y hy; omega
        · refine nonEmpty_append_sorted (ih rem rem' (by simp at hn; omega) h1'.2 h2'.2) (fun x hx => ?_)
          rcases join_tri h1'.2 h2'.2 hx with ⟨y, hy, e⟩ | ⟨y, hy, e⟩
          · have := h1'.1 y hy; omega
          · have := h2'.1 y hy; omega

theorem sorted_ext {α : Type} {f : α → Nat} {a b : List α} (ha : a.Pairwise (fun x y => f x < f y))
    (hb : b.Pairwise (fun x y => f x < f y)) (h : ∀ x, x ∈ a ↔ x ∈ b) : a = b := by
  refine List.Perm.eq_of_pairwise (le := fun x y => f x < f y) (fun x y _ _ h1 h2 => by omega) ha hb ?_
  refine (List.perm_ext_iff_of_nodup (ha.imp ?_) (hb.imp ?_)).2 h
  · intro x y hxy e; subst e; omega
  · intro x y hxy e; subst e; omega

/-- If the numbers of the documents of a merged collection are those the maps give, the merged lists are its lists. -/
theorem join_eq {m1 m2 : List IdRange} {docs1 docs2 docs3 : List (Bytes × Bytes)} {ls1 ls2 : List (Nat × List Nat)}
    (h1 : ls1.Pairwise (fun a b => a.1 < b.1)) (h2 : ls2.Pairwise (fun a b => a.1 < b.1))
    (k1 : ∀ t, lk ls1 t = idsOf docs1 t) (k2 : ∀ t, lk ls2 t = idsOf docs2 t)
    (ht : ∀ f ∈ docs3, ∀ t ∈ trigramsOf f.2, t < 2 ^ 24 - 1)
    (mono1 : ∀ i j a b, i < j → mapId m1 i = some a → mapId m1 j = some b → a < b)
    (mono2 : ∀ i j a b, i < j → mapId m2 i = some a → mapId m2 j = some b → a < b)
    (hdocs : ∀ k f, docs3[k]? = some f ↔ (∃ i, mapId m1 i = some k ∧ docs1[i]? = some f) ∨
      (∃ i, mapId m2 i = some k ∧ docs2[i]? = some f))
    (apart : ∀ i j k, mapId m1 i = some k → mapId m2 j = some k → False) :
    join m1 m2 ls1 ls2 = groupsOf docs3 := by
  have sub : ∀ (m : List IdRange) (docs : List (Bytes × Bytes)) (t : Nat),
      (∀ i j a b, i < j → mapId m i = some a → mapId m j = some b → a < b) →
      ((idsOf docs t).filterMap (mapId m)).Pairwise (· < ·) := by
    intro m docs t hm
    rw [List.pairwise_filterMap]
    exact idsOf_sorted.imp (fun {i j} hij a ha b hb => hm i j a b hij ha hb)
  have hboth : ∀ t, both m1 m2 ls1 ls2 t = idsOf docs3 t := by
    intro t
    unfold both
    rw [k1, k2]
    refine RIndex.Asc.unique (P := fun k => k ∈ idsOf docs3 t) ⟨?_, fun k => ?_⟩ ⟨idsOf_sorted, fun _ => Iff.rfl⟩
    · have p := List.pairwise_merge (le := fun a b : Nat => decide (a ≤ b)) (by simp; omega) (by simp; omega)
        ((idsOf docs1 t).filterMap (mapId m1)) ((idsOf docs2 t).filterMap (mapId m2))
        ((sub m1 docs1 t mono1).imp (by simp; omega)) ((sub m2 docs2 t mono2).imp (by simp; omega))
      have nd : (union ((idsOf docs1 t).filterMap (mapId m1)) ((idsOf docs2 t).filterMap (mapId m2))).Nodup := by
        rw [union, (List.merge_perm_append _).nodup_iff, List.nodup_append]
        refine ⟨(sub m1 docs1 t mono1).imp Nat.ne_of_lt, (sub m2 docs2 t mono2).imp Nat.ne_of_lt, ?_⟩
        intro a ha b hb e
        subst e
        obtain ⟨i, _, hi⟩ := List.mem_filterMap.1 ha
        obtain ⟨j, _, hj⟩ := List.mem_filterMap.1 hb
        exact apart i j a hi hj
      exact (p.and nd).imp (fun ⟨a, b⟩ => by simp at a; omega)
    · show _ ↔ k ∈ idsOf docs3 t
      rw [union, List.mem_merge, List.mem_filterMap, List.mem_filterMap, mem_idsOf]
      constructor
      · rintro (⟨i, hi, hk⟩ | ⟨i, hi, hk⟩)
        · obtain ⟨f, hf, htf⟩ := mem_idsOf.1 hi
          exact ⟨f, (hdocs k f).2 (Or.inl ⟨i, hk, hf⟩), htf⟩
        · obtain ⟨f, hf, htf⟩ := mem_idsOf.1 hi
          exact ⟨f, (hdocs k f).2 (Or.inr ⟨i, hk, hf⟩), htf⟩
      · rintro ⟨f, hf, htf⟩
        rcases (hdocs k f).1 hf with ⟨i, a, b⟩ | ⟨i, a, b⟩
        · exact Or.inl ⟨i, mem_idsOf.2 ⟨f, b, htf⟩, a⟩
        · exact Or.inr ⟨i, mem_idsOf.2 ⟨f, b, htf⟩, a⟩
  refine sorted_ext (f := fun g => g.1) (join_sorted _ ls1 ls2 (Nat.le_refl _) h1 h2) ?_ ?_
  · unfold groupsOf
    rw [List.pairwise_map]
    exact List.Pairwise.filter _ List.pairwise_lt_range
  · intro g
    rw [show g = (g.1, g.2) from rfl, mem_join _ ls1 ls2 (Nat.le_refl _) h1 h2, mem_groupsOf, hboth]
    constructor
    · rintro ⟨a, b⟩
      refine ⟨?_, b, a⟩
      rw [b] at a
      obtain ⟨i, hi⟩ := List.exists_mem_of_ne_nil _ a
      obtain ⟨f, hf, htf⟩ := mem_idsOf.1 hi
      exact ht f (List.mem_of_getElem? hf) _ htf
    · rintro ⟨_, a, b⟩
      exact ⟨b, a⟩

end Merge
end Hound
