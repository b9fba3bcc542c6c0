import Verif.Model.Sparse

namespace Hound
namespace SSet

/-- The representation invariant: every stored value points to its own slot; the rest of `sparse`
is arbitrary. -/
structure Inv (s : SSet) (max : Nat) : Prop where
  size : s.sparse.length = max
  small : max ≤ 2 ^ 32 - 1
  back : ∀ i x : Nat, s.dense[i]? = some x → s.sparse[x]? = some i

theorem Inv.nodup {s max} (h : Inv s max) : s.dense.Nodup := by
  unfold List.Nodup
  rw [List.pairwise_iff_getElem]
  intro i j hi hj hij he
  have h1 := h.back i s.dense[i] (by simp [hi])
  have h2 := h.back j s.dense[i] (by rw [he]; simp [hj])
  rw [h1] at h2
  injection h2
  omega

theorem Inv.bound {s max} (h : Inv s max) : ∀ x ∈ s.dense, x < max := by
  intro x hx
  obtain ⟨i, hi⟩ := List.mem_iff_getElem?.1 hx
  have := h.back i x hi
  have := (List.getElem?_eq_some_iff.1 this).1
  rw [← h.size]; exact this

theorem length_le_of_nodup_bound : ∀ (n : Nat) (l : List Nat), l.Nodup → (∀ x ∈ l, x < n) → l.length ≤ n := by
  intro n
  induction n with
  | zero => intro l _ h; cases l with
    | nil => simp
    | cons a l => exact absurd (h a (by simp)) (by omega)
  | succ n ih =>
    intro l hn hb
    have h1 := ih (l.erase n) (hn.erase n) (by
      intro x hx
      have := hb x (List.mem_of_mem_erase hx)
      have : x ≠ n := fun e => by subst e; exact absurd hx (List.Nodup.not_mem_erase hn)
      omega)
    have := List.length_erase (a := n) (l := l)
    split at this <;> omega

theorem Inv.len_le {s max} (h : Inv s max) : s.dense.length ≤ max :=
  length_le_of_nodup_bound _ _ h.nodup h.bound

theorem Inv.found {s max x v} (h : Inv s max) (hv : s.sparse[x]? = some v) :
    (v < s.dense.length % 2 ^ 32 ∧ s.dense[v]? = some x) ↔ x ∈ s.dense := by
  have hl := h.len_le
  have hs := h.small
  rw [Nat.mod_eq_of_lt (by omega)]
  constructor
  · rintro ⟨_, h2⟩; exact List.mem_iff_getElem?.2 ⟨v, h2⟩
  · intro hx
    obtain ⟨i, hi⟩ := List.mem_iff_getElem?.1 hx
    have h1 := h.back i x hi
    rw [hv] at h1
    injection h1 with h1
    subst h1
    exact ⟨(List.getElem?_eq_some_iff.1 hi).1, hi⟩

theorem Inv.has {s max x} (h : Inv s max) (hx : x < max) : s.has x = some (decide (x ∈ s.dense)) := by
  unfold SSet.has
  have : x < s.sparse.length := by rw [h.size]; exact hx
  rw [List.getElem?_eq_getElem this]
  have f := h.found (List.getElem?_eq_getElem this)
  simp only [Option.some.injEq, Bool.and_eq_decide]
  by_cases hm : x ∈ s.dense <;> simp [hm] at f ⊢ <;> grind

/-- What a set of values looks like after adding one. -/
def insertNew (l : List Nat) (x : Nat) : List Nat := if x ∈ l then l else l ++ [x]

theorem Inv.add {s max x} (h : Inv s max) (hx : x < max) :
    ∃ s', s.add x = some s' ∧ Inv s' max ∧ s'.dense = insertNew s.dense x := by
  unfold SSet.add insertNew
  have hxs : x < s.sparse.length := by rw [h.size]; exact hx
  rw [List.getElem?_eq_getElem hxs]
  have f := h.found (List.getElem?_eq_getElem hxs)
  simp only
  by_cases hm : x ∈ s.dense
  · rw [if_pos (f.2 hm), if_pos hm]; exact ⟨s, rfl, h, rfl⟩
  · rw [if_neg (fun c => hm (f.1 c)), if_neg hm]
    refine ⟨_, rfl, ⟨?_, h.small, ?_⟩, rfl⟩
    · simp [h.size]
    · intro i y hy
      have hl := h.len_le
      have hsm := h.small
      simp only at hy ⊢
      rw [Nat.mod_eq_of_lt (by omega)]
      by_cases hi : i < s.dense.length
      · rw [List.getElem?_append_left hi] at hy
        have hb := h.back i y hy
        have hne : x ≠ y := fun e => hm (e ▸ List.mem_iff_getElem?.2 ⟨i, hy⟩)
        rw [List.getElem?_set_ne hne]
        exact hb
      · rw [List.getElem?_append_right (by omega)] at hy
        have : i - s.dense.length = 0 := by
          have := (List.getElem?_eq_some_iff.1 hy).1
          simp at this; omega
        rw [this] at hy
        simp at hy
        subst hy
        have : i = s.dense.length := by omega
        subst this
        rw [List.getElem?_set_self hxs]

theorem Inv.reset {s max} (h : Inv s max) : Inv s.reset max :=
  ⟨h.size, h.small, by simp [SSet.reset]⟩

theorem inv_new {max} (h : max ≤ 2 ^ 32 - 1) : Inv (SSet.new max) max :=
  ⟨by simp [SSet.new], h, by simp [SSet.new]⟩

theorem Inv.addAll {max} : ∀ {xs : List Nat} {s : SSet}, Inv s max → (∀ x ∈ xs, x < max) →
    ∃ s', s.addAll xs = some s' ∧ Inv s' max ∧ s'.dense = xs.foldl insertNew s.dense
  | [], s, h, _ => ⟨s, rfl, h, rfl⟩
  | x :: xs, s, h, hx => by
    obtain ⟨s1, e1, i1, d1⟩ := h.add (hx x (by simp))
    obtain ⟨s2, e2, i2, d2⟩ := i1.addAll (xs := xs) (fun y hy => hx y (by simp [hy]))
    refine ⟨s2, ?_, i2, ?_⟩
    · simp [SSet.addAll, e1, e2]
    · rw [d2, d1]; rfl

theorem mem_foldl_insertNew {xs : List Nat} : ∀ {l : List Nat} {y : Nat},
    y ∈ xs.foldl insertNew l ↔ y ∈ l ∨ y ∈ xs := by
  induction xs with
  | nil => simp
  | cons x xs ih =>
    intro l y
    rw [List.foldl_cons, ih]
    unfold insertNew
    split <;> grind

end SSet
end Hound
