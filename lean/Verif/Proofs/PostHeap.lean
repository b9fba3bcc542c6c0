import Verif.Model.PostHeap

namespace Hound
namespace PostHeap

/-- The key of slot `i` (0 outside). -/
def key (a : PostHeap) (i : Nat) : Nat := if h : i < a.size then a[i].e else 0

theorem key_eq {a : PostHeap} {i : Nat} (h : i < a.size) : a[i].e = key a i := by simp [key, h]

theorem key_swap {a : PostHeap} {i j : Nat} (hi : i < a.size) (hj : j < a.size) (k : Nat) :
    key (a.swap i j hi hj) k = if k = i then key a j else if k = j then key a i else key a k := by
  unfold key
  simp only [Array.size_swap]
  by_cases hk : k < a.size
  · simp only [hk, dif_pos, hi, hj, Array.getElem_swap]
    split
    · rfl
    split <;> rfl
  · rw [dif_neg hk, if_neg (by omega), if_neg (by omega), dif_neg hk]

/-- Parents before children. -/
def IsHeap (a : PostHeap) : Prop := ∀ j, j < a.size → 0 < j → key a ((j - 1) / 2) ≤ key a j

/-- All entries. -/
def entries (h : PostHeap) : List Nat := h.toList.flatMap fun c => c.e :: c.m

theorem entries_perm {a b : PostHeap} (h : a.Perm b) : (entries a).Perm (entries b) :=
  List.Perm.flatMap_right _ (Array.perm_iff_toList_perm.1 h)

theorem child_spec {a : PostHeap} {j1 : Nat} {h1 : j1 < a.size} :
    ((child a j1 h1).1 = j1 ∨ (child a j1 h1).1 = j1 + 1) ∧
    key a (child a j1 h1).1 ≤ key a j1 ∧
    (j1 + 1 < a.size → key a (child a j1 h1).1 ≤ key a (j1 + 1)) := by
  unfold child
  split
  · rename_i h2
    rw [key_eq h1, key_eq h2]
    split
    · exact ⟨Or.inr rfl, by assumption, fun _ => Nat.le_refl _⟩
    · exact ⟨Or.inl rfl, Nat.le_refl _, fun _ => by simp only; omega⟩
  · exact ⟨Or.inl rfl, Nat.le_refl _, fun h => absurd h (by assumption)⟩

theorem siftDown_spec : ∀ (fuel : Nat) (a : PostHeap) (i : Nat) (hi : i < a.size),
    a.size - i ≤ fuel →
    (∀ j, j < a.size → 0 < j → (j - 1) / 2 ≠ i → key a ((j - 1) / 2) ≤ key a j) →
    (0 < i → ∀ j, j < a.size → 0 < j → (j - 1) / 2 = i → key a ((i - 1) / 2) ≤ key a j) →
    IsHeap (siftDown fuel a i hi) ∧ (siftDown fuel a i hi).Perm a
  | 0, a, i, hi, hf, _, _ => by omega
  | fuel + 1, a, i, hi, hf, hA, hB => by
    unfold siftDown
    split
    · rename_i h1
      obtain ⟨c1, c2, c3⟩ := child_spec (a := a) (h1 := h1)
      obtain ⟨j, hj, hc⟩ : ∃ j hj, child a (2 * i + 1) h1 = ⟨j, hj⟩ := ⟨_, _, rfl⟩
      simp only [hc] at c1 c2 c3 ⊢
      have cmin : ∀ l, l < a.size → 0 < l → (l - 1) / 2 = i → key a j ≤ key a l := by
        intro l hl h0 hp
        have : l = 2 * i + 1 ∨ l = 2 * i + 1 + 1 := by omega
        rcases this with h | h
        · rw [h]; exact c2
        · rw [h]; exact c3 (by omega)
      rw [key_eq hi, key_eq hj]
      split
      · rename_i hlt
        refine ⟨?_, Array.Perm.refl _⟩
        intro l hl h0
        by_cases hp : (l - 1) / 2 = i
        · rw [hp]; have := cmin l hl h0 hp; omega
        · exact hA l hl h0 hp
      · rename_i hge
        have hjp : (j - 1) / 2 = i := by omega
        have ih := siftDown_spec fuel (a.swap i j hi hj) j (by simpa using hj)
          (by simp; omega) (by
            intro l hl h0 hp
            simp only [Array.size_swap] at hl
            simp only [key_swap]
            by_cases hli : (l - 1) / 2 = i
            · rw [if_pos hli, if_neg (by omega)]
              split
              · omega
              · exact cmin l hl h0 hli
            · rw [if_neg hli, if_neg hp]
              by_cases hl2 : l = i
              · subst hl2
                rw [if_pos rfl]
                exact hB h0 j hj (by omega) hjp
              · rw [if_neg hl2, if_neg (fun e => hli (by rw [e]; exact hjp))]
                exact hA l hl h0 hli)
          (by
            intro h0 l hl hl0 hp
            simp only [Array.size_swap] at hl
            simp only [key_swap]
            rw [hjp, if_pos rfl, if_neg (by omega), if_neg (by omega)]
            have := hA l hl hl0 (by omega)
            rw [hp] at this
            exact this)
        exact ⟨ih.1, ih.2.trans (Array.swap_perm hi hj)⟩
    · rename_i h1
      refine ⟨?_, Array.Perm.refl _⟩
      intro l hl h0
      exact hA l hl h0 (by omega)

theorem siftUp_spec : ∀ (fuel : Nat) (a : PostHeap) (j : Nat) (hj : j < a.size), j < fuel →
    (∀ l, l < a.size → 0 < l → l ≠ j → key a ((l - 1) / 2) ≤ key a l) →
    (0 < j → ∀ l, l < a.size → 0 < l → (l - 1) / 2 = j → key a ((j - 1) / 2) ≤ key a l) →
    IsHeap (siftUp fuel a j hj) ∧ (siftUp fuel a j hj).Perm a
  | 0, _, _, _, hf, _, _ => by omega
  | fuel + 1, a, j, hj, hf, hA, hB => by
    unfold siftUp
    have hi : (j - 1) / 2 < a.size := by omega
    simp only
    split
    · rename_i hstop
      rw [key_eq hi, key_eq hj] at hstop
      refine ⟨?_, Array.Perm.refl _⟩
      intro l hl h0
      by_cases hlj : l = j
      · subst hlj
        rcases hstop with h | h
        · omega
        · omega
      · exact hA l hl h0 hlj
    · rename_i hgo
      rw [key_eq hi, key_eq hj] at hgo
      have hj0 : 0 < j := by omega
      obtain ⟨i, hii⟩ : ∃ i, (j - 1) / 2 = i := ⟨_, rfl⟩
      simp only [hii] at hB hi hgo ⊢
      have ih := siftUp_spec fuel (a.swap i j hi hj) i (by simpa using hi)
        (by omega) (by
          intro l hl h0 hp
          simp only [Array.size_swap] at hl
          simp only [key_swap]
          by_cases hlj : l = j
          · subst hlj
            rw [hii, if_pos rfl, if_neg hp, if_pos rfl]; omega
          · rw [if_neg hp, if_neg hlj]
            by_cases h1 : (l - 1) / 2 = i
            · rw [if_pos h1]
              have := hA l hl h0 hlj
              rw [h1] at this; omega
            · rw [if_neg h1]
              by_cases h2 : (l - 1) / 2 = j
              · rw [if_pos h2]; exact hB hj0 l hl h0 h2
              · rw [if_neg h2]; exact hA l hl h0 hlj)
        (by
          intro h0 l hl hl0 hp
          simp only [Array.size_swap] at hl
          simp only [key_swap]
          rw [if_neg (by omega), if_neg (by omega)]
          have hpi := hA i hi h0 (by omega)
          by_cases hlj : l = j
          · subst hlj; rw [if_neg (by omega), if_pos rfl]; exact hpi
          · rw [if_neg (by omega), if_neg hlj]
            have := hA l hl hl0 hlj
            rw [hp] at this; omega)
      exact ⟨ih.1, ih.2.trans (Array.swap_perm hi hj)⟩

theorem key_push {a : PostHeap} {c : PostChunk} {i : Nat} (h : i < a.size) :
    key (Array.push a c) i = key a i := by
  unfold key
  rw [dif_pos (by simp; omega), dif_pos h, Array.getElem_push_lt h]

theorem push_spec {a : PostHeap} {c : PostChunk} (h : IsHeap a) :
    IsHeap (PostHeap.push a c) ∧ (PostHeap.push a c).Perm (Array.push a c) := by
  unfold PostHeap.push
  simp only
  split
  · apply siftUp_spec
    · simp
    · intro l hl h0 hne
      simp only [Array.size_push] at hl
      rw [key_push (by omega), key_push (by omega)]
      exact h l (by omega) h0
    · intro h0 l hl hl0 hp
      simp only [Array.size_push] at hl
      omega
  · rename_i h1
    refine ⟨?_, Array.Perm.refl _⟩
    intro l hl h0
    simp only [Array.size_push] at h1 hl
    omega

theorem addMem_spec {a : PostHeap} {x : List Nat} (h : IsHeap a) :
    IsHeap (a.addMem x) ∧ (entries (a.addMem x)).Perm (entries a ++ x) ∧
    ((∀ c ∈ a, (c.e :: c.m).Pairwise (· ≤ ·)) → x.Pairwise (· ≤ ·) →
      ∀ c ∈ a.addMem x, (c.e :: c.m).Pairwise (· ≤ ·)) := by
  cases x with
  | nil => exact ⟨h, by simp [addMem], fun h _ => h⟩
  | cons e m =>
    obtain ⟨h1, h2⟩ := push_spec (c := ⟨e, m⟩) h
    refine ⟨h1, ?_, ?_⟩
    · have := entries_perm h2
      unfold entries addMem at *
      simpa using this
    · intro hs hx c hc
      have : c ∈ Array.push a ⟨e, m⟩ := h2.mem_iff.1 hc
      rw [Array.mem_push] at this
      rcases this with h3 | h3
      · exact hs c h3
      · subst h3; exact hx

theorem IsHeap.min {a : PostHeap} (h : IsHeap a) : ∀ j, j < a.size → key a 0 ≤ key a j := by
  intro j
  induction j using Nat.strongRecOn with
  | _ j ih =>
    intro hj
    by_cases h0 : j = 0
    · subst h0; exact Nat.le_refl _
    · exact Nat.le_trans (ih ((j - 1) / 2) (by omega) (by omega)) (h j hj (by omega))

/-- Heap-ordered, every chunk in order. -/
structure Inv (a : PostHeap) : Prop where
  heap : IsHeap a
  sorted : ∀ c ∈ a, (c.e :: c.m).Pairwise (· ≤ ·)

theorem Inv.top_le {a : PostHeap} (h : Inv a) (hn : 0 < a.size) : ∀ x ∈ entries a, a[0].e ≤ x := by
  intro x hx
  unfold entries at hx
  rw [List.mem_flatMap] at hx
  obtain ⟨c, hc, hx⟩ := hx
  rw [Array.mem_toList_iff] at hc
  obtain ⟨j, hj, he⟩ := Array.mem_iff_getElem.1 hc
  have h1 := h.heap.min j hj
  rw [← key_eq hn, ← key_eq hj, he] at h1
  have h2 := h.sorted c hc
  rw [List.pairwise_cons] at h2
  rcases List.mem_cons.1 hx with h3 | h3
  · omega
  · have := h2.1 x h3; omega

theorem key_set_ne {a : PostHeap} {c : PostChunk} {hn : 0 < a.size} {i : Nat} (hi : i ≠ 0) :
    key (a.set 0 c hn) i = key a i := by
  unfold key
  simp only [Array.size_set]
  split
  · rw [Array.getElem_set_ne]; omega
  · rfl

theorem siftDown0_spec {a : PostHeap} {c : PostChunk} {fuel : Nat} (hn : 0 < a.size)
    (h : ∀ j, j < a.size → 0 < j → (j - 1) / 2 ≠ 0 → key a ((j - 1) / 2) ≤ key a j)
    (hf : a.size ≤ fuel) (hs : 0 < (a.set 0 c hn).size) :
    IsHeap (siftDown fuel (a.set 0 c hn) 0 hs) ∧ (siftDown fuel (a.set 0 c hn) 0 hs).Perm (a.set 0 c hn) := by
  apply siftDown_spec
  · simpa using hf
  · intro j hj h0 hp
    simp only [Array.size_set] at hj
    rw [key_set_ne hp, key_set_ne (by omega)]
    exact h j hj h0 hp
  · omega

theorem toList_cons {a : PostHeap} (hn : 0 < a.size) : a.toList = a[0] :: a.toList.tail := by
  cases a with
  | mk l => cases l with
    | nil => simp at hn
    | cons x xs => rfl

theorem toList_set0 {a : PostHeap} {c : PostChunk} (hn : 0 < a.size) :
    (a.set 0 c hn).toList = c :: a.toList.tail := by
  cases a with
  | mk l => cases l with
    | nil => simp at hn
    | cons x xs => rfl

theorem pop_spec {a : PostHeap} (h : IsHeap a) (hn : 0 < a.size) :
    IsHeap (pop a hn) ∧ (pop a hn).toList.Perm a.toList.tail := by
  have hperm : ((a.set 0 a[a.size - 1] hn).pop).toList.Perm a.toList.tail := by
    rw [Array.toList_pop, toList_set0 hn]
    cases a with
    | mk l => cases l with
      | nil => simp at hn
      | cons x xs =>
        simp only [List.size_toArray, List.getElem_toArray, List.length_cons, Nat.add_sub_cancel,
          List.tail_cons]
        cases xs with
        | nil => simp
        | cons y ys =>
          rw [List.dropLast_cons_of_ne_nil (by simp)]
          have : (x :: y :: ys)[(y :: ys).length] = (y :: ys).getLast (by simp) := by
            simp [List.getLast_eq_getElem]
          rw [this]
          have h2 := List.dropLast_concat_getLast (l := y :: ys) (by simp)
          conv => rhs; rw [← h2]
          exact List.perm_append_comm (l₁ := [_])
  unfold pop
  simp only
  split
  · rename_i hgt
    have hkey : ∀ i, i ≠ 0 → i < a.size - 1 → key ((a.set 0 a[a.size - 1] hn).pop) i = key a i := by
      intro i hi hlt
      unfold key
      rw [dif_pos (by simp; omega), dif_pos (by omega), Array.getElem_pop, Array.getElem_set_ne]
      omega
    have := siftDown_spec ((a.set 0 a[a.size - 1] hn).pop).size ((a.set 0 a[a.size - 1] hn).pop) 0
      (by simp; omega) (by omega) (by
        intro j hj h0 hp
        simp only [Array.size_pop, Array.size_set] at hj
        rw [hkey _ hp (by omega), hkey _ (by omega) hj]
        exact h j (by omega) h0) (by omega)
    exact ⟨this.1, (Array.perm_iff_toList_perm.1 this.2).trans hperm⟩
  · rename_i hle
    refine ⟨?_, hperm⟩
    intro j hj h0
    simp only [Array.size_pop, Array.size_set] at hj
    omega

theorem next_none {a : PostHeap} (hn : ¬ 0 < a.size) : a.next = none := by
  unfold next
  rw [dif_neg hn]

theorem next_last {a : PostHeap} (hn : 0 < a.size) (hm : a[0].m = []) :
    a.next = some (a[0].e, a.pop hn) := by
  unfold next
  rw [dif_pos hn]
  dsimp only
  split
  · rfl
  · rename_i h; rw [hm] at h; exact absurd h (by simp)

theorem next_more {a : PostHeap} (hn : 0 < a.size) {e' : Nat} {m' : List Nat} (hm : a[0].m = e' :: m') :
    a.next = some (a[0].e, siftDown a.size (a.set 0 ⟨e', m'⟩ hn) 0 (by simpa using hn)) := by
  unfold next
  rw [dif_pos hn]
  dsimp only
  split
  · rename_i h; rw [hm] at h; exact absurd h (by simp)
  · rename_i h; rw [hm] at h; cases h; rfl

/-- What `next` returns. -/
def NextOk (a : PostHeap) : Option (Nat × PostHeap) → Prop
  | none => entries a = []
  | some (e, b) => (e :: entries b).Perm (entries a) ∧ (∀ x ∈ entries a, e ≤ x) ∧ Inv b

theorem next_spec {a : PostHeap} (h : Inv a) : NextOk a a.next := by
  by_cases hn : 0 < a.size
  · have htop := h.top_le hn
    have hcons := toList_cons hn
    have hs0 : (a[0].e :: a[0].m).Pairwise (· ≤ ·) := h.sorted _ (Array.getElem_mem hn)
    cases heq : a[0].m with
    | nil =>
      rw [next_last hn heq]
      obtain ⟨p1, p2⟩ := pop_spec h.heap hn
      refine ⟨?_, htop, p1, ?_⟩
      · have h3 := List.Perm.flatMap_right (fun c : PostChunk => c.e :: c.m) p2
        have h4 : entries a = a[0].e :: a.toList.tail.flatMap (fun c => c.e :: c.m) := by
          unfold entries
          conv => lhs; rw [hcons, List.flatMap_cons, heq]
          rfl
        rw [h4]
        exact List.Perm.cons _ h3
      · intro c hc
        have : c ∈ a.toList.tail := p2.mem_iff.1 (Array.mem_toList_iff.2 hc)
        exact h.sorted c (Array.mem_toList_iff.1 (List.mem_of_mem_tail this))
    | cons e' m' =>
      rw [next_more hn heq]
      obtain ⟨p1, p2⟩ := siftDown0_spec (a := a) (c := ⟨e', m'⟩) (fuel := a.size) hn
        (fun j hj h0 _ => h.heap j hj h0) (Nat.le_refl _) (by simpa using hn)
      refine ⟨?_, htop, p1, ?_⟩
      · have h3 := entries_perm p2
        refine (List.Perm.cons _ h3).trans ?_
        unfold entries
        rw [toList_set0 hn]
        conv => rhs; rw [hcons]
        rw [List.flatMap_cons, List.flatMap_cons, heq]
        exact List.Perm.refl _
      · intro c hc
        have : c ∈ (a.set 0 ⟨e', m'⟩ hn).toList := Array.mem_toList_iff.2 (p2.mem_iff.1 hc)
        rw [toList_set0 hn, List.mem_cons] at this
        rcases this with h5 | h5
        · subst h5
          rw [heq] at hs0
          exact (List.pairwise_cons.1 hs0).2
        · exact h.sorted c (Array.mem_toList_iff.1 (List.mem_of_mem_tail h5))
  · rw [next_none hn]
    have : a.toList = [] := by
      cases a with
      | mk l => cases l with
        | nil => rfl
        | cons x xs => simp at hn
    simp [NextOk, entries, this]

theorem length_entries (a : PostHeap) : (entries a).length = count a := by
  simp [entries, count, List.length_flatMap]

theorem drain_spec : ∀ (fuel : Nat) (a : PostHeap), Inv a → count a ≤ fuel →
    (drain fuel a).Perm (entries a) ∧ (drain fuel a).Pairwise (· ≤ ·)
  | 0, a, h, hf => by
    have : (entries a).length = 0 := by rw [length_entries]; omega
    rw [List.length_eq_zero_iff] at this
    rw [this]; exact ⟨List.Perm.refl _, List.Pairwise.nil⟩
  | fuel + 1, a, h, hf => by
    have hs := next_spec h
    unfold drain
    cases hx : a.next with
    | none => rw [hx] at hs; unfold NextOk at hs; simp only at hs ⊢; rw [hs]; exact ⟨List.Perm.refl _, List.Pairwise.nil⟩
    | some p =>
      obtain ⟨e, b⟩ := p
      rw [hx] at hs
      unfold NextOk at hs
      simp only at hs ⊢
      obtain ⟨h1, h2, h3⟩ := hs
      have hc : count b ≤ fuel := by
        have := h1.length_eq
        rw [List.length_cons, length_entries, length_entries] at this
        omega
      obtain ⟨i1, i2⟩ := drain_spec fuel b h3 hc
      refine ⟨(List.Perm.cons _ i1).trans h1, List.pairwise_cons.2 ⟨?_, i2⟩⟩
      intro x hx
      exact h2 x (h1.mem_iff.1 (List.mem_cons_of_mem _ (i1.mem_iff.1 hx)))

theorem inv_empty : Inv #[] :=
  ⟨fun j hj => by simp at hj, fun c hc => by simp at hc⟩

/-- A heap filled with sorted chunks. -/
theorem foldl_addMem_spec : ∀ (xs : List (List Nat)) (a : PostHeap), Inv a →
    (∀ x ∈ xs, x.Pairwise (· ≤ ·)) →
    Inv (xs.foldl addMem a) ∧ (entries (xs.foldl addMem a)).Perm (entries a ++ xs.flatten)
  | [], a, h, _ => ⟨h, by simp⟩
  | x :: xs, a, h, hx => by
    obtain ⟨h1, h2, h3⟩ := addMem_spec (x := x) h.heap
    obtain ⟨i1, i2⟩ := foldl_addMem_spec xs (a.addMem x)
      ⟨h1, h3 h.sorted (hx x (by simp))⟩ (fun y hy => hx y (by simp [hy]))
    refine ⟨i1, i2.trans ?_⟩
    rw [List.flatten_cons, ← List.append_assoc]
    exact List.Perm.append_right _ h2

end PostHeap
end Hound
