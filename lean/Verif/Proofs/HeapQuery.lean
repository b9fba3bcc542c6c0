import Verif.Model.HeapQuery
import Verif.Proofs.RegexpQuery

/-! # Without the hazard, the slice program computes the value program -/

namespace Hound
open Heap HInfo

/-! ## Slices and frames -/

def Valid (h : Heap) (s : Slice) : Prop :=
  (s.arr = none → s.len = 0) ∧
  ∀ a, s.arr = some a → a < h.arrs.length ∧ s.len ≤ (h.arrs.getD a []).length

/-- The two slices do not share an array. -/
def Disj (s t : Slice) : Prop := s.arr = none ∨ s.arr ≠ t.arr

theorem Disj.symm {s t : Slice} (h : Disj s t) : Disj t s := by
  unfold Disj at *
  rcases h with h | h
  · by_cases ht : t.arr = none
    · exact Or.inl ht
    · right; rw [h]; exact ht
  · right; exact fun e => h e.symm

/-- `h'` agrees with `h` on every old array except that of `s`. -/
def FrameS (h : Heap) (s : Slice) (h' : Heap) : Prop :=
  h.arrs.length ≤ h'.arrs.length ∧
  ∀ a, a < h.arrs.length → s.arr ≠ some a → h'.arrs.getD a [] = h.arrs.getD a []

/-- `h'` agrees with `h` on every old array. -/
def Frame (h h' : Heap) : Prop :=
  h.arrs.length ≤ h'.arrs.length ∧ ∀ a, a < h.arrs.length → h'.arrs.getD a [] = h.arrs.getD a []

theorem Frame.refl (h : Heap) : Frame h h := ⟨Nat.le_refl _, fun _ _ => rfl⟩

theorem Frame.trans {a b c : Heap} (h1 : Frame a b) (h2 : Frame b c) : Frame a c :=
  ⟨Nat.le_trans h1.1 h2.1, fun i hi => by rw [h2.2 i (Nat.lt_of_lt_of_le hi h1.1), h1.2 i hi]⟩

/-- An operation on slice `s` that yields slice `s'` with contents `v`. -/
structure OpS (h : Heap) (s : Slice) (h' : Heap) (s' : Slice) (v : List Bytes) : Prop where
  frame : FrameS h s h'
  valid : Valid h' s'
  val : h'.read s' = v
  own : s'.arr = s.arr ∨ ∃ a, s'.arr = some a ∧ h.arrs.length ≤ a

theorem Valid.frame {h h' : Heap} {s t : Slice} (hf : FrameS h s h') (ht : Valid h t)
    (hd : Disj t s) : Valid h' t ∧ h'.read t = h.read t := by
  unfold Valid at *
  cases e : t.arr with
  | none =>
    refine ⟨⟨fun _ => ht.1 e, by simp⟩, ?_⟩
    simp [Heap.read, Heap.cells, e]
  | some a =>
    have h1 := ht.2 a e
    have hne : s.arr ≠ some a := by
      rcases hd with hd | hd
      · rw [e] at hd; simp at hd
      · intro h; exact hd (by rw [e, h])
    have h2 := hf.2 a h1.1 hne
    refine ⟨⟨by simp, ?_⟩, ?_⟩
    · intro b hb; cases hb
      exact ⟨Nat.lt_of_lt_of_le h1.1 hf.1, by rw [h2]; exact h1.2⟩
    · simp only [Heap.read, Heap.cells, e]; rw [h2]

theorem OpS.disj {h h' : Heap} {s s' t : Slice} {v} (o : OpS h s h' s' v) (ht : Valid h t)
    (hd : Disj t s) : Disj t s' := by
  rcases o.own with h1 | ⟨a, ha, hl⟩
  · unfold Disj at *; rw [h1]; exact hd
  · unfold Disj
    cases e : t.arr with
    | none => exact Or.inl rfl
    | some b =>
      right
      have := (ht.2 b e).1
      rw [ha]; intro h; cases h; omega

theorem OpS.trans {h h1 h2 : Heap} {s s1 s2 : Slice} {v w} (o1 : OpS h s h1 s1 v)
    (o2 : OpS h1 s1 h2 s2 w) : OpS h s h2 s2 w := by
  refine ⟨⟨Nat.le_trans o1.frame.1 o2.frame.1, ?_⟩, o2.valid, o2.val, ?_⟩
  · intro a ha hne
    rw [o2.frame.2 a (Nat.lt_of_lt_of_le ha o1.frame.1), o1.frame.2 a ha hne]
    rcases o1.own with h | ⟨b, hb, hl⟩
    · rw [h]; exact hne
    · rw [hb]; intro h; cases h; omega
  · rcases o2.own with h | ⟨b, hb, hl⟩
    · rw [h]; exact o1.own
    · exact Or.inr ⟨b, hb, Nat.le_trans o1.frame.1 hl⟩

theorem OpS.refl {h : Heap} {s : Slice} (hv : Valid h s) : OpS h s h s (h.read s) :=
  ⟨⟨Nat.le_refl _, fun _ _ _ => rfl⟩, hv, rfl, Or.inl rfl⟩

theorem length_read {h : Heap} {s : Slice} (hv : Valid h s) : (h.read s).length = s.len := by
  unfold Heap.read Heap.cells
  cases e : s.arr with
  | none => simp [hv.1 e]
  | some a => simp only [List.length_take]; have := (hv.2 a e).2; omega

theorem valid_nil (h : Heap) : Valid h Slice.nil := by simp [Valid, Slice.nil]

theorem read_nil (h : Heap) : h.read Slice.nil = [] := by simp [Heap.read, Slice.nil]

theorem put_spec {h : Heap} {s : Slice} {xs : List Bytes} (hv : Valid h s)
    (hl : xs.length ≤ h.cap s) : OpS h s (h.put s xs).1 (h.put s xs).2 xs := by
  unfold Heap.put
  cases e : s.arr with
  | none =>
    have h0 : xs = [] := by
      simp only [Heap.cap, Heap.cells, e, List.length_nil] at hl
      exact List.length_eq_zero_iff.1 (by omega)
    subst h0
    simp only
    exact ⟨⟨Nat.le_refl _, fun _ _ _ => rfl⟩, hv, by simp [Heap.read, Heap.cells, e], Or.inl rfl⟩
  | some a =>
    have h1 := (hv.2 a e).1
    simp only [Heap.cap, Heap.cells, e] at hl
    simp only
    have hg : ∀ l, (h.arrs.set a l).getD a [] = l := by
      intro l; simp [List.getD_eq_getElem?_getD, h1]
    refine ⟨⟨by simp, ?_⟩, ⟨by simp, ?_⟩, ?_, Or.inl e.symm⟩
    · intro b hb hne
      have : a ≠ b := by intro hh; subst hh; exact hne e
      simp [List.getD_eq_getElem?_getD, List.getElem?_set_ne this]
    · intro b hb; cases hb
      refine ⟨by simpa using h1, ?_⟩
      rw [hg]; simp
    · simp only [Heap.read, Heap.cells]
      rw [hg]; simp

theorem alloc_spec {h : Heap} {s : Slice} {xs : List Bytes} {c : Nat} :
    OpS h s (h.alloc xs c).1 (h.alloc xs c).2 xs := by
  unfold Heap.alloc
  have hg : (h.arrs ++ [xs ++ List.replicate (c - xs.length) ([] : Bytes)]).getD h.arrs.length [] =
      xs ++ List.replicate (c - xs.length) [] := by
    simp [List.getD_eq_getElem?_getD]
  refine ⟨⟨by simp, ?_⟩, ⟨by simp, ?_⟩, ?_, Or.inr ⟨_, rfl, Nat.le_refl _⟩⟩
  · intro b hb _
    simp [List.getD_eq_getElem?_getD, List.getElem?_append_left hb]
  · intro b hb; cases hb
    refine ⟨by simp, ?_⟩
    rw [hg]; simp
  · simp only [Heap.read, Heap.cells]; rw [hg]; simp

theorem append_spec {grow h s xs} (hv : Valid h s) :
    OpS h s (h.append grow s xs).1 (h.append grow s xs).2 (h.read s ++ xs) := by
  unfold Heap.append
  split
  · apply put_spec hv
    rw [List.length_append, length_read hv]; assumption
  · exact alloc_spec

theorem addAll_spec {grow} : ∀ (xs : List Bytes) (h : Heap) (s : Slice), Valid h s →
    OpS h s (h.addAll grow s xs).1 (h.addAll grow s xs).2 (h.read s ++ xs)
  | [], h, s, hv => by simpa [Heap.addAll] using OpS.refl hv
  | x :: xs, h, s, hv => by
    simp only [Heap.addAll]
    have o1 := append_spec (grow := grow) (xs := [x]) hv
    have o2 := addAll_spec (grow := grow) xs _ _ o1.valid
    rw [o1.val] at o2
    have := o1.trans o2
    simpa using this

theorem cap_read {h : Heap} {s : Slice} (hv : Valid h s) : (h.read s).length ≤ h.cap s := by
  rw [length_read hv]
  unfold Heap.cap Heap.cells
  cases e : s.arr with
  | none => simp [hv.1 e]
  | some a => exact (hv.2 a e).2

theorem clean_spec {b : Bool} {h : Heap} {s : Slice} (hv : Valid h s) :
    OpS h s (h.clean b s).1 (h.clean b s).2 (cleanSet b (h.read s)) := by
  unfold Heap.clean
  simp only []
  have o1 := put_spec (xs := sortStrings (if b then bySuffixLess else byPrefixLess) (h.read s)) hv
    (by rw [length_sortStrings]; exact cap_read hv)
  have o2 := put_spec (xs := cleanSet b (h.read s)) o1.valid (by
    refine Nat.le_trans ?_ (cap_read o1.valid)
    rw [o1.val]; exact length_compactEq)
  exact o1.trans o2

theorem union_spec {grow b} {h : Heap} {s t : Slice} (hv : Valid h s) :
    OpS h s (h.union grow s t b).1 (h.union grow s t b).2 (unionSet (h.read s) (h.read t) b) := by
  unfold Heap.union
  have o1 := append_spec (grow := grow) (xs := h.read t) hv
  have o2 := clean_spec (b := b) o1.valid
  rw [o1.val] at o2
  exact o1.trans o2

theorem cross_spec {grow b} {h : Heap} {s t : Slice} :
    OpS h Slice.nil (h.cross grow s t b).1 (h.cross grow s t b).2
      (crossSet (h.read s) (h.read t) b) := by
  unfold Heap.cross
  have o1 := addAll_spec (grow := grow)
    ((h.read s).flatMap fun ss => (h.read t).map fun tt => ss ++ tt) h Slice.nil (valid_nil h)
  have o2 := clean_spec (b := b) o1.valid
  rw [o1.val, read_nil, List.nil_append] at o2
  exact o1.trans o2

theorem shorten_spec {b : Bool} : ∀ (n : Nat) (h : Heap) (s : Slice), Valid h s →
    OpS h s (HInfo.shortenLoop b n h s).1 (HInfo.shortenLoop b n h s).2
      (RegexpInfo.shortenLoop b n (h.read s))
  | 0, h, s, hv => OpS.refl hv
  | n + 1, h, s, hv => by
    simp only [HInfo.shortenLoop, RegexpInfo.shortenLoop, length_read hv]
    split
    · have o1 := put_spec (xs := compactEq none ((h.read s).map (RegexpInfo.cut b (n + 1)))) hv (by
        refine Nat.le_trans length_compactEq ?_
        rw [List.length_map]; exact cap_read hv)
      have o2 := clean_spec (b := b) o1.valid
      have o3 := shorten_spec (b := b) n _ _ o2.valid
      rw [o2.val, o1.val] at o3
      exact (o1.trans o2).trans o3
    · exact OpS.refl hv

theorem length_dropRedundant {b : Bool} : ∀ (t : List Bytes) (l : Option Bytes),
    (RegexpInfo.dropRedundant b l t).length ≤ t.length
  | [], l => by simp [RegexpInfo.dropRedundant]
  | x :: t, none => by
    have := length_dropRedundant (b := b) t (some x)
    simp [RegexpInfo.dropRedundant]; omega
  | x :: t, some l => by
    have := length_dropRedundant (b := b) t (some x)
    have := length_dropRedundant (b := b) t (some l)
    simp only [RegexpInfo.dropRedundant]; split <;> simp <;> omega

theorem simplifySet_spec {b : Bool} {h : Heap} {q : Query} {s : Slice} (hv : Valid h s) :
    OpS h s (HInfo.simplifySet b h q s).1 (HInfo.simplifySet b h q s).2.2
      (RegexpInfo.simplifySet b q (h.read s)).2 ∧
    (HInfo.simplifySet b h q s).2.1 = (RegexpInfo.simplifySet b q (h.read s)).1 := by
  unfold HInfo.simplifySet RegexpInfo.simplifySet
  simp only []
  have o1 := clean_spec (b := b) hv
  have o2 := shorten_spec (b := b) 3 _ _ o1.valid
  have o3 := put_spec (xs := RegexpInfo.dropRedundant b none
    ((HInfo.shortenLoop b 3 (h.clean b s).1 (h.clean b s).2).1.read
      (HInfo.shortenLoop b 3 (h.clean b s).1 (h.clean b s).2).2)) o2.valid (by
    refine Nat.le_trans (length_dropRedundant _ _) ?_
    exact cap_read o2.valid)
  constructor
  · have := (o1.trans o2).trans o3
    rw [o2.val, o1.val] at this
    rw [← o1.val, ← o2.val] at this ⊢
    rw [o2.val, o1.val] at this
    rw [o2.val, o1.val]
    exact this
  · rw [o1.val]

end Hound
