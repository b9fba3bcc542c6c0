import Verif.Model.Merge
import Verif.Proofs.PostingQuery

namespace Hound
namespace Merge
open Spec

/-! ## Mapped document numbers -/

/-- The number a map gives to a document. -/
def mapId (m : List IdRange) (i : Nat) : Option Nat :=
  (m.find? (fun g => decide (g.lo ≤ i ∧ i < g.hi))).map (fun g => g.new + (i - g.lo))

/-- Ranges as the first loop makes them. -/
structure MapOk (m : List IdRange) : Prop where
  sorted : m.Pairwise (fun a b => a.hi ≤ b.lo)
  small : ∀ g ∈ m, g.lo < g.hi ∧ g.new + (g.hi - g.lo) < 2 ^ 32

theorem MapOk.dropWhile {m : List IdRange} (h : MapOk m) (p : IdRange → Bool) : MapOk (m.dropWhile p) where
  sorted := h.sorted.sublist (List.dropWhile_sublist p)
  small := fun g hg => h.small g ((List.dropWhile_sublist p).mem hg)

theorem mapId_cons (g : IdRange) (m : List IdRange) (i : Nat) :
    mapId (g :: m) i = if g.lo ≤ i ∧ i < g.hi then some (g.new + (i - g.lo)) else mapId m i := by
  unfold mapId
  rw [List.find?_cons]
  by_cases h : g.lo ≤ i ∧ i < g.hi
  · simp [h]
  · simp [h]

theorem mapId_dropWhile (m : List IdRange) {j i : Nat} (h : j ≤ i) :
    mapId (m.dropWhile (fun g => g.hi ≤ j)) i = mapId m i := by
  induction m with
  | nil => rfl
  | cons g m ih =>
    rw [List.dropWhile_cons]
    by_cases hg : g.hi ≤ j
    · rw [if_pos (by simpa using hg), ih, mapId_cons, if_neg (by omega)]
    · rw [if_neg (by simpa using hg)]

theorem mapId_before {m : List IdRange} {i : Nat} (h : ∀ g ∈ m, i < g.lo) : mapId m i = none := by
  induction m with
  | nil => rfl
  | cons g m ih =>
    have := h g (by simp)
    rw [mapId_cons, if_neg (by omega), ih (fun x hx => h x (by simp [hx]))]

theorem mapId_some {m : List IdRange} {i k : Nat} (h : mapId m i = some k) :
    ∃ g ∈ m, g.lo ≤ i ∧ i < g.hi ∧ k = g.new + (i - g.lo) := by
  induction m with
  | nil => simp [mapId] at h
  | cons g m ih =>
    rw [mapId_cons] at h
    split at h
    · rename_i hc
      injection h with h
      exact ⟨g, by simp, hc.1, hc.2, h.symm⟩
    · obtain ⟨g', h1, h2⟩ := ih h
      exact ⟨g', by simp [h1], h2⟩

theorem mapId_lt {m : List IdRange} (hm : MapOk m) {i k : Nat} (h : mapId m i = some k) : k < none32 := by
  obtain ⟨g, h1, h2, h3, rfl⟩ := mapId_some h
  have := hm.small g h1
  unfold none32
  omega

theorem filterMap_eq_nil_of {l : List Nat} {f : Nat → Option Nat} (h : ∀ i ∈ l, f i = none) : l.filterMap f = [] := by
  induction l with
  | nil => rfl
  | cons x l ih => rw [List.filterMap_cons, h x (by simp)]; exact ih (fun i hi => h i (by simp [hi]))

theorem filterMap_congr_of {l : List Nat} {f g : Nat → Option Nat} (h : ∀ i ∈ l, f i = g i) :
    l.filterMap f = l.filterMap g := by
  induction l with
  | nil => rfl
  | cons x l ih =>
    rw [List.filterMap_cons, List.filterMap_cons, h x (by simp), ih (fun i hi => h i (by simp [hi]))]

/-! ## The reader of one list -/

/-- What is still to come from the current list of a reader. -/
def Rd (r : PostReader) (L : List Nat) : Prop :=
  ∃ (ids : List Nat) (junk : Bytes), r.count = ids.length ∧ r.d = deltas r.oldid ids ++ junk ∧
    ids.Pairwise (· < ·) ∧ (∀ i ∈ ids, i < 2 ^ 32 - 1) ∧ (r.oldid = 2 ^ 32 - 1 ∨ ∀ i ∈ ids, r.oldid < i) ∧
    (ids ≠ [] → MapOk r.rest) ∧ L = ids.filterMap (mapId r.rest)

/-- Two readers stand at the same list of the same index. -/
structure Same (r s : PostReader) : Prop where
  ix : s.ix = r.ix
  idmap : s.idmap = r.idmap
  triNum : s.triNum = r.triNum
  trigram : s.trigram = r.trigram

theorem Same.refl (r : PostReader) : Same r r := ⟨rfl, rfl, rfl, rfl⟩
theorem Same.trans {a b c : PostReader} (h1 : Same a b) (h2 : Same b c) : Same a c :=
  ⟨h2.ix.trans h1.ix, h2.idmap.trans h1.idmap, h2.triNum.trans h1.triNum, h2.trigram.trans h1.trigram⟩

/-- What `nextId` does to a reader from which `L` is still to come. -/
def Advanced (r : PostReader) (L : List Nat) (b : Bool) (s : PostReader) : Prop :=
  Same r s ∧ s.count ≤ r.count ∧
    match L with
    | [] => b = false ∧ s.fileid = none32 ∧ Rd s []
    | x :: L' => b = true ∧ s.fileid = x ∧ x < none32 ∧ s.count < r.count ∧ Rd s L'

theorem nextIdLoop_spec (r : PostReader) : ∀ (ids : List Nat) (junk : Bytes) (old : Nat) (rest : List IdRange),
    ids.Pairwise (· < ·) → (∀ i ∈ ids, i < 2 ^ 32 - 1) → (old = 2 ^ 32 - 1 ∨ ∀ i ∈ ids, old < i) →
    (ids ≠ [] → MapOk rest) →
    ∃ b s, r.nextIdLoop ids.length (deltas old ids ++ junk) old rest = some (b, s) ∧
      Same r s ∧ s.count ≤ ids.length ∧
      match ids.filterMap (mapId rest) with
      | [] => b = false ∧ s.fileid = none32 ∧ Rd s []
      | x :: L' => b = true ∧ s.fileid = x ∧ x < none32 ∧ s.count < ids.length ∧ Rd s L'
  | [], junk, old, rest, _, _, _, hm => by
    refine ⟨false, _, rfl, ⟨rfl, rfl, rfl, rfl⟩, Nat.zero_le _, rfl, rfl, [], junk, rfl, rfl, List.Pairwise.nil, by simp,
      Or.inr (by simp), by simp, rfl⟩
  | i :: ids, junk, old, rest, hs, hb, ho, hm => by
    have hm := hm (by simp)
    have hi := hb i (by simp)
    obtain ⟨hs1, hs2⟩ := List.pairwise_cons.1 hs
    have hpi : old = 2 ^ 32 - 1 ∨ old < i := by
      rcases ho with ho | ho
      · exact Or.inl ho
      · exact Or.inr (ho i (by simp))
    have hx : (i + 2 ^ 32 - old) % 2 ^ 32 < 2 ^ 32 := Nat.mod_lt _ (by decide)
    have hmm : (i + 2 ^ 32 - old) % 2 ^ 32 % 2 ^ 32 = (i + 2 ^ 32 - old) % 2 ^ 32 := Nat.mod_mod _ _
    have hid : (old + (i + 2 ^ 32 - old) % 2 ^ 32) % 2 ^ 32 = i := by omega
    rw [deltas, List.length_cons, PostReader.nextIdLoop, List.append_assoc, uvarint_put hx]
    simp only [hmm, hid]
    rw [if_neg (by omega), List.drop_left]
    have hd : ∀ j, i ≤ j → mapId (rest.dropWhile (fun g => g.hi ≤ i)) j = mapId rest j :=
      fun j hj => mapId_dropWhile rest hj
    have hm' := hm.dropWhile (fun g => g.hi ≤ i)
    have hcongr : ids.filterMap (mapId rest) = ids.filterMap (mapId (rest.dropWhile (fun g => g.hi ≤ i))) :=
      filterMap_congr_of (fun j hj => (hd j (by have := hs1 j hj; omega)).symm)
    rw [List.filterMap_cons, hcongr, ← hd i (Nat.le_refl _)]
    cases hrest : rest.dropWhile (fun g => g.hi ≤ i) with
    | nil =>
      have hnil : ids.filterMap (mapId []) = [] := filterMap_eq_nil_of (fun _ _ => rfl)
      simp only [show mapId [] i = none from rfl, hnil]
      exact ⟨false, _, rfl, ⟨rfl, rfl, rfl, rfl⟩, Nat.zero_le _, rfl, rfl, [], _, rfl, rfl, List.Pairwise.nil, by simp,
        Or.inr (by simp), by simp, rfl⟩
    | cons g gs =>
      rw [hrest] at hm'
      have hgi : i < g.hi := by
        have := List.head?_dropWhile_not (fun g : IdRange => decide (g.hi ≤ i)) rest
        rw [hrest] at this
        simp at this
        exact this
      simp only
      by_cases hlt : i < g.lo
      · rw [if_pos hlt]
        have hnone : mapId (g :: gs) i = none := by
          apply mapId_before
          intro g' hg'
          rcases List.mem_cons.1 hg' with rfl | hg'
          · exact hlt
          · have := (List.pairwise_cons.1 hm'.sorted).1 g' hg'; omega
        simp only [hnone]
        obtain ⟨b, s, e1, e2, e3, e4⟩ := nextIdLoop_spec r ids junk i (g :: gs) hs2 (fun j hj => hb j (by simp [hj]))
          (Or.inr hs1) (fun _ => hm')
        refine ⟨b, s, e1, e2, by omega, ?_⟩
        cases hL : ids.filterMap (mapId (g :: gs)) with
        | nil => rw [hL] at e4; exact e4
        | cons x L' =>
          rw [hL] at e4
          obtain ⟨f1, f2, f3, f4, f5⟩ := e4
          exact ⟨f1, f2, f3, by omega, f5⟩
      · rw [if_neg hlt]
        have hsome : mapId (g :: gs) i = some (g.new + (i - g.lo)) := by
          rw [mapId_cons, if_pos ⟨by omega, hgi⟩]
        have hsm := hm'.small g (by simp)
        simp only [hsome]
        refine ⟨true, _, rfl, ⟨rfl, rfl, rfl, rfl⟩, by simp, rfl, ?_, ?_, by simp, ids, junk, rfl, rfl, hs2,
          fun j hj => hb j (by simp [hj]), Or.inr hs1, fun _ => hm', rfl⟩
        · simp only
          omega
        · unfold none32; omega

theorem nextId_spec {r : PostReader} {L : List Nat} (h : Rd r L) :
    ∃ b s, r.nextId = some (b, s) ∧ Advanced r L b s := by
  obtain ⟨ids, junk, h1, h2, h3, h4, h5, h6, h7⟩ := h
  obtain ⟨b, s, e1, e2, e3, e4⟩ := nextIdLoop_spec r ids junk r.oldid r.rest h3 h4 h5 h6
  refine ⟨b, s, ?_, e2, by omega, ?_⟩
  · unfold PostReader.nextId
    rw [h1, h2, e1]
  · rw [← h7, ← h1] at e4
    exact e4

/-! ## The writer -/

/-- `w.fileid` for each of a list of numbers. -/
def put (w : PostWriter) (L : List Nat) : PostWriter := L.foldl PostWriter.fileid w

theorem put_append (w : PostWriter) (L M : List Nat) : put w (L ++ M) = put (put w L) M := by
  unfold put; rw [List.foldl_append]

theorem copyList_spec : ∀ (L : List Nat) (r : PostReader) (w : PostWriter) (fuel : Nat), Rd r L → r.count < fuel →
    ∃ s, copyList fuel r w = some (s, put w L) ∧ Same r s
  | _, _, _, 0, _, hf => by omega
  | [], r, w, fuel + 1, h, hf => by
    obtain ⟨b, s, e1, e2, e3, rfl, e4⟩ := nextId_spec h
    refine ⟨s, ?_, e2⟩
    rw [copyList, e1]
    rfl
  | x :: L, r, w, fuel + 1, h, hf => by
    obtain ⟨b, s, e1, e2, e3, rfl, rfl, e4, e5, e6⟩ := nextId_spec h
    obtain ⟨s', f1, f2⟩ := copyList_spec L s (w.fileid s.fileid) fuel e6 (by omega)
    refine ⟨s', ?_, e2.trans f2⟩
    rw [copyList, e1]
    exact f1

/-- A reader after a call of `nextId`: the number it stopped at, if any, and what is still to come. -/
def Cur (r : PostReader) (L : List Nat) : Prop :=
  match L with
  | [] => r.fileid = none32 ∧ Rd r []
  | x :: L' => r.fileid = x ∧ x < none32 ∧ Rd r L'

theorem Advanced.cur {r s : PostReader} {L : List Nat} {b : Bool} (h : Advanced r L b s) : Cur s L := by
  obtain ⟨_, _, h⟩ := h
  cases L with
  | nil => exact h.2
  | cons x L => exact ⟨h.2.1, h.2.2.1, h.2.2.2.2⟩

/-- The sorted union, as the loop makes it. -/
abbrev union (L1 L2 : List Nat) : List Nat := L1.merge L2 (fun a b => decide (a ≤ b))

theorem rd_lt {r : PostReader} {L : List Nat} (h : Rd r L) : ∀ x ∈ L, x < none32 := by
  obtain ⟨ids, junk, _, _, _, _, _, h6, rfl⟩ := h
  intro x hx
  obtain ⟨i, _, hi⟩ := List.mem_filterMap.1 hx
  exact mapId_lt (h6 (List.ne_nil_of_mem ‹_›)) hi

theorem mergeLists_spec : ∀ (n : Nat) (L1 L2 : List Nat) (r1 r2 : PostReader) (w : PostWriter) (fuel : Nat),
    Cur r1 L1 → Cur r2 L2 → (∀ x ∈ L1, x ∉ L2) → L1.length + L2.length = n → n < fuel →
    ∃ s1 s2, mergeLists fuel r1 r2 w = some (s1, s2, put w (union L1 L2)) ∧ Same r1 s1 ∧ Same r2 s2
  | _, _, _, _, _, _, 0, _, _, _, _, hf => by omega
  | n, [], [], r1, r2, w, fuel + 1, h1, h2, hd, hn, hf => by
    refine ⟨r1, r2, ?_, Same.refl _, Same.refl _⟩
    rw [mergeLists, if_neg]
    · simp [union, put]
    · rw [h1.1, h2.1]; omega
  | n + 1, x :: L1, [], r1, r2, w, fuel + 1, h1, h2, hd, hn, hf => by
    obtain ⟨a1, a2, a3⟩ := h1
    obtain ⟨b, s, e1, e2⟩ := nextId_spec a3
    obtain ⟨s1, s2, f1, f2, f3⟩ := mergeLists_spec n L1 [] s r2 (w.fileid x) fuel e2.cur h2 (by simp)
      (by simp at hn ⊢; omega) (by omega)
    refine ⟨s1, s2, ?_, e2.1.trans f2, f3⟩
    rw [mergeLists, if_pos (Or.inl (by omega)), if_pos (by rw [h2.1]; omega), e1, a1]
    simp only
    rw [f1]
    simp [union, put]
  | n + 1, [], y :: L2, r1, r2, w, fuel + 1, h1, h2, hd, hn, hf => by
    obtain ⟨a1, a2, a3⟩ := h2
    obtain ⟨b, s, e1, e2⟩ := nextId_spec a3
    obtain ⟨s1, s2, f1, f2, f3⟩ := mergeLists_spec n [] L2 r1 s (w.fileid y) fuel h1 e2.cur (by simp)
      (by simp at hn ⊢; omega) (by omega)
    refine ⟨s1, s2, ?_, f2, e2.1.trans f3⟩
    rw [mergeLists, if_pos (Or.inr (by omega)), if_neg (by rw [h1.1]; omega), if_pos (by rw [h1.1]; omega), e1, a1]
    simp only
    rw [f1]
    simp [union, put]
  | n + 1, x :: L1, y :: L2, r1, r2, w, fuel + 1, h1, h2, hd, hn, hf => by
    obtain ⟨a1, a2, a3⟩ := h1
    obtain ⟨b1, b2, b3⟩ := h2
    have hne : x ≠ y := by
      rintro rfl
      exact hd x (by simp) (by simp)
    by_cases hlt : x < y
    · obtain ⟨b, s, e1, e2⟩ := nextId_spec a3
      obtain ⟨s1, s2, f1, f2, f3⟩ := mergeLists_spec n L1 (y :: L2) s r2 (w.fileid x) fuel e2.cur ⟨b1, b2, b3⟩
        (fun z hz => hd z (by simp [hz])) (by simp at hn ⊢; omega) (by omega)
      refine ⟨s1, s2, ?_, e2.1.trans f2, f3⟩
      rw [mergeLists, if_pos (Or.inl (by omega)), if_pos (by omega), e1, a1]
      simp only
      rw [f1]
      simp only [union]
      rw [List.cons_merge_cons, if_pos (by simp; omega)]
      rfl
    · obtain ⟨b, s, e1, e2⟩ := nextId_spec b3
      obtain ⟨s1, s2, f1, f2, f3⟩ := mergeLists_spec n (x :: L1) L2 r1 s (w.fileid y) fuel ⟨a1, a2, a3⟩ e2.cur
        (fun z hz hm => hd z hz (by simp [hm])) (by simp at hn ⊢; omega) (by omega)
      refine ⟨s1, s2, ?_, f2, e2.1.trans f3⟩
      rw [mergeLists, if_pos (Or.inl (by omega)), if_neg (by omega), if_pos (by omega), e1, b1]
      simp only
      rw [f1]
      simp only [union]
      rw [List.cons_merge_cons, if_neg (by simp; omega)]
      rfl
  | 0, x :: L1, _, _, _, _, fuel + 1, _, _, _, hn, _ => by simp at hn
  | 0, [], y :: L2, _, _, _, fuel + 1, _, _, _, hn, _ => by simp at hn

theorem rd_length {r : PostReader} {L : List Nat} (h : Rd r L) : L.length ≤ r.count := by
  obtain ⟨ids, junk, h1, _, _, _, _, _, rfl⟩ := h
  rw [h1]
  exact List.length_filterMap_le _ _

/-! ## The lists of an index -/

/-- The posting lists of an open index, in the order of the file; there may be an empty one at the end. -/
structure View (ix : RIndex) (ls : List (Nat × List Nat)) : Prop where
  num : ix.numPost = ls.length
  small : ls.length * 11 < 2 ^ 32
  at_ : ∀ (i t : Nat) (ids : List Nat), ls[i]? = some (t, ids) → ∃ o, ix.listAt (i * 11) = some (t, ids.length, o) ∧
    (ids ≠ [] → ∃ junk, ix.sliceFrom ((ix.postData + o + 3) % 2 ^ 32) = some (deltas (2 ^ 32 - 1) ids ++ junk))
  sorted : ls.Pairwise (fun a b => a.1 < b.1)
  tri : ∀ g ∈ ls, g.1 < 2 ^ 24
  ids : ∀ g ∈ ls, g.2.Pairwise (· < ·) ∧ ∀ i ∈ g.2, i < 2 ^ 32 - 1

/-- The first of the lists before a reader is loaded. -/
def Loaded (m : List IdRange) (r : PostReader) : List (Nat × List Nat) → Prop
  | [] => r.trigram = none32
  | g :: _ => r.trigram = g.1 ∧ Rd r (g.2.filterMap (mapId m))

/-- A reader with the lists `rem` before it, the first of them loaded. -/
structure Before (ix : RIndex) (m : List IdRange) (ls : List (Nat × List Nat)) (r : PostReader)
    (rem : List (Nat × List Nat)) : Prop where
  hix : r.ix = ix
  hmap : r.idmap = m
  hle : r.triNum ≤ ls.length
  hrem : rem = ls.drop r.triNum
  hload : Loaded m r rem

theorem load_spec {ix : RIndex} {m : List IdRange} {ls : List (Nat × List Nat)} (hv : View ix ls) (hm : MapOk m)
    {r : PostReader} (h1 : r.ix = ix) (h2 : r.idmap = m) (h3 : r.triNum ≤ ls.length) :
    ∃ s, r.load = some s ∧ Before ix m ls s (ls.drop r.triNum) := by
  unfold PostReader.load
  by_cases hk : r.triNum ≥ ls.length
  · rw [if_pos (by rw [h1, hv.num]; exact hk)]
    refine ⟨_, rfl, h1, h2, h3, rfl, ?_⟩
    rw [List.drop_eq_nil_of_le hk]
    rfl
  · have hlt : r.triNum < ls.length := by omega
    obtain ⟨o, e1, e2⟩ := hv.at_ r.triNum ls[r.triNum].1 ls[r.triNum].2 (List.getElem?_eq_getElem hlt)
    obtain ⟨e3, e4⟩ := hv.ids ls[r.triNum] (List.getElem_mem hlt)
    have hsm := hv.small
    have hmod : r.triNum * postEntrySize % 2 ^ 32 = r.triNum * 11 := by
      show r.triNum * 11 % 2 ^ 32 = _
      omega
    subst h1
    rw [if_neg (by rw [hv.num]; exact hk), hmod, e1]
    simp only
    by_cases hz : ls[r.triNum].2.length = 0
    · rw [if_pos hz]
      refine ⟨_, rfl, rfl, h2, h3, rfl, ?_⟩
      rw [List.drop_eq_getElem_cons hlt]
      refine ⟨rfl, [], r.d, rfl, rfl, List.Pairwise.nil, by simp, Or.inr (by simp), by simp, ?_⟩
      rw [List.length_eq_zero_iff.1 hz]
      rfl
    · rw [if_neg hz]
      obtain ⟨junk, e5⟩ := e2 (fun h => hz (by rw [h]; rfl))
      rw [e5]
      refine ⟨_, rfl, rfl, h2, h3, rfl, ?_⟩
      rw [List.drop_eq_getElem_cons hlt]
      exact ⟨rfl, ls[r.triNum].2, junk, rfl, rfl, e3, e4, Or.inl rfl, fun _ => h2 ▸ hm, by rw [h2]⟩

theorem nextTrigram_spec {ix : RIndex} {m : List IdRange} {ls : List (Nat × List Nat)} (hv : View ix ls) (hm : MapOk m)
    {r s : PostReader} {g : Nat × List Nat} {rem : List (Nat × List Nat)} (hb : Before ix m ls r (g :: rem))
    (hs : Same r s) : ∃ s', s.nextTrigram = some s' ∧ Before ix m ls s' rem := by
  have hlt : r.triNum < ls.length := by
    rcases Nat.lt_or_ge r.triNum ls.length with h | h
    · exact h
    · have := hb.hrem
      rw [List.drop_eq_nil_of_le h] at this
      simp at this
  have hsm := hv.small
  have hmod : (s.triNum + 1) % 2 ^ 32 = r.triNum + 1 := by rw [hs.triNum]; omega
  have hdrop : ls.drop (r.triNum + 1) = rem := by
    have := hb.hrem
    rw [List.drop_eq_getElem_cons hlt] at this
    injection this with _ h
    exact h.symm
  unfold PostReader.nextTrigram
  obtain ⟨s', e1, e2⟩ := load_spec hv hm (r := { s with triNum := (s.triNum + 1) % 2 ^ 32 }) (hs.ix.trans hb.hix)
    (hs.idmap.trans hb.hmap) (by show (s.triNum + 1) % 2 ^ 32 ≤ _; omega)
  refine ⟨s', e1, ?_⟩
  simp only [hmod, hdrop] at e2
  exact e2

theorem init_spec {ix : RIndex} {m : List IdRange} {ls : List (Nat × List Nat)} (hv : View ix ls) (hm : MapOk m) :
    ∃ s, PostReader.init ix m = some s ∧ Before ix m ls s ls :=
  load_spec hv hm (r := { ix, idmap := m }) rfl rfl (Nat.zero_le _)

/-! ## The writer, one list -/

/-- The entries of the posting list index without a closing one; the first list starts at offset `o`. -/
def plainEntries : Nat → List (Nat × List Nat) → Bytes
  | _, [] => []
  | o, g :: gs => indexEntry g.1 g.2.length o ++ plainEntries (o + (groupBytes g).length) gs

theorem put_spec : ∀ (L : List Nat) (w : PostWriter), w.count + L.length < 2 ^ 32 → L ≠ [] →
    (put w L).out.contents = w.out.contents ++ (if w.count = 0 then putTrigram w.t else []) ++ deltas w.last L ∧
    (put w L).postIndexFile = w.postIndexFile ∧ (put w L).base = w.base ∧ (put w L).offset = w.offset ∧
    (put w L).t = w.t ∧ (put w L).count = w.count + L.length
  | [], _, _, hne => absurd rfl hne
  | x :: L, w, hc, _ => by
    have hstep : put w (x :: L) = put (w.fileid x) L := rfl
    have hcnt : (w.fileid x).count = w.count + 1 := by
      show (w.count + 1) % 2 ^ 32 = _
      simp only [List.length_cons] at hc
      omega
    have hout : (w.fileid x).out.contents = w.out.contents ++ (if w.count = 0 then putTrigram w.t else []) ++
        putUvarint ((x + 2 ^ 32 - w.last) % 2 ^ 32) := by
      show (BufWriter.writeUvarint (if w.count = 0 then w.out.writeTrigram w.t else w.out) _).contents = _
      rw [BufWriter.contents_writeUvarint]
      split
      · rw [BufWriter.contents_writeTrigram]
      · rw [List.append_nil]
    rw [hstep]
    cases L with
    | nil =>
      refine ⟨?_, rfl, rfl, rfl, rfl, hcnt⟩
      show (w.fileid x).out.contents = _
      rw [hout, deltas, deltas, List.append_nil]
    | cons y L =>
      obtain ⟨e1, e2, e3, e4, e5, e6⟩ := put_spec (y :: L) (w.fileid x)
        (by rw [hcnt]; simp only [List.length_cons] at hc ⊢; omega) (by simp)
      refine ⟨?_, e2, e3, e4, e5, ?_⟩
      · rw [e1, hout, hcnt, if_neg (show ¬ w.count + 1 = 0 by omega), List.append_nil, deltas.eq_2 w.last x (y :: L),
          List.append_assoc (w.out.contents ++ _)]
        rfl
      · rw [e6, hcnt]; simp only [List.length_cons]; omega

/-- What the writer has written: posting lists and their entries. -/
structure Wrote (w : PostWriter) (pre : Bytes) (gs : List (Nat × List Nat)) : Prop where
  base : w.base = pre.length
  out : w.out.contents = pre ++ groupsBytes gs
  pix : w.postIndexFile.contents = plainEntries 0 gs

theorem plainEntries_snoc (g : Nat × List Nat) : ∀ (gs : List (Nat × List Nat)) (o : Nat),
    plainEntries o (gs ++ [g]) = plainEntries o gs ++ indexEntry g.1 g.2.length (o + (groupsBytes gs).length)
  | [], o => by simp [plainEntries, groupsBytes]
  | h :: gs, o => by
    rw [List.cons_append, plainEntries, plainEntries, plainEntries_snoc g gs]
    simp [groupsBytes, Nat.add_assoc]

/-- Groups without the empty ones. -/
def nonEmpty (t : Nat) (L : List Nat) : List (Nat × List Nat) := if L = [] then [] else [(t, L)]

/-- One round of the writer. -/
theorem Wrote.round {w : PostWriter} {pre : Bytes} {gs : List (Nat × List Nat)} (h : Wrote w pre gs) (t : Nat)
    (L : List Nat) (hL : L.length < 2 ^ 32) (hsm : (pre ++ groupsBytes gs).length < 2 ^ 32) :
    ∃ w1, w.trigram t = some w1 ∧ Wrote (put w1 L).endTrigram pre (gs ++ nonEmpty t L) := by
  have hoff : w.out.offset = some (pre ++ groupsBytes gs).length := by
    rw [offset_some (by rw [h.out]; exact hsm), h.out]
  refine ⟨{ w with offset := (pre ++ groupsBytes gs).length, count := 0, t, last := none32 }, ?_, ?_⟩
  · unfold PostWriter.trigram
    rw [hoff]
    rfl
  · unfold nonEmpty
    by_cases hne : L = []
    · subst hne
      rw [if_pos rfl, List.append_nil]
      exact ⟨h.base, h.out, h.pix⟩
    · rw [if_neg hne]
      obtain ⟨e1, e2, e3, e4, e5, e6⟩ := put_spec L { w with offset := (pre ++ groupsBytes gs).length, count := 0, t, last := none32 }
        (by simpa using hL) hne
      have hlen : 0 < L.length := List.length_pos_iff.2 hne
      generalize put { w with offset := (pre ++ groupsBytes gs).length, count := 0, t, last := none32 } L = w2 at *
      simp only [if_true, Nat.zero_add] at e1 e2 e3 e4 e5 e6
      unfold PostWriter.endTrigram
      rw [if_neg (by omega)]
      refine ⟨?_, ?_, ?_⟩
      · exact e3.trans h.base
      · show (w2.out.writeUvarint 0).contents = _
        rw [BufWriter.contents_writeUvarint, e1, h.out]
        simp [groupsBytes, groupBytes, none32]
      · show (((w2.postIndexFile.writeTrigram w2.t).writeUint32 w2.count).writeUint32 _).contents = _
        rw [BufWriter.contents_writeUint32, BufWriter.contents_writeUint32, BufWriter.contents_writeTrigram, e2, h.pix,
          e3, e4, e5, e6, h.base, plainEntries_snoc]
        have : ((pre ++ groupsBytes gs).length + 2 ^ 32 - pre.length) % 2 ^ 32 = 0 + (groupsBytes gs).length := by
          rw [List.length_append] at hsm ⊢
          omega
        rw [this]
        simp [indexEntry]

/-! ## All lists -/

/-- The lists of two indexes with their numbers mapped, merged by trigram, without empty ones. -/
def join (m1 m2 : List IdRange) : List (Nat × List Nat) → List (Nat × List Nat) → List (Nat × List Nat)
  | [], [] => []
  | g :: gs, [] => nonEmpty g.1 (g.2.filterMap (mapId m1)) ++ join m1 m2 gs []
  | [], h :: hs => nonEmpty h.1 (h.2.filterMap (mapId m2)) ++ join m1 m2 [] hs
  | g :: gs, h :: hs =>
    if g.1 < h.1 then nonEmpty g.1 (g.2.filterMap (mapId m1)) ++ join m1 m2 gs (h :: hs)
    else if h.1 < g.1 then nonEmpty h.1 (h.2.filterMap (mapId m2)) ++ join m1 m2 (g :: gs) hs
    else nonEmpty g.1 (union (g.2.filterMap (mapId m1)) (h.2.filterMap (mapId m2))) ++ join m1 m2 gs hs
termination_by l1 l2 => l1.length + l2.length

theorem nonEmpty_few {m : List IdRange} {ids : List Nat} (h : ids.length < 2 ^ 32) :
    (ids.filterMap (mapId m)).length < 2 ^ 32 :=
  Nat.lt_of_le_of_lt (List.length_filterMap_le _ _) h

theorem groupsBytes_append (gs hs : List (Nat × List Nat)) :
    groupsBytes (gs ++ hs) = groupsBytes gs ++ groupsBytes hs := by
  simp [groupsBytes]

/-- The hypotheses on the two indexes. -/
structure Both (ix1 ix2 : RIndex) (m1 m2 : List IdRange) (ls1 ls2 : List (Nat × List Nat)) : Prop where
  v1 : View ix1 ls1
  v2 : View ix2 ls2
  ok1 : MapOk m1
  ok2 : MapOk m2
  few1 : ∀ g ∈ ls1, g.2.length < 2 ^ 31
  few2 : ∀ g ∈ ls2, g.2.length < 2 ^ 31
  apart : ∀ i j k, mapId m1 i = some k → mapId m2 j = some k → False

theorem Before.mem {ix : RIndex} {m : List IdRange} {ls rem : List (Nat × List Nat)} {r : PostReader}
    (h : Before ix m ls r rem) {g : Nat × List Nat} (hg : g ∈ rem) : g ∈ ls := by
  rw [h.hrem] at hg
  exact List.mem_of_mem_drop hg

theorem postLoop_spec {ix1 ix2 : RIndex} {m1 m2 : List IdRange} {ls1 ls2 : List (Nat × List Nat)}
    (hb : Both ix1 ix2 m1 m2 ls1 ls2) {pre : Bytes} :
    ∀ (n : Nat) (rem1 rem2 : List (Nat × List Nat)) (r1 r2 : PostReader) (w : PostWriter) (gs : List (Nat × List Nat))
      (fuel : Nat), rem1.length + rem2.length ≤ n → n < fuel → Before ix1 m1 ls1 r1 rem1 → Before ix2 m2 ls2 r2 rem2 →
      Wrote w pre gs → (pre ++ groupsBytes (gs ++ join m1 m2 rem1 rem2)).length < 2 ^ 32 →
      ∃ w', postLoop fuel r1 r2 w = some w' ∧ Wrote w' pre (gs ++ join m1 m2 rem1 rem2) := by
  have over : ∀ (r1 r2 : PostReader) (w : PostWriter) (gs : List (Nat × List Nat)) (fuel : Nat),
      Before ix1 m1 ls1 r1 [] → Before ix2 m2 ls2 r2 [] → Wrote w pre gs →
      ∃ w', postLoop (fuel + 1) r1 r2 w = some w' ∧ Wrote w' pre (gs ++ join m1 m2 [] []) := by
    intro r1 r2 w gs fuel h1 h2 hw
    have t1 : r1.trigram = none32 := h1.hload
    have t2 : r2.trigram = none32 := h2.hload
    refine ⟨w, ?_, by simpa [join] using hw⟩
    rw [postLoop, if_neg (by omega), if_neg (by omega), if_pos t1]
  intro n
  induction n with
  | zero =>
    intro rem1 rem2 r1 r2 w gs fuel hn hf h1 h2 hw hsm
    have e1 : rem1 = [] := List.length_eq_zero_iff.1 (by omega)
    have e2 : rem2 = [] := List.length_eq_zero_iff.1 (by omega)
    subst e1 e2
    cases fuel with
    | zero => omega
    | succ fuel => exact over r1 r2 w gs fuel h1 h2 hw
  | succ n ih =>
    intro rem1 rem2 r1 r2 w gs fuel hn hf h1 h2 hw hsm
    cases fuel with
    | zero => omega
    | succ fuel =>
    -- a list of the first index only
    have left : ∀ (g : Nat × List Nat) (rem : List (Nat × List Nat)), rem1 = g :: rem → r1.trigram < r2.trigram →
        join m1 m2 rem1 rem2 = nonEmpty g.1 (g.2.filterMap (mapId m1)) ++ join m1 m2 rem rem2 →
        ∃ w', postLoop (fuel + 1) r1 r2 w = some w' ∧ Wrote w' pre (gs ++ join m1 m2 rem1 rem2) := by
      intro g rem hrem hlt hj
      subst hrem
      obtain ⟨a1, a2⟩ : r1.trigram = g.1 ∧ Rd r1 (g.2.filterMap (mapId m1)) := h1.hload
      rw [hj, ← List.append_assoc, groupsBytes_append] at hsm
      rw [groupsBytes_append] at hsm
      have hg := hb.few1 g (h1.mem (by simp))
      obtain ⟨w1, b1, b2⟩ := hw.round g.1 (g.2.filterMap (mapId m1)) (nonEmpty_few (by omega))
        (by simp only [List.length_append] at hsm ⊢; omega)
      obtain ⟨s, c1, c2⟩ := copyList_spec _ r1 w1 (r1.count + 1) a2 (by omega)
      obtain ⟨s', d1, d2⟩ := nextTrigram_spec hb.v1 hb.ok1 h1 c2
      obtain ⟨w', f1, f2⟩ := ih rem rem2 s' r2 _ _ fuel (by simp at hn; omega) (by omega) d2 h2 b2
        (by rw [groupsBytes_append, groupsBytes_append]; exact hsm)
      refine ⟨w', ?_, ?_⟩
      · rw [postLoop, if_pos hlt, a1, b1]
        simp only [Option.bind_eq_bind, Option.bind_some]
        rw [c1]
        simp only [Option.bind_some]
        rw [d1]
        exact f1
      · rw [hj, ← List.append_assoc]
        exact f2
    have right : ∀ (g : Nat × List Nat) (rem : List (Nat × List Nat)), rem2 = g :: rem → r2.trigram < r1.trigram →
        join m1 m2 rem1 rem2 = nonEmpty g.1 (g.2.filterMap (mapId m2)) ++ join m1 m2 rem1 rem →
        ∃ w', postLoop (fuel + 1) r1 r2 w = some w' ∧ Wrote w' pre (gs ++ join m1 m2 rem1 rem2) := by
      intro g rem hrem hlt hj
      subst hrem
      obtain ⟨a1, a2⟩ : r2.trigram = g.1 ∧ Rd r2 (g.2.filterMap (mapId m2)) := h2.hload
      rw [hj, ← List.append_assoc, groupsBytes_append] at hsm
      rw [groupsBytes_append] at hsm
      have hg := hb.few2 g (h2.mem (by simp))
      obtain ⟨w1, b1, b2⟩ := hw.round g.1 (g.2.filterMap (mapId m2)) (nonEmpty_few (by omega))
        (by simp only [List.length_append] at hsm ⊢; omega)
      obtain ⟨s, c1, c2⟩ := copyList_spec _ r2 w1 (r2.count + 1) a2 (by omega)
      obtain ⟨s', d1, d2⟩ := nextTrigram_spec hb.v2 hb.ok2 h2 c2
      obtain ⟨w', f1, f2⟩ := ih rem1 rem r1 s' _ _ fuel (by simp at hn; omega) (by omega) h1 d2 b2
        (by rw [groupsBytes_append, groupsBytes_append]; exact hsm)
      refine ⟨w', ?_, ?_⟩
      · rw [postLoop, if_neg (by omega), if_pos hlt, a1, b1]
        simp only [Option.bind_eq_bind, Option.bind_some]
        rw [c1]
        simp only [Option.bind_some]
        rw [d1]
        exact f1
      · rw [hj, ← List.append_assoc]
        exact f2
    match rem1, rem2, h1, h2 with
    | [], [], h1, h2 => exact over r1 r2 w gs fuel h1 h2 hw
    | g :: rem, [], h1, h2 =>
      have t2 : r2.trigram = none32 := h2.hload
      have t1 : r1.trigram = g.1 := h1.hload.1
      have := hb.v1.tri g (h1.mem (by simp))
      exact left g rem rfl (by rw [t1, t2]; unfold none32; omega) (by rw [join])
    | [], g :: rem, h1, h2 =>
      have t2 : r2.trigram = g.1 := h2.hload.1
      have t1 : r1.trigram = none32 := h1.hload
      have := hb.v2.tri g (h2.mem (by simp))
      exact right g rem rfl (by rw [t1, t2]; unfold none32; omega) (by rw [join])
    | g :: rem, h :: rem', h1, h2 =>
      obtain ⟨a1, a2⟩ : r1.trigram = g.1 ∧ Rd r1 (g.2.filterMap (mapId m1)) := h1.hload
      obtain ⟨b1, b2⟩ : r2.trigram = h.1 ∧ Rd r2 (h.2.filterMap (mapId m2)) := h2.hload
      by_cases hlt : g.1 < h.1
      · exact left g rem rfl (by omega) (by rw [join, if_pos hlt])
      · by_cases hgt : h.1 < g.1
        · exact right h rem' rfl (by omega) (by rw [join, if_neg hlt, if_pos hgt])
        · have htri := hb.v1.tri g (h1.mem (by simp))
          have hg := hb.few1 g (h1.mem (by simp))
          have hh := hb.few2 h (h2.mem (by simp))
          have hj : join m1 m2 (g :: rem) (h :: rem') =
              nonEmpty g.1 (union (g.2.filterMap (mapId m1)) (h.2.filterMap (mapId m2))) ++ join m1 m2 rem rem' := by
            rw [join, if_neg hlt, if_neg hgt]
          rw [hj, ← List.append_assoc, groupsBytes_append] at hsm
          rw [groupsBytes_append] at hsm
          have l1 := List.length_filterMap_le (mapId m1) g.2
          have l2 := List.length_filterMap_le (mapId m2) h.2
          have hul : (union (g.2.filterMap (mapId m1)) (h.2.filterMap (mapId m2))).length < 2 ^ 32 := by
            rw [union, List.length_merge]; omega
          obtain ⟨w1, c1, c2⟩ := hw.round g.1 (union (g.2.filterMap (mapId m1)) (h.2.filterMap (mapId m2))) hul
            (by simp only [List.length_append] at hsm ⊢; omega)
          obtain ⟨_, s1, d1, d2⟩ := nextId_spec a2
          obtain ⟨_, s2, e1, e2⟩ := nextId_spec b2
          have k1 := rd_length a2
          have k2 := rd_length b2
          obtain ⟨s1', s2', f1, f2, f3⟩ := mergeLists_spec _ _ _ s1 s2 w1 (r1.count + r2.count + 1) d2.cur e2.cur
            (by
              intro x hx hy
              obtain ⟨i, _, hi⟩ := List.mem_filterMap.1 hx
              obtain ⟨j, _, hj⟩ := List.mem_filterMap.1 hy
              exact hb.apart i j x hi hj) rfl (by omega)
          obtain ⟨s1'', g1, g2⟩ := nextTrigram_spec hb.v1 hb.ok1 h1 (d2.1.trans f2)
          obtain ⟨s2'', g3, g4⟩ := nextTrigram_spec hb.v2 hb.ok2 h2 (e2.1.trans f3)
          obtain ⟨w', i1, i2⟩ := ih rem rem' s1'' s2'' _ _ fuel (by simp at hn; omega) (by omega) g2 g4 c2
            (by rw [groupsBytes_append, groupsBytes_append]; exact hsm)
          refine ⟨w', ?_, ?_⟩
          · rw [postLoop, if_neg (by omega), if_neg (by omega), if_neg (by rw [a1]; unfold none32; omega), a1, c1]
            simp only [Option.bind_eq_bind, Option.bind_some]
            rw [d1]
            simp only [Option.bind_some]
            rw [e1]
            simp only [Option.bind_some]
            rw [f1]
            simp only [Option.bind_some]
            rw [g1]
            simp only [Option.bind_some]
            rw [g3]
            exact i1
          · rw [hj, ← List.append_assoc]
            exact i2

end Merge
end Hound
