import Verif.Proofs.MergeDocs
import Verif.Proofs.BuildIndex

namespace Hound
namespace Merge
open Spec

/-! ## Reading an index file, written by the index writer or by a merge -/

/-- Posting lists an index can hold. -/
structure LsOk (ls : List (Nat × List Nat)) : Prop where
  sorted : ls.Pairwise (fun a b => a.1 < b.1)
  tri : ∀ g ∈ ls, g.1 < 2 ^ 24
  ids : ∀ g ∈ ls, g.2.Pairwise (· < ·) ∧ ∀ i ∈ g.2, i < 2 ^ 32 - 1
  few : ∀ g ∈ ls, g.2.length < 2 ^ 31

theorem plainEntries_length : ∀ (gs : List (Nat × List Nat)) (o : Nat), (plainEntries o gs).length = 11 * gs.length
  | [], _ => rfl
  | g :: gs, o => by
    rw [plainEntries, List.length_append, RIndex.indexEntry_length, plainEntries_length gs, List.length_cons]
    omega

theorem plainEntries_drop : ∀ (i : Nat) (gs : List (Nat × List Nat)) (o : Nat), i ≤ gs.length →
    (plainEntries o gs).drop (i * 11) = plainEntries (o + (groupsBytes (gs.take i)).length) (gs.drop i)
  | 0, gs, o, _ => by simp [groupsBytes]
  | i + 1, [], o, h => by simp at h
  | i + 1, g :: gs, o, h => by
    rw [plainEntries, Nat.add_mul, Nat.one_mul, Nat.add_comm (i * 11), ← List.drop_drop,
      List.drop_left' (RIndex.indexEntry_length _ _ _), plainEntries_drop i gs _ (by simpa using h)]
    simp only [List.take_succ_cons, List.drop_succ_cons, groupsBytes, List.flatMap_cons, List.length_append]
    rw [Nat.add_assoc]

theorem plainEntries_at {gs : List (Nat × List Nat)} {i t : Nat} {ids : List Nat} (h : gs[i]? = some (t, ids)) :
    ∃ rest, (plainEntries 0 gs).drop (i * 11) =
      indexEntry t ids.length (groupsBytes (gs.take i)).length ++ rest := by
  obtain ⟨hlt, hg⟩ := List.getElem?_eq_some_iff.1 h
  rw [plainEntries_drop i gs 0 (by omega), List.drop_eq_getElem_cons hlt, hg, plainEntries, Nat.zero_add]
  exact ⟨_, rfl⟩

theorem indexEntry_get {t n o : Nat} (ht : t < 2 ^ 24) (hn : n < 2 ^ 32) (ho : o < 2 ^ 32) (rest : Bytes) :
    getTrigram (indexEntry t n o ++ rest) = some t ∧ getUint32 ((indexEntry t n o ++ rest).drop 3) = some n ∧
      getUint32 ((indexEntry t n o ++ rest).drop 7) = some o := by
  unfold indexEntry
  refine ⟨?_, ?_, ?_⟩
  · rw [List.append_assoc, List.append_assoc, getTrigram_put ht]
  · rw [List.append_assoc, List.append_assoc, List.drop_left' (putTrigram_length _), getUint32_put hn]
  · rw [List.append_assoc, List.drop_left' (by rw [List.length_append, putTrigram_length, putUint32_length]),
      getUint32_put ho]

/-- The file ends with its posting lists, name index and posting list index. -/
structure Lists (s : Sections) (ls : List (Nat × List Nat)) : Prop where
  size : s.bytes.length < 2 ^ 32
  lists : s.lists = groupsBytes ls
  post : s.postIndex = plainEntries 0 ls
  ok : LsOk ls

theorem Lists.len {s : Sections} {ls : List (Nat × List Nat)} (h : Lists s ls) :
    s.o2 + (groupsBytes ls).length + 36 ≤ s.bytes.length ∧ s.o4 + 11 * ls.length + 36 ≤ s.bytes.length ∧
      16 ≤ s.o2 ∧ s.o2 ≤ s.o4 := by
  have hl := s.length_bytes
  have e0 : Sections.o0 = 16 := rfl
  have e1 : s.o1 = Sections.o0 + s.paths.length := rfl
  have e2 : s.o2 = s.o1 + s.names.length := rfl
  have e3 : s.o3 = s.o2 + s.lists.length := rfl
  have e4 : s.o4 = s.o3 + s.nameIndex.length := rfl
  have e5 : s.o5 = s.o4 + s.postIndex.length := rfl
  have hp := plainEntries_length ls 0
  rw [← h.post] at hp
  rw [← h.lists]
  omega

/-- The bytes of a posting list, after its trigram. -/
theorem Lists.slice {s : Sections} {ls : List (Nat × List Nat)} (h : Lists s ls) {nf : Nat} {i t : Nat} {ids : List Nat}
    (hi : ls[i]? = some (t, ids)) :
    ∃ junk, (RIndex.ofSections s nf ls.length).sliceFrom
        (((RIndex.ofSections s nf ls.length).postData + (groupsBytes (ls.take i)).length + 3) % 2 ^ 32) =
      some (deltas (2 ^ 32 - 1) ids ++ 0 :: junk) := by
  have hgb := RIndex.getElem?_groupsOf_take hi
  have hgl : (groupBytes (t, ids)).length = 3 + (deltas (2 ^ 32 - 1) ids).length + 1 := by
    unfold groupBytes
    rw [List.length_append, List.length_append, putTrigram_length, RIndex.putUvarint_zero, List.length_singleton]
  have hll : (groupsBytes ls).length = (groupsBytes (ls.take i)).length +
      ((groupBytes (t, ids)).length + (groupsBytes (ls.drop (i + 1))).length) := by
    conv => lhs; rw [hgb]
    rw [List.length_append, List.length_append]
  have hlen := h.len
  have hs := h.size
  have hm : IW.magic.length = 16 := rfl
  have e0 : Sections.o0 = 16 := rfl
  have e1 : s.o1 = Sections.o0 + s.paths.length := rfl
  have e2 : s.o2 = s.o1 + s.names.length := rfl
  refine ⟨groupsBytes (ls.drop (i + 1)) ++ s.nameIndex ++ s.postIndex ++
        (putUint32 Sections.o0 ++ putUint32 s.o1 ++ putUint32 s.o2 ++
          putUint32 s.o3 ++ putUint32 s.o4) ++ IW.trailerMagic, ?_⟩
  refine RIndex.sliceFrom_at (a := IW.magic ++ s.paths ++ s.names ++ groupsBytes (ls.take i) ++ putTrigram t) ?_ ?_
  · show s.bytes = _
    unfold Sections.bytes
    rw [h.lists, hgb]
    unfold groupBytes
    rw [RIndex.putUvarint_zero]
    simp only [List.append_assoc, List.cons_append, List.nil_append]
  · show (s.o2 + (groupsBytes (ls.take i)).length + 3) % 2 ^ 32 = _
    simp only [List.length_append, hm, putTrigram_length]
    omega

theorem Lists.view {s : Sections} {ls : List (Nat × List Nat)} (h : Lists s ls) (nf : Nat) :
    View (RIndex.ofSections s nf ls.length) ls where
  num := rfl
  small := by have := h.len; have := h.size; omega
  sorted := h.ok.sorted
  tri := h.ok.tri
  ids := h.ok.ids
  at_ := by
    intro i t ids hi
    have hmem := List.mem_of_getElem? hi
    have hlt := (List.getElem?_eq_some_iff.1 hi).1
    have hlen := h.len
    have hs := h.size
    have htk := RIndex.groupsBytes_take_le (gs := ls) i
    obtain ⟨rest, hrest⟩ := plainEntries_at hi
    obtain ⟨g1, g2, g3⟩ := indexEntry_get (h.ok.tri _ hmem) (n := ids.length)
      (by have := h.ok.few _ hmem; simp only at this; omega)
      (o := (groupsBytes (ls.take i)).length) (by omega) []
    rw [List.append_nil] at g1 g2 g3
    refine ⟨(groupsBytes (ls.take i)).length, ?_, fun _ => ?_⟩
    · unfold RIndex.listAt
      have hcut : plainEntries 0 ls = (plainEntries 0 ls).take (i * 11) ++
          (indexEntry t ids.length (groupsBytes (ls.take i)).length ++ rest) := by
        rw [← hrest, List.take_append_drop]
      have hm : IW.magic.length = 16 := rfl
      have e0 : Sections.o0 = 16 := rfl
      have e1 : s.o1 = Sections.o0 + s.paths.length := rfl
      have e2 : s.o2 = s.o1 + s.names.length := rfl
      have e3 : s.o3 = s.o2 + s.lists.length := rfl
      have e4 : s.o4 = s.o3 + s.nameIndex.length := rfl
      rw [RIndex.slice_at (d := s.bytes) (ix := RIndex.ofSections s nf ls.length) rfl
        (a := IW.magic ++ s.paths ++ s.names ++ s.lists ++ s.nameIndex ++ (plainEntries 0 ls).take (i * 11))
        (b := indexEntry t ids.length (groupsBytes (ls.take i)).length)
        (c := rest ++ (putUint32 Sections.o0 ++ putUint32 s.o1 ++ putUint32 s.o2 ++ putUint32 s.o3 ++ putUint32 s.o4) ++
          IW.trailerMagic)]
      · simp only
        rw [g1, g2, g3]
      · unfold Sections.bytes
        rw [h.post]
        conv => lhs; rw [hcut]
        simp only [List.append_assoc]
      · show (s.o4 + i * 11) % 2 ^ 32 = _
        simp only [List.length_append, hm, List.length_take, plainEntries_length]
        omega
      · rfl
    · obtain ⟨junk, hj⟩ := h.slice (nf := nf) hi
      exact ⟨_, hj⟩

theorem lk_of_mem {ls : List (Nat × List Nat)} (hs : ls.Pairwise (fun a b => a.1 < b.1)) {t : Nat} {ids : List Nat}
    (hi : (t, ids) ∈ ls) : lk ls t = ids := by
  induction ls with
  | nil => simp at hi
  | cons g ls ih =>
    obtain ⟨h1, h2⟩ := List.pairwise_cons.1 hs
    rw [lk_cons]
    rcases List.mem_cons.1 hi with rfl | hi
    · rw [if_pos rfl]
    · have := h1 _ hi
      simp only at this
      rw [if_neg (by omega), ih h2 hi]

theorem lk_of_getElem {ls : List (Nat × List Nat)} (hs : ls.Pairwise (fun a b => a.1 < b.1)) {i t : Nat} {ids : List Nat}
    (hi : ls[i]? = some (t, ids)) : lk ls t = ids :=
  lk_of_mem hs (List.mem_of_getElem? hi)

theorem Lists.findList {s : Sections} {ls : List (Nat × List Nat)} (h : Lists s ls) (nf t : Nat) :
    (∃ i, ls[i]? = some (t, lk ls t) ∧
      (RIndex.ofSections s nf ls.length).findList t = some ((lk ls t).length, (groupsBytes (ls.take i)).length)) ∨
    (lk ls t = [] ∧ (RIndex.ofSections s nf ls.length).findList t = some (0, 0)) := by
  have hlen := h.len
  have hs := h.size
  have hm : IW.magic.length = 16 := rfl
  have e0 : Sections.o0 = 16 := rfl
  have e1 : s.o1 = Sections.o0 + s.paths.length := rfl
  have e2 : s.o2 = s.o1 + s.names.length := rfl
  have e3 : s.o3 = s.o2 + s.lists.length := rfl
  have e4 : s.o4 = s.o3 + s.nameIndex.length := rfl
  have hpl := plainEntries_length ls 0
  unfold RIndex.findList
  rw [RIndex.slice_at (d := s.bytes) (ix := RIndex.ofSections s nf ls.length)
    (off := (RIndex.ofSections s nf ls.length).postIndex)
    (n := postEntrySize * (RIndex.ofSections s nf ls.length).numPost) rfl
    (a := IW.magic ++ s.paths ++ s.names ++ s.lists ++ s.nameIndex) (b := s.postIndex)
    (c := (putUint32 Sections.o0 ++ putUint32 s.o1 ++ putUint32 s.o2 ++ putUint32 s.o3 ++ putUint32 s.o4) ++ IW.trailerMagic)
    (by unfold Sections.bytes; simp only [List.append_assoc])
    (by show s.o4 = _; simp only [List.length_append, hm]; omega)
    (by show 11 * ls.length = _; rw [h.post, hpl])]
  simp only
  rw [h.post]
  have entry : ∀ m, (hm : m < ls.length) → ∃ rest, (plainEntries 0 ls).drop (m * 11) =
      indexEntry ls[m].1 ls[m].2.length (groupsBytes (ls.take m)).length ++ rest := fun m hm =>
    plainEntries_at (by rw [List.getElem?_eq_getElem hm])
  have entry' : ∀ m, (hm : m < ls.length) → ∃ rest, (plainEntries 0 ls).drop (m * 11) =
      indexEntry ls[m].1 ls[m].2.length (groupsBytes (ls.take m)).length ++ rest ∧
      getTrigram ((plainEntries 0 ls).drop (m * 11)) = some ls[m].1 ∧
      getUint32 (((plainEntries 0 ls).drop (m * 11)).drop 3) = some ls[m].2.length ∧
      getUint32 (((plainEntries 0 ls).drop (m * 11)).drop 7) = some (groupsBytes (ls.take m)).length := by
    intro m hm
    obtain ⟨rest, hr⟩ := entry m hm
    have htk := RIndex.groupsBytes_take_le (gs := ls) m
    have := h.ok.few ls[m] (List.getElem_mem hm)
    obtain ⟨g1, g2, g3⟩ := indexEntry_get (h.ok.tri _ (List.getElem_mem hm)) (n := ls[m].2.length) (by omega)
      (o := (groupsBytes (ls.take m)).length) (by omega) rest
    refine ⟨rest, hr, ?_, ?_, ?_⟩
    · rw [hr]; exact g1
    · rw [hr]; exact g2
    · rw [hr]; exact g3
  have hf : ∀ m < ls.length, (getTrigram ((plainEntries 0 ls).drop (m * postEntrySize))).map
      (fun x => decide (x ≥ t)) = some (decide ((ls[m]?.map (·.1)).getD 0 ≥ t)) := by
    intro m hm
    obtain ⟨rest, _, g1, _, _⟩ := entry' m hm
    show (getTrigram ((plainEntries 0 ls).drop (m * 11))).map _ = _
    rw [g1, List.getElem?_eq_getElem hm]
    rfl
  obtain ⟨k, s1, s2, s3, s4⟩ := RIndex.search_spec (p := fun m => decide ((ls[m]?.map (·.1)).getD 0 ≥ t)) hf (by
    intro a b hab hb ha
    simp only [decide_eq_true_eq] at ha ⊢
    rcases Nat.lt_or_eq_of_le hab with hlt | rfl
    · have := List.pairwise_iff_getElem.1 h.ok.sorted a b (by omega) hb hlt
      rw [List.getElem?_eq_getElem hb]
      rw [List.getElem?_eq_getElem (show a < ls.length by omega)] at ha
      simp only [Option.map_some, Option.getD_some] at ha ⊢
      omega
    · exact ha)
  have s1' : RIndex.search (RIndex.ofSections s nf ls.length).numPost (fun i =>
      (getTrigram ((plainEntries 0 ls).drop (i * postEntrySize))).map (fun x => decide (x ≥ t))) = some k := s1
  rw [s1']
  simp only
  have habs : (∀ hk : k < ls.length, ls[k].1 ≠ t) → ∀ g ∈ ls, g.1 ≠ t := by
    intro hk g hg heq
    obtain ⟨m, hm, hgm⟩ := List.getElem_of_mem hg
    have hmk : k ≤ m := by
      rcases Nat.lt_or_ge m k with hlt | hge
      · have := s3 m hlt
        rw [List.getElem?_eq_getElem hm] at this
        simp only [decide_eq_false_iff_not, Option.map_some, Option.getD_some, hgm] at this
        omega
      · exact hge
    have hkl : k < ls.length := by omega
    have h2 := s4 k (Nat.le_refl _) hkl
    rw [List.getElem?_eq_getElem hkl] at h2
    simp only [decide_eq_true_eq, Option.map_some, Option.getD_some] at h2
    rcases Nat.lt_or_eq_of_le hmk with hlt | rfl
    · have h1 := List.pairwise_iff_getElem.1 h.ok.sorted k m hkl hm hlt
      rw [hgm] at h1
      omega
    · exact hk hkl (by rw [hgm]; exact heq)
  by_cases hk : k ≥ ls.length
  · rw [if_pos (show k ≥ (RIndex.ofSections s nf ls.length).numPost from hk)]
    exact Or.inr ⟨lk_none (habs (fun hk' => by omega)), rfl⟩
  · rw [if_neg (show ¬ k ≥ (RIndex.ofSections s nf ls.length).numPost from hk)]
    have hkl : k < ls.length := by omega
    obtain ⟨rest, _, g1, g2, g3⟩ := entry' k hkl
    have g1' : getTrigram ((plainEntries 0 ls).drop (k * postEntrySize)) = some ls[k].1 := g1
    have g2' : getUint32 (((plainEntries 0 ls).drop (k * postEntrySize)).drop 3) = some ls[k].2.length := g2
    have g3' : getUint32 (((plainEntries 0 ls).drop (k * postEntrySize)).drop 7) =
      some (groupsBytes (ls.take k)).length := g3
    rw [g1']
    simp only
    by_cases hne : ls[k].1 ≠ t
    · rw [if_pos hne]
      exact Or.inr ⟨lk_none (habs (fun _ => hne)), rfl⟩
    · rw [if_neg hne, g2', g3']
      rw [Classical.not_not] at hne
      left
      have hget : ls[k]? = some (t, ls[k].2) := by rw [List.getElem?_eq_getElem hkl, ← hne]
      have hlk := lk_of_getElem h.ok.sorted hget
      refine ⟨k, by rw [hlk]; exact hget, by rw [hlk]⟩

theorem Lists.postIds {s : Sections} {ls : List (Nat × List Nat)} (h : Lists s ls) (nf t : Nat)
    {restrict : Option (List Nat)} (hr : RIndex.RestrictOk restrict) :
    (RIndex.ofSections s nf ls.length).postIds t restrict =
      some ((lk ls t).filter (fun i => decide (RIndex.Within restrict i))) := by
  unfold RIndex.postIds
  rcases h.findList nf t with ⟨i, g1, g2⟩ | ⟨g1, g2⟩
  · rw [g2]
    simp only
    by_cases hnil : lk ls t = []
    · rw [hnil]
      simp
    · rw [if_neg (by simpa using hnil)]
      obtain ⟨junk, hj⟩ := h.slice (nf := nf) g1
      rw [hj]
      simp only
      obtain ⟨m1, m2⟩ := h.ok.ids _ (List.mem_of_getElem? g1)
      rw [RIndex.readPosts_spec _ _ _ _ m1 m2 (Or.inl rfl) hr]
  · rw [g2, g1]
    simp

/-- `Name` gives back the names, whatever comes after them. -/
theorem name_at' {s : Sections} {nf np : Nat} (h : s.bytes.length < 2 ^ 32) {ns : List Bytes} {n : Bytes}
    {ms : List Bytes} {tail tail' : Bytes} (h1 : s.names = namesData (ns ++ n :: ms) ++ tail)
    (h2 : s.nameIndex = (nameOffs 0 (ns ++ n :: ms)).flatMap putUint32 ++ tail') (hn : (0 : UInt8) ∉ n) :
    (RIndex.ofSections s nf np).name ns.length = some n := by
  have hl := s.length_bytes
  have hm : IW.magic.length = 16 := rfl
  have e0 : Sections.o0 = 16 := rfl
  have e1 : s.o1 = Sections.o0 + s.paths.length := rfl
  have e2 : s.o2 = s.o1 + s.names.length := rfl
  have e3 : s.o3 = s.o2 + s.lists.length := rfl
  have e4 : s.o4 = s.o3 + s.nameIndex.length := rfl
  have e5 : s.o5 = s.o4 + s.postIndex.length := rfl
  have hnl : s.names.length = (namesData ns).length + (namesData (n :: ms)).length + tail.length := by
    rw [h1, RIndex.namesData_append, List.length_append, List.length_append]
  have hil : s.nameIndex.length = 4 * ns.length + 4 * (ms.length + 1) + tail'.length := by
    rw [h2, List.length_append, flatMap_putUint32_length, nameOffs_length, List.length_append, List.length_cons]; omega
  rw [RIndex.nameOffs_append, List.flatMap_append, nameOffs, List.flatMap_cons, Nat.zero_add] at h2
  unfold RIndex.name
  rw [RIndex.uint32_at (a := IW.magic ++ s.paths ++ s.names ++ s.lists ++ (nameOffs 0 ns).flatMap putUint32)
    (x := (namesData ns).length)
    (c := (nameOffs ((namesData ns).length + (n.length + 1)) ms).flatMap putUint32 ++ tail' ++ s.postIndex ++
      (putUint32 Sections.o0 ++ putUint32 s.o1 ++ putUint32 s.o2 ++ putUint32 s.o3 ++ putUint32 s.o4) ++ IW.trailerMagic)]
  · simp only
    refine RIndex.str_at (a := IW.magic ++ s.paths ++ namesData ns)
      (rest := namesData ms ++ tail ++ s.lists ++ s.nameIndex ++ s.postIndex ++
      (putUint32 Sections.o0 ++ putUint32 s.o1 ++ putUint32 s.o2 ++ putUint32 s.o3 ++ putUint32 s.o4) ++ IW.trailerMagic) ?_ ?_ hn
    · show s.bytes = _
      unfold Sections.bytes
      rw [h1, RIndex.namesData_append]
      simp [namesData]
    · show (s.o1 + (namesData ns).length) % 2 ^ 32 = _
      rw [List.length_append, List.length_append, hm]
      omega
  · show s.bytes = _
    unfold Sections.bytes
    rw [h2]
    simp only [List.append_assoc]
  · show (s.o3 + 4 * ns.length) % 2 ^ 32 = _
    simp only [List.length_append, hm, flatMap_putUint32_length, nameOffs_length]
    omega
  · omega

/-! ## Files holding given paths and documents -/

/-- The entry of the trigram index writers end with. -/
def endOf (ended : Bool) : List (Nat × List Nat) := if ended then [(2 ^ 24 - 1, [])] else []

/-- The file holds the paths and the documents. -/
structure Layout (data : Bytes) (paths : List Bytes) (docs : List Doc) : Prop where
  ex : ∃ (s : Sections) (ended : Bool) (tail : Bytes) (last : Nat), data = s.bytes ∧ s.bytes.length < 2 ^ 32 ∧
    s.paths = paths.flatMap (fun p => p ++ [0]) ++ [0] ∧ s.names = namesData (docs.map (·.1)) ++ tail ∧
    s.nameIndex = (nameOffs 0 (docs.map (·.1))).flatMap putUint32 ++ putUint32 last ∧
    s.lists = groupsBytes (groupsOf docs ++ endOf ended) ∧ s.postIndex = plainEntries 0 (groupsOf docs ++ endOf ended)
  paths : ∀ p ∈ paths, p ≠ [] ∧ (0 : UInt8) ∉ p
  names : ∀ f ∈ docs, (0 : UInt8) ∉ f.1
  tri : ∀ f ∈ docs, ∀ t ∈ trigramsOf f.2, t < 2 ^ 24 - 1
  few : docs.length < 2 ^ 30

theorem lsOk_groups {docs : List Doc} (hn : docs.length < 2 ^ 30) (ended : Bool) : LsOk (groupsOf docs ++ endOf ended) := by
  have hok := groupsOk (files := docs) (by omega)
  have hend : ∀ g ∈ endOf ended, g = (2 ^ 24 - 1, []) := by
    intro g hg
    unfold endOf at hg
    split at hg
    · simpa using hg
    · simp at hg
  refine ⟨?_, ?_, ?_, ?_⟩
  · rw [List.pairwise_append]
    refine ⟨hok.sorted, ?_, fun a ha b hb => ?_⟩
    · unfold endOf; split <;> simp
    · rw [hend b hb]
      exact hok.tri a ha
  · intro g hg
    rcases List.mem_append.1 hg with hg | hg
    · have := hok.tri g hg; omega
    · rw [hend g hg]; decide
  · intro g hg
    rcases List.mem_append.1 hg with hg | hg
    · obtain ⟨_, m2, _⟩ := mem_groupsOf.1 hg
      rw [m2]
      refine ⟨idsOf_sorted, fun i hi => ?_⟩
      rw [mem_idsOf] at hi
      obtain ⟨f, hf, _⟩ := hi
      have := (List.getElem?_eq_some_iff.1 hf).1
      omega
    · rw [hend g hg]; simp
  · intro g hg
    rcases List.mem_append.1 hg with hg | hg
    · obtain ⟨_, m2, _⟩ := mem_groupsOf.1 hg
      rw [m2]
      have := length_idsOf (files := docs) (t := g.1)
      omega
    · rw [hend g hg]; simp

theorem lk_groups {docs : List Doc} (hn : docs.length < 2 ^ 30) (ht : ∀ f ∈ docs, ∀ t ∈ trigramsOf f.2, t < 2 ^ 24 - 1)
    (ended : Bool) (t : Nat) : lk (groupsOf docs ++ endOf ended) t = idsOf docs t := by
  have hok := lsOk_groups hn ended
  by_cases hex : idsOf docs t = []
  · rw [hex]
    by_cases hend : ∃ g ∈ groupsOf docs ++ endOf ended, g.1 = t
    · obtain ⟨⟨t', ids⟩, hg, rfl⟩ := hend
      rw [lk_of_mem hok.sorted hg]
      rcases List.mem_append.1 hg with hg | hg
      · have := (mem_groupsOf.1 hg).2.1
        simp only at this hex
        rw [this, hex]
      · unfold endOf at hg
        split at hg
        · simp at hg; exact hg.2
        · simp at hg
    · exact lk_none (fun g hg h => hend ⟨g, hg, h⟩)
  · refine lk_of_mem hok.sorted (List.mem_append.2 (Or.inl (mem_groupsOf.2 ⟨?_, rfl, hex⟩)))
    obtain ⟨i, hi⟩ := List.exists_mem_of_ne_nil _ hex
    rw [mem_idsOf] at hi
    obtain ⟨f, hf, hft⟩ := hi
    exact ht f (List.mem_of_getElem? hf) t hft

/-- An opened index holds the paths and the documents. -/
structure Holds (ix : RIndex) (paths : List Bytes) (docs : List Doc) : Prop where
  numName : ix.numName = docs.length
  name : ∀ i f, docs[i]? = some f → ix.name i = some f.1
  paths : ix.paths = some paths
  posts : ∀ t restrict, RIndex.RestrictOk restrict →
    ix.postIds t restrict = some ((idsOf docs t).filter (fun i => decide (RIndex.Within restrict i)))

theorem Holds.knows {ix : RIndex} {paths : List Bytes} {docs : List Doc} (h : Holds ix paths docs) :
    RIndex.Knows ix docs where
  numName := h.numName
  posts := fun t restrict _ hr => ⟨(idsOf docs t).filter (fun i => decide (RIndex.Within restrict i)),
    h.posts t restrict hr, idsOf_sorted.filter _, fun i => by rw [List.mem_filter, decide_eq_true_eq, and_comm]⟩

theorem Layout.open_ {data : Bytes} {paths : List Bytes} {docs : List Doc} (h : Layout data paths docs) :
    ∃ ix ended, RIndex.open data = some ix ∧ Holds ix paths docs ∧ NView ix docs ∧
      View ix (groupsOf docs ++ endOf ended) := by
  obtain ⟨s, ended, tail, last, e1, e2, e3, e4, e5, e6, e7⟩ := h.ex
  have hL : Lists s (groupsOf docs ++ endOf ended) := ⟨e2, e6, e7, lsOk_groups h.few ended⟩
  have ho : RIndex.open data =
      some (RIndex.ofSections s docs.length (groupsOf docs ++ endOf ended).length) := by
    rw [e1]
    refine RIndex.open_bytes e2 ?_ ?_
    · rw [e5, List.length_append, flatMap_putUint32_length, nameOffs_length, List.length_map, putUint32_length]
      omega
    · rw [e7, plainEntries_length]
  have hname : ∀ i f, docs[i]? = some f →
      (RIndex.ofSections s docs.length (groupsOf docs ++ endOf ended).length).name i = some f.1 := by
    intro i f hf
    obtain ⟨hlt, hg⟩ := List.getElem?_eq_some_iff.1 hf
    have hsplit : docs.map (·.1) = (docs.take i).map (·.1) ++ f.1 :: (docs.drop (i + 1)).map (·.1) := by
      conv => lhs; rw [← List.take_append_drop i docs]
      rw [List.map_append, List.drop_eq_getElem_cons hlt, List.map_cons, hg]
    rw [hsplit] at e4 e5
    have := name_at' (nf := docs.length) (np := (groupsOf docs ++ endOf ended).length) e2 e4 e5
      (h.names f (List.mem_of_getElem? hf))
    rwa [List.length_map, List.length_take, Nat.min_eq_left (by omega)] at this
  refine ⟨_, ended, ho, ⟨rfl, hname, RIndex.paths_at e2 e3 h.paths, ?_⟩, ⟨?_, hname⟩, hL.view _⟩
  · intro t restrict hr
    rw [hL.postIds _ t hr, lk_groups h.few h.tri]
  · show (((docs.length : Nat) : Int) % 2 ^ 32).toNat = docs.length
    have := h.few
    omega

theorem indexEntries_plain : ∀ (gs : List (Nat × List Nat)) (o : Nat),
    indexEntries o gs = plainEntries o (gs ++ [(2 ^ 24 - 1, [])])
  | [], o => by simp [indexEntries, plainEntries]
  | g :: gs, o => by rw [indexEntries, List.cons_append, plainEntries, indexEntries_plain gs]

theorem endBytes_group : endBytes = groupBytes (2 ^ 24 - 1, []) := by
  unfold endBytes groupBytes
  simp [deltas]

/-- What the index writer writes. -/
theorem layout_build {cfg : IWConfig} (hc : 0 < cfg.npost) {paths : List Bytes} {files : List (Bytes × Reader)}
    {answers : List (Option SkipReason)} {data : Bytes} (h : buildIndex cfg paths files = some (answers, data))
    (hp : ∀ p ∈ paths, p ≠ [] ∧ (0 : UInt8) ∉ p) : Layout data paths (indexedFiles files answers) := by
  obtain ⟨h1, h2, h3, h4, h5⟩ := buildIndex_some hc h
  subst h4 h5
  rw [indexedFiles_eq]
  refine ⟨⟨sectionsOf paths (indexedOf files), true, [0], (namesData ((indexedOf files).map (·.1))).length, rfl, h3, rfl,
    ?_, ?_, ?_, ?_⟩, hp, addsOk_names h1, indexedOf_tri, by omega⟩
  · simp only [sectionsOf]
    rw [RIndex.namesData_append]
    rfl
  · simp only [sectionsOf]
    rw [RIndex.nameOffs_append, List.flatMap_append]
    simp [nameOffs]
  · simp only [sectionsOf]
    rw [groupsBytes_append]
    simp [endOf, groupsBytes, endBytes_group]
  · simp only [sectionsOf]
    rw [indexEntries_plain]
    rfl

end Merge
end Hound
