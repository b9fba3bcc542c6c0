import Verif.Proofs.MergeRead

namespace Hound
namespace Merge
open Spec

/-- The file `Merge` writes. -/
def mergedSections (paths : List Bytes) (docs : List Doc) : Sections where
  paths := paths.flatMap (fun p => p ++ [0]) ++ [0]
  names := namesData (docs.map (·.1))
  lists := groupsBytes (groupsOf docs)
  nameIndex := (nameOffs 0 (docs.map (·.1))).flatMap putUint32 ++
    putUint32 (IW.magic.length + (paths.flatMap (fun p => p ++ [0]) ++ [0]).length + (namesData (docs.map (·.1))).length)
  postIndex := plainEntries 0 (groupsOf docs)

theorem mem_weave {f : Doc} : ∀ {paths : List Bytes} {docs1 docs2 : List Doc}, f ∈ weave docs1 docs2 paths →
    f ∈ docs1 ∨ f ∈ docs2
  | [], _, _, h => Or.inl h
  | p :: ps, docs1, docs2, h => by
    rw [weave, List.mem_append, List.mem_append] at h
    rcases h with h | h | h
    · exact Or.inl ((List.takeWhile_sublist _).mem h)
    · exact Or.inr ((List.takeWhile_sublist _).mem h)
    · rcases mem_weave h with h | h
      · exact Or.inl ((List.dropWhile_sublist _).mem ((List.dropWhile_sublist _).mem h))
      · exact Or.inr ((List.dropWhile_sublist _).mem h)

theorem mem_keepPaths {p : Bytes} : ∀ {ps : List Bytes} {last : Bytes}, p ∈ keepPaths last ps → p ∈ ps
  | [], _, h => by simp [keepPaths] at h
  | q :: ps, last, h => by
    rw [keepPaths] at h
    split at h
    · exact List.mem_cons_of_mem _ (mem_keepPaths h)
    · rcases List.mem_cons.1 h with rfl | h
      · simp
      · exact List.mem_cons_of_mem _ (mem_keepPaths h)

theorem mem_allPaths {p : Bytes} {ps qs : List Bytes} : p ∈ allPaths ps qs ↔ p ∈ ps ∨ p ∈ qs := by
  unfold allPaths
  exact List.mem_merge

theorem sides_length : ∀ plan : Plan, plan.length = (side false plan).length + (side true plan).length
  | [] => rfl
  | (b, r) :: plan => by
    have := sides_length plan
    rw [side_cons, side_cons, List.length_cons]
    cases b <;> simp <;> omega

theorem merge_spec {cap : Nat} {data1 data2 : Bytes} {paths1 paths2 : List Bytes} {docs1 docs2 : List Doc}
    (h1 : Layout data1 paths1 docs1) (h2 : Layout data2 paths2 docs2) (hf : Fits docs2 paths2)
    (hs : (mergedSections (keepPaths [0] (allPaths paths1 paths2)) (weave docs1 docs2 paths2)).bytes.length < 2 ^ 32) :
    merge cap data1 data2 =
      some (mergedSections (keepPaths [0] (allPaths paths1 paths2)) (weave docs1 docs2 paths2)).bytes ∧
    Layout (mergedSections (keepPaths [0] (allPaths paths1 paths2)) (weave docs1 docs2 paths2)).bytes
      (keepPaths [0] (allPaths paths1 paths2)) (weave docs1 docs2 paths2) := by
  obtain ⟨ix1, en1, o1, a1, n1, v1⟩ := h1.open_
  obtain ⟨ix2, en2, o2, a2, n2, v2⟩ := h2.open_
  have few1 := h1.few
  have few2 := h2.few
  generalize hix : (fun b : Bool => if b = true then ix2 else ix1) = ix
  generalize hdd : (fun b : Bool => if b = true then docs2 else docs1) = docs
  have ix_f : ix false = ix1 := by rw [← hix]; rfl
  have ix_t : ix true = ix2 := by rw [← hix]; rfl
  have d_f : docs false = docs1 := by rw [← hdd]; rfl
  have d_t : docs true = docs2 := by rw [← hdd]; rfl
  have hn : ∀ b, NView (ix b) (docs b) := by
    intro b
    cases b
    · rw [ix_f, d_f]; exact n1
    · rw [ix_t, d_t]; exact n2
  obtain ⟨plan, m1, m2, m3, m4⟩ := docMaps_spec hn (paths := paths2) (fun p hp => (h2.paths p hp).1)
    (by rw [d_f, d_t]; omega) (by rw [d_t]; exact hf)
  rw [ix_f, ix_t] at m1
  rw [d_f, d_t] at m3
  generalize hD : weave docs1 docs2 paths2 = docs3 at *
  generalize hP : keepPaths [0] (allPaths paths1 paths2) = paths3 at *
  have htri : ∀ f ∈ docs3, ∀ t ∈ trigramsOf f.2, t < 2 ^ 24 - 1 := by
    intro f hf'
    rw [← hD] at hf'
    rcases mem_weave hf' with hx | hx
    · exact h1.tri f hx
    · exact h2.tri f hx
  have hnm : ∀ f ∈ docs3, (0 : UInt8) ∉ f.1 := by
    intro f hf'
    rw [← hD] at hf'
    rcases mem_weave hf' with hx | hx
    · exact h1.names f hx
    · exact h2.names f hx
  have hpp : ∀ p ∈ paths3, p ≠ [] ∧ (0 : UInt8) ∉ p := by
    intro p hp
    rw [← hP] at hp
    rcases mem_allPaths.1 (mem_keepPaths hp) with hx | hx
    · exact h1.paths p hx
    · exact h2.paths p hx
  -- sizes
  generalize hS : mergedSections paths3 docs3 = s at *
  have hlb := s.length_bytes
  have e0 : Sections.o0 = 16 := rfl
  have hmag : IW.magic.length = 16 := rfl
  have e1 : s.o1 = Sections.o0 + s.paths.length := rfl
  have e2 : s.o2 = s.o1 + s.names.length := rfl
  have e3 : s.o3 = s.o2 + s.lists.length := rfl
  have e4 : s.o4 = s.o3 + s.nameIndex.length := rfl
  have e5 : s.o5 = s.o4 + s.postIndex.length := rfl
  have sP : s.paths = paths3.flatMap (fun p => p ++ [0]) ++ [0] := by rw [← hS]; rfl
  have sN : s.names = namesData (docs3.map (·.1)) := by rw [← hS]; rfl
  have sL : s.lists = groupsBytes (groupsOf docs3) := by rw [← hS]; simp only [mergedSections]
  have sX : s.postIndex = plainEntries 0 (groupsOf docs3) := by rw [← hS]; simp only [mergedSections]
  have sI : s.nameIndex = (nameOffs 0 (docs3.map (·.1))).flatMap putUint32 ++ putUint32 s.o2 := by
    rw [e2, e1, sP, sN, ← hS]; rfl
  have hni : s.nameIndex.length = 4 * docs3.length + 4 := by
    rw [sI, List.length_append, flatMap_putUint32_length, nameOffs_length, List.length_map, putUint32_length]
  have htot : total plan = docs3.length := by rw [← m3, m2.length]
  constructor
  · -- the posting lists
    have hjoin : join (side false plan) (side true plan) (groupsOf docs1 ++ endOf en1) (groupsOf docs2 ++ endOf en2) =
        groupsOf docs3 := by
      refine join_eq (lsOk_groups few1 en1).sorted (lsOk_groups few2 en2).sorted (fun t => lk_groups few1 h1.tri en1 t)
        (fun t => lk_groups few2 h2.tri en2 t) htri (fun i j a b => m2.mono false i j a b)
        (fun i j a b => m2.mono true i j a b) ?_ (fun i j k => m2.apart false true i j k (by decide))
      intro k f
      rw [← m3, m2.docs k f]
      simp only [Nat.zero_add]
      constructor
      · rintro ⟨b, i, x1, x2⟩
        cases b
        · exact Or.inl ⟨i, x1, by rw [d_f] at x2; exact x2⟩
        · exact Or.inr ⟨i, x1, by rw [d_t] at x2; exact x2⟩
      · rintro (⟨i, x1, x2⟩ | ⟨i, x1, x2⟩)
        · exact ⟨false, i, x1, by rw [d_f]; exact x2⟩
        · exact ⟨true, i, x1, by rw [d_t]; exact x2⟩
    have hmap := fun b => m2.mapOk (by omega) b
    have hboth : Both ix1 ix2 (side false plan) (side true plan) (groupsOf docs1 ++ endOf en1)
        (groupsOf docs2 ++ endOf en2) :=
      ⟨v1, v2, hmap false, hmap true, (lsOk_groups few1 en1).few, (lsOk_groups few2 en2).few,
        fun i j k => m2.apart false true i j k (by decide)⟩
    obtain ⟨r1, hr1, b1⟩ := init_spec v1 (hmap false)
    obtain ⟨r2, hr2, b2⟩ := init_spec v2 (hmap true)
    -- the parts written before
    have c0 : ((BufWriter.create cap).write IW.magic).contents = IW.magic := by simp [BufWriter.contents_create]
    have c1 : ((IW.writePaths ((BufWriter.create cap).write IW.magic) paths3).write [0]).contents = IW.magic ++ s.paths := by
      rw [BufWriter.contents_write, contents_writePaths, c0, sP, List.append_assoc]
    have l1 : ((IW.writePaths ((BufWriter.create cap).write IW.magic) paths3).write [0]).contents.length = s.o1 := by
      rw [c1, List.length_append, e1, hmag, e0]
    have hlen : plan.length = (side false plan).length + (side true plan).length := sides_length plan
    obtain ⟨out, nif, q1, q2, q3⟩ := nameLoop_spec hn (nameData := s.o1) (fuel := (side false plan).length + (side true plan).length + 1)
      (out := (IW.writePaths ((BufWriter.create cap).write IW.magic) paths3).write [0]) (nif := BufWriter.create cap)
      m2 (by omega) (by omega) (by omega) (by rw [l1, m3, ← sN]; omega)
    rw [ix_f, ix_t, Nat.zero_add] at q1
    rw [m3, ← sN, c1] at q2
    rw [m3, l1, Nat.sub_self, BufWriter.contents_create, List.nil_append] at q3
    have l2 : out.contents.length = s.o2 := by
      rw [q2, List.length_append, List.length_append, e2, e1, hmag, e0]
    have lni : nif.contents.length = 4 * docs3.length := by
      rw [q3, flatMap_putUint32_length, nameOffs_length, List.length_map]
    have hw : Wrote { out, postIndexFile := BufWriter.create cap, base := s.o2 } out.contents [] :=
      ⟨l2.symm, by simp [groupsBytes], by simp [plainEntries, BufWriter.contents_create]⟩
    obtain ⟨w, p1, p2⟩ := postLoop_spec hboth (pre := out.contents) _ _ _ r1 r2 _ [] (ix1.numPost + ix2.numPost + 1)
      (Nat.le_refl _) (by rw [v1.num, v2.num]; omega) b1 b2 hw
      (by rw [List.nil_append, hjoin, List.length_append, l2, ← sL]; omega)
    rw [List.nil_append, hjoin] at p2
    have l3 : w.out.contents.length = s.o3 := by
      rw [p2.out, List.length_append, l2, ← sL, e3]
    have c4 : (w.out.copyFile (nif.writeUint32 s.o2)).contents = out.contents ++ s.lists ++ s.nameIndex := by
      rw [BufWriter.contents_copyFile, p2.out, BufWriter.contents_writeUint32, q3, ← sL, sI]
    have l4 : (w.out.copyFile (nif.writeUint32 s.o2)).contents.length = s.o4 := by
      rw [c4, List.length_append, List.length_append, l2, ← e3, ← e4]
    unfold merge
    simp only [Option.bind_eq_bind]
    rw [o1]
    simp only [Option.bind_some]
    rw [o2]
    simp only [Option.bind_some]
    rw [a1.paths]
    simp only [Option.bind_some]
    rw [a2.paths]
    simp only [Option.bind_some]
    rw [m1]
    simp only [Option.bind_some]
    rw [offset_some (by rw [c0]; omega), c0]
    simp only [Option.bind_some]
    rw [hP, offset_some (by rw [l1]; omega), l1]
    simp only [Option.bind_some]
    rw [q1]
    simp only [Option.bind_some]
    rw [offset_some (by rw [lni]; omega), lni]
    simp only [Option.bind_some]
    rw [if_neg (by rw [htot]; omega), offset_some (by rw [l2]; omega), l2]
    simp only [Option.bind_some]
    rw [hr1]
    simp only [Option.bind_some]
    rw [hr2]
    simp only [Option.bind_some]
    have hinit : PostWriter.init cap out = some { out, postIndexFile := BufWriter.create cap, base := s.o2 } := by
      unfold PostWriter.init
      rw [offset_some (by rw [l2]; omega), l2]
      rfl
    rw [hinit]
    simp only [Option.bind_some]
    rw [p1]
    simp only [Option.bind_some]
    rw [offset_some (by rw [l3]; omega), l3]
    simp only [Option.bind_some]
    rw [offset_some (by rw [l4]; omega), l4]
    simp only [Option.bind_some]
    have hfin : ∀ b : BufWriter, b.contents = s.bytes → (pure b.flush.file : Option Bytes) = some s.bytes := by
      intro b hb
      rw [show b.flush.file = b.contents from BufWriter.finish_eq, hb]
      rfl
    refine hfin _ ?_
    simp only [BufWriter.contents_write, BufWriter.contents_writeUint32, BufWriter.contents_copyFile (src := w.postIndexFile),
      c4, p2.pix, q2, ← sX]
    unfold Sections.bytes
    simp only [List.append_assoc]
    rfl
  · refine ⟨⟨s, false, [], s.o2, rfl, hs, sP, by rw [sN, List.append_nil], sI, ?_, ?_⟩, hpp, hnm, htri, by omega⟩
    · rw [sL]; simp [endOf]
    · rw [sX]; simp [endOf]

end Merge
end Hound
