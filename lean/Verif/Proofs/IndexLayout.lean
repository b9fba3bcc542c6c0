import Verif.Proofs.MergePost

namespace Hound
open Spec

/-! ## The index file -/

/-- The sections of an index file. -/
structure Sections where
  paths : Bytes
  names : Bytes
  lists : Bytes
  nameIndex : Bytes
  postIndex : Bytes

namespace Sections

def o0 : Nat := IW.magic.length
def o1 (s : Sections) : Nat := o0 + s.paths.length
def o2 (s : Sections) : Nat := s.o1 + s.names.length
def o3 (s : Sections) : Nat := s.o2 + s.lists.length
def o4 (s : Sections) : Nat := s.o3 + s.nameIndex.length
def o5 (s : Sections) : Nat := s.o4 + s.postIndex.length

def bytes (s : Sections) : Bytes :=
  IW.magic ++ s.paths ++ s.names ++ s.lists ++ s.nameIndex ++ s.postIndex ++
    (putUint32 o0 ++ putUint32 s.o1 ++ putUint32 s.o2 ++ putUint32 s.o3 ++ putUint32 s.o4) ++ IW.trailerMagic

theorem length_bytes (s : Sections) : s.bytes.length = s.o5 + 36 := by
  simp only [bytes, List.length_append, putUint32_length, o5, o4, o3, o2, o1, o0]
  rfl

end Sections

/-- The sections for given paths and indexed files. -/
def sectionsOf (paths : List Bytes) (files : List (Bytes × Bytes)) : Sections where
  paths := paths.flatMap (fun p => p ++ [0]) ++ [0]
  names := namesData (files.map (·.1) ++ [[]])
  lists := groupsBytes (groupsOf files) ++ endBytes
  nameIndex := (nameOffs 0 (files.map (·.1) ++ [[]])).flatMap putUint32
  postIndex := indexEntries 0 (groupsOf files)

theorem contents_writePaths {out : BufWriter} (ps : List Bytes) :
    (IW.writePaths out ps).contents = out.contents ++ ps.flatMap (fun p => p ++ [0]) := by
  induction ps generalizing out with
  | nil => simp [IW.writePaths]
  | cons p ps ih => rw [IW.writePaths, ih]; simp

theorem nameOffs_length : ∀ {ns : List Bytes} {o : Nat}, (nameOffs o ns).length = ns.length
  | [], _ => rfl
  | _ :: ns, _ => by rw [nameOffs, List.length_cons, nameOffs_length, List.length_cons]

theorem flatMap_putUint32_length (l : List Nat) : (l.flatMap putUint32).length = 4 * l.length := by
  induction l with
  | nil => rfl
  | cons x l ih => rw [List.flatMap_cons, List.length_append, ih, putUint32_length, List.length_cons]; omega

theorem endBytes_length : endBytes.length = 4 := by
  rw [endBytes, List.length_append, putTrigram_length]
  decide

theorem offset_some {b : BufWriter} (h : b.contents.length < 2 ^ 32) : b.offset = some b.contents.length := by
  rw [BufWriter.offset_eq, if_pos h]

theorem offset_none {b : BufWriter} (h : ¬ b.contents.length < 2 ^ 32) : b.offset = none := by
  rw [BufWriter.offset_eq, if_neg h]

theorem offset_inv {b : BufWriter} {o : Nat} (h : b.offset = some o) : b.contents.length < 2 ^ 32 := by
  rw [BufWriter.offset_eq] at h
  split at h
  · assumption
  · simp at h

theorem WInv.flushName {paths files ix} (h : WInv paths files ix) :
    ix.addName [] = if 2 ^ 32 ≤ (namesData (files.map (·.1))).length then none
      else some (ix.numName % 2 ^ 32, { ix with
        nameIndex := ix.nameIndex.writeUint32 (namesData (files.map (·.1))).length
        nameData := (ix.nameData.write []).writeByte 0
        numName := ix.numName + 1 }) := by
  rw [addName_spec, h.nameData]
  simp

/-- `mergePost` only looks at the posting buffers and the (empty) posting index. -/
theorem mergePost_congr {a b : IW} (h1 : a.postFile = b.postFile) (h2 : a.post = b.post)
    (h3 : a.postIndex = b.postIndex) (out : BufWriter) : a.mergePost out = b.mergePost out := by
  unfold IW.mergePost IW.mergeHeap
  rw [h1, h2, h3]

/-- A writer whose `Flush` succeeds has fewer than 2^30 files. -/
theorem flush_files {paths files ix data} (h : WInv paths files ix) (hf : ix.flush = some data) :
    files.length + 1 < 2 ^ 30 := by
  unfold IW.flush at hf
  rw [h.flushName] at hf
  split at hf
  · simp at hf
  simp only [Option.bind_eq_bind, Option.bind_some, Option.bind_eq_some_iff] at hf
  obtain ⟨_, _, _, _, _, _, ⟨m, pix⟩, _, _, _, off4, ho4, _⟩ := hf
  have h4 := offset_inv ho4
  simp only [BufWriter.contents_copyFile, BufWriter.contents_writeUint32, h.nameIndex, List.length_append,
    flatMap_putUint32_length, nameOffs_length, List.length_map, putUint32_length] at h4
  omega

/-- **`Flush`**, complete description. -/
theorem flush_spec {paths files ix} (h : WInv paths files ix) (hn : files.length + 1 < 2 ^ 30) :
    ix.flush = if (sectionsOf paths files).bytes.length < 2 ^ 32 then some (sectionsOf paths files).bytes
      else none := by
  have hlb := Sections.length_bytes (sectionsOf paths files)
  have hN : (namesData (files.map (·.1) ++ [[]])).length = (namesData (files.map (·.1))).length + 1 := by
    simp [namesData]
  obtain ⟨k1, k2⟩ := mergePost_spec h (by omega)
    (((IW.writePaths (ix.main.write IW.magic) ix.paths).write [0]).copyFile
      ((ix.nameData.write []).writeByte 0))
  have hc0 : (ix.main.write IW.magic).contents = IW.magic := by simp [h.main]
  have hc1 : ((IW.writePaths (ix.main.write IW.magic) ix.paths).write [0]).contents =
      IW.magic ++ (sectionsOf paths files).paths := by
    rw [BufWriter.contents_write, contents_writePaths, hc0, h.paths]; simp [sectionsOf]
  have hc2 : (((IW.writePaths (ix.main.write IW.magic) ix.paths).write [0]).copyFile
      ((ix.nameData.write []).writeByte 0)).contents =
      IW.magic ++ (sectionsOf paths files).paths ++ (sectionsOf paths files).names := by
    rw [BufWriter.contents_copyFile, hc1]
    simp [sectionsOf, h.nameData, namesData]
  have hl1 : (IW.magic ++ (sectionsOf paths files).paths).length = (sectionsOf paths files).o1 := by
    simp [Sections.o1, Sections.o0]
  have hl2 : (IW.magic ++ (sectionsOf paths files).paths ++ (sectionsOf paths files).names).length =
      (sectionsOf paths files).o2 := by
    rw [List.length_append, hl1]; rfl
  have hl3 : (sectionsOf paths files).lists.length = (groupsBytes (groupsOf files)).length + 4 := by
    simp [sectionsOf, endBytes_length]
  have o1e : (sectionsOf paths files).o1 = 16 + (sectionsOf paths files).paths.length := rfl
  have o2e : (sectionsOf paths files).o2 = (sectionsOf paths files).o1 + (sectionsOf paths files).names.length := rfl
  have o3e : (sectionsOf paths files).o3 = (sectionsOf paths files).o2 + (sectionsOf paths files).lists.length := rfl
  have o4e : (sectionsOf paths files).o4 = (sectionsOf paths files).o3 + (sectionsOf paths files).nameIndex.length := rfl
  have o5e : (sectionsOf paths files).o5 = (sectionsOf paths files).o4 + (sectionsOf paths files).postIndex.length := rfl
  have hnn : (sectionsOf paths files).names.length = (namesData (files.map (·.1))).length + 1 := hN
  have hm0 : IW.magic.length = 16 := rfl
  rw [hc2, hl2] at k1 k2
  unfold IW.flush
  rw [h.flushName]
  by_cases hbig : (sectionsOf paths files).bytes.length < 2 ^ 32
  · rw [if_pos hbig, if_neg (by omega)]
    obtain ⟨out', pix', m1, m2, m3⟩ := k1 (by omega)
    have hc3 : out'.contents.length = (sectionsOf paths files).o3 := by
      rw [m2, List.length_append, List.length_append, hl2, o3e, hl3, endBytes_length, Nat.add_assoc]
    have hc4 : (out'.copyFile (ix.nameIndex.writeUint32 (namesData (files.map (·.1))).length)).contents =
        IW.magic ++ (sectionsOf paths files).paths ++ (sectionsOf paths files).names ++
        (sectionsOf paths files).lists ++ (sectionsOf paths files).nameIndex := by
      rw [BufWriter.contents_copyFile, BufWriter.contents_writeUint32, m2, h.nameIndex]
      simp [sectionsOf, nameOffs_snoc]
    have hl4 : (out'.copyFile (ix.nameIndex.writeUint32 (namesData (files.map (·.1))).length)).contents.length =
        (sectionsOf paths files).o4 := by
      rw [hc4, List.length_append, List.length_append, hl2, o4e, o3e]
    have hl4' := hl4
    rw [hc4] at hl4'
    have hcong := mergePost_congr (a := { ix with
        nameIndex := ix.nameIndex.writeUint32 (namesData (files.map (·.1))).length
        nameData := (ix.nameData.write []).writeByte 0
        numName := ix.numName + 1 }) (b := ix) rfl rfl rfl
    simp only [Option.bind_eq_bind, Option.bind_some]
    rw [offset_some (by rw [hc0]; omega)]
    simp only [Option.bind_some]
    rw [offset_some (by rw [hc1, hl1]; omega)]
    simp only [Option.bind_some]
    rw [offset_some (by rw [hc2, hl2]; omega)]
    simp only [Option.bind_some]
    rw [hcong, m1]
    simp only [Option.bind_some]
    rw [offset_some (by omega)]
    simp only [Option.bind_some]
    rw [offset_some (by rw [hl4]; omega)]
    simp only [Option.bind_some]
    have hfin : ∀ (b : BufWriter), b.contents = (sectionsOf paths files).bytes →
        (b.offset.bind fun _ => (pure b.flush.file : Option Bytes)) = some (sectionsOf paths files).bytes := by
      intro b hb
      rw [offset_some (by rw [hb]; exact hbig)]
      simp only [Option.bind_some]
      rw [show b.flush.file = b.contents from BufWriter.finish_eq, hb]
      rfl
    refine hfin _ ?_
    simp only [BufWriter.contents_write, BufWriter.contents_writeUint32, BufWriter.contents_copyFile (src := pix'),
      hc4, m3, hl4', hc3, hc0, hc1, hc2, hl1, hl2]
    rw [show indexEntries 0 (groupsOf files) = (sectionsOf paths files).postIndex from by simp only [sectionsOf]]
    unfold Sections.bytes Sections.o0
    simp only [List.append_assoc]
  · rw [if_neg hbig]
    split
    · rfl
    simp only [Option.bind_eq_bind, Option.bind_some]
    -- whatever happens before, the last size check fails
    cases hx1 : (ix.main.write IW.magic).offset with
    | none => rfl
    | some off0 =>
    simp only [Option.bind_some]
    cases hx2 : ((IW.writePaths (ix.main.write IW.magic) ix.paths).write [0]).offset with
    | none => rfl
    | some off1 =>
    simp only [Option.bind_some]
    cases hx3 : (((IW.writePaths (ix.main.write IW.magic) ix.paths).write [0]).copyFile
      ((ix.nameData.write []).writeByte 0)).offset with
    | none => rfl
    | some off2 =>
    simp only [Option.bind_some]
    rw [mergePost_congr (a := { ix with
        nameIndex := ix.nameIndex.writeUint32 (namesData (files.map (·.1))).length
        nameData := (ix.nameData.write []).writeByte 0
        numName := ix.numName + 1 }) (b := ix) rfl rfl rfl]
    by_cases hmid : (sectionsOf paths files).o2 + (groupsBytes (groupsOf files)).length < 2 ^ 32
    · obtain ⟨out', pix', m1, m2, m3⟩ := k1 hmid
      rw [m1]
      simp only [Option.bind_some]
      cases hx4 : out'.offset with
      | none => rfl
      | some off3 =>
      simp only [Option.bind_some]
      cases hx5 : (out'.copyFile (ix.nameIndex.writeUint32 (namesData (files.map (·.1))).length)).offset with
      | none => rfl
      | some off4 =>
      simp only [Option.bind_some]
      rw [offset_none]
      · rfl
      · simp only [BufWriter.contents_write, BufWriter.contents_writeUint32, BufWriter.contents_copyFile,
          m2, m3, h.nameIndex]
        simp only [List.length_append, putUint32_length]
        have e1 : (sectionsOf paths files).nameIndex.length =
            ((nameOffs 0 (files.map (·.1))).flatMap putUint32).length + 4 := by
          simp [sectionsOf, nameOffs_snoc]; rfl
        have e2 : (sectionsOf paths files).postIndex.length = (indexEntries 0 (groupsOf files)).length := by
          simp only [sectionsOf]
        have e3 := endBytes_length
        have e4 : IW.trailerMagic.length = 16 := rfl
        omega
    · rw [k2 hmid]
      rfl

end Hound
