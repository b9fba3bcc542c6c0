import Verif.Proofs.Scan
import Verif.Proofs.Ratio
import Verif.Proofs.BufWriter
import Verif.Props.Sparse
import Verif.Spec.IndexFiles

namespace Hound
open Spec

/-! ## The verdict on a file -/

/-- Whether the content `w` is indexed, and if not, why: the tests in the order the program makes them.
(The two ratio tests are discussed at `verdict_exact`.) -/
def verdict (w : Bytes) : Option SkipReason :=
  if looksUtf8 0 (w.take (2 ^ 25 + 1)) = false then some .invalidUTF8
  else if w.length > 2 ^ 25 then some .tooLong
  else if ratioAboveTenth (trigramsOf w).length w.length = true ∧ (trigramsOf w).length > 20000 then
    some .trigramRatio
  else if (endedLines w).length < 10 * (longEndedLines w).length then some .longLines
  else none

theorem pieces_length : ∀ w : Bytes, ((pieces w).map (fun l => l.length + 1)).sum = w.length + 1
  | [] => rfl
  | c :: cs => by
    have ih := pieces_length cs
    have hne := pieces_ne_nil cs
    unfold pieces
    split
    · simp [ih]; omega
    · cases h : pieces cs with
      | nil => exact absurd h hne
      | cons l ls =>
        rw [h] at ih
        simp at ih ⊢
        omega

theorem endedLines_length (w : Bytes) : ((endedLines w).map (fun l => l.length + 1)).sum ≤ w.length := by
  have h := pieces_length w
  have hne := pieces_ne_nil w
  rw [← List.dropLast_concat_getLast hne] at h
  simp only [List.map_append, List.sum_append, List.map_cons, List.map_nil, List.sum_cons, List.sum_nil] at h
  unfold endedLines
  omega

theorem longEndedLines_length (w : Bytes) : (longEndedLines w).length * 2001 ≤ w.length := by
  refine Nat.le_trans ?_ (endedLines_length w)
  unfold longEndedLines
  generalize endedLines w = L
  induction L with
  | nil => simp
  | cons l L ih =>
    simp only [List.filter_cons, List.map_cons, List.sum_cons]
    split
    · rename_i h
      rw [decide_eq_true_eq] at h
      rw [List.length_cons, Nat.add_mul, Nat.add_comm]
      exact Nat.add_le_add (by rw [Nat.one_mul]; exact h) ih
    · exact Nat.le_trans ih (Nat.le_add_left _ _)

theorem endedLines_le (w : Bytes) : (endedLines w).length ≤ w.length := by
  refine Nat.le_trans ?_ (endedLines_length w)
  generalize endedLines w = L
  induction L with
  | nil => simp
  | cons l L ih => simp only [List.map_cons, List.sum_cons, List.length_cons]; omega

theorem longTest_eq {w : Bytes} (h : w.length ≤ 2 ^ 25) :
    ratioAboveTenth (longEndedLines w).length (endedLines w).length =
      decide ((endedLines w).length < 10 * (longEndedLines w).length) := by
  have h1 := longEndedLines_length w
  have h2 := endedLines_le w
  by_cases hb : (endedLines w).length < 2 ^ 24
  · exact ratioAboveTenth_exact (by omega) hb
  · rw [ratioAboveTenth_many (by omega) (by omega)]
    symm
    rw [decide_eq_false_iff_not]
    omega

theorem scanVerdict_eq {w : Bytes} {st : Scan} (h : ScanInv w st) : IW.scanVerdict st = verdict w := by
  have hs := h.short
  have hlen : st.set.len = (trigramsOf w).length := by
    unfold SSet.len trigramsOf
    rw [h.dense, foldl_insertNew_nil]
  unfold IW.scanVerdict verdict
  rw [h.n, hlen, h.longLines, h.numLines, longTest_eq hs, List.take_of_length_le (by omega), h.utf8]
  rw [if_neg (show ¬ true = false by simp), if_neg (show ¬ w.length > 2 ^ 25 by omega)]
  by_cases h0 : w.length > 0
  · rw [if_pos h0]
    simp only [Bool.and_eq_true, decide_eq_true_eq]
  · have : w = [] := List.length_eq_zero_iff.1 (by omega)
    subst this
    rfl

/-- The loop of `Add` on a readable file. -/
theorem scanReader_ok {r : Reader} (hr : r.Ok) {s : SSet} (hs : SSet.Inv s (2 ^ 24)) :
    (∀ reason, verdict r.content = some reason →
      (∃ set, SSet.Inv set (2 ^ 24) ∧ scanReader r.fails { set := s.reset } r.chunks = .skip set reason) ∨
      (∃ st, SSet.Inv st.set (2 ^ 24) ∧ scanReader r.fails { set := s.reset } r.chunks = .go st ∧
        IW.scanVerdict st = some reason)) ∧
    (verdict r.content = none → ∃ st, SSet.Inv st.set (2 ^ 24) ∧
      scanReader r.fails { set := s.reset } r.chunks = .go st ∧ IW.scanVerdict st = none ∧
      st.set.dense = trigramsOf r.content ∧ looksUtf8 0 r.content = true) := by
  rw [hr.1, scanReader_eq _ _ hr.2]
  obtain ⟨h1, h2, h3⟩ := scanChunk_spec r.chunks.flatten [] (scanInv_init hs)
  simp only [List.nil_append] at h1 h2 h3
  change looksUtf8 0 (r.content.take _) = false → _ at h1
  change looksUtf8 0 (r.content.take _) = true → r.content.length > _ → _ at h2
  change looksUtf8 0 (r.content.take _) = true → r.content.length ≤ _ → _ at h3
  by_cases hu : looksUtf8 0 (r.content.take (2 ^ 25 + 1)) = false
  · have hv : verdict r.content = some .invalidUTF8 := by unfold verdict; rw [if_pos hu]
    rw [hv]
    obtain ⟨set, i1, i2⟩ := h1 hu
    refine ⟨fun reason hre => Or.inl ⟨set, i1, ?_⟩, fun h => by simp at h⟩
    injection hre with hre; subst hre; exact i2
  have hu' : looksUtf8 0 (r.content.take (2 ^ 25 + 1)) = true := by simpa using hu
  by_cases hl : r.content.length > 2 ^ 25
  · have hv : verdict r.content = some .tooLong := by unfold verdict; rw [if_neg hu, if_pos hl]
    rw [hv]
    obtain ⟨set, i1, i2⟩ := h2 hu' hl
    refine ⟨fun reason hre => Or.inl ⟨set, i1, ?_⟩, fun h => by simp at h⟩
    injection hre with hre; subst hre; exact i2
  · obtain ⟨st, i1, i2⟩ := h3 hu' (by omega)
    have hv := scanVerdict_eq i2
    refine ⟨fun reason hre => Or.inr ⟨st, i2.set, i1, by rw [hv]; exact hre⟩,
      fun hn => ⟨st, i2.set, i1, by rw [hv]; exact hn, ?_, ?_⟩⟩
    · rw [i2.dense, foldl_insertNew_nil]; rfl
    · exact i2.utf8

theorem Reader.delivered_eq {r : Reader} (h : r.Ok) : r.delivered = r.content := by
  unfold Reader.delivered Reader.content
  congr 1
  have h2 := h.2
  generalize r.chunks = cs at h2
  induction cs with
  | nil => rfl
  | cons c cs ih =>
    have hc : c ≠ [] := h2 c (by simp)
    rw [List.takeWhile_cons, if_pos (by simpa using hc), ih (fun x hx => h2 x (by simp [hx]))]

/-- What `Add` says of a file that cannot be read to its end, from the bytes delivered. -/
def badVerdict (w : Bytes) : Option SkipReason :=
  if looksUtf8 0 (w.take (2 ^ 25 + 1)) = false then some .invalidUTF8
  else if w.length > 2 ^ 25 then some .tooLong
  else none

/-- `unread` after the bytes delivered. -/
def thenUnread : ScanRes → ScanRes
  | .go st => .unread st.set
  | r => r

theorem scanReader_bad_eq {fails : Bool} : ∀ (cs : List Bytes) (st : Scan),
    ¬ (fails = false ∧ ∀ c ∈ cs, c ≠ []) →
    scanReader fails st cs = thenUnread (scanChunk st (cs.takeWhile (fun c => !c.isEmpty)).flatten)
  | [], st, hb => by
    cases fails with
    | false => exact absurd ⟨rfl, by simp⟩ hb
    | true => rfl
  | c :: cs, st, hb => by
    unfold scanReader
    by_cases hc : c.length = 0
    · rw [if_pos hc]
      rw [List.length_eq_zero_iff] at hc
      subst hc
      rfl
    · rw [if_neg hc]
      have hc' : c ≠ [] := fun e => hc (by simp [e])
      rw [List.takeWhile_cons, if_pos (by simpa using hc'), List.flatten_cons, scanChunk_append]
      cases scanChunk st c with
      | go st' =>
        refine scanReader_bad_eq cs st' ?_
        rintro ⟨hf, hall⟩
        refine hb ⟨hf, fun x hx => ?_⟩
        rcases List.mem_cons.1 hx with rfl | hx
        · exact hc'
        · exact hall x hx
      | panic => rfl
      | skip => rfl
      | unread => rfl

/-- A file that cannot be read to its end is not indexed. -/
theorem scanReader_bad {r : Reader} (hr : ¬ r.Ok) {s : SSet} (hs : SSet.Inv s (2 ^ 24)) :
    (∃ set, SSet.Inv set (2 ^ 24) ∧ badVerdict r.delivered = none ∧
      scanReader r.fails { set := s.reset } r.chunks = .unread set) ∨
    (∃ set reason, SSet.Inv set (2 ^ 24) ∧ badVerdict r.delivered = some reason ∧
      scanReader r.fails { set := s.reset } r.chunks = .skip set reason) := by
  rw [scanReader_bad_eq _ _ hr]
  change (∃ set, _ ∧ _ ∧ thenUnread (scanChunk _ r.delivered) = _) ∨
    (∃ set reason, _ ∧ _ ∧ thenUnread (scanChunk _ r.delivered) = _)
  obtain ⟨h1, h2, h3⟩ := scanChunk_spec r.delivered [] (scanInv_init hs)
  simp only [List.nil_append] at h1 h2 h3
  by_cases hu : looksUtf8 0 (r.delivered.take (2 ^ 25 + 1)) = false
  · obtain ⟨set, i1, i2⟩ := h1 hu
    refine Or.inr ⟨set, .invalidUTF8, i1, ?_, by rw [i2]; rfl⟩
    unfold badVerdict; rw [if_pos hu]
  have hu' : looksUtf8 0 (r.delivered.take (2 ^ 25 + 1)) = true := by simpa using hu
  by_cases hl : r.delivered.length > 2 ^ 25
  · obtain ⟨set, i1, i2⟩ := h2 hu' hl
    refine Or.inr ⟨set, .tooLong, i1, ?_, by rw [i2]; rfl⟩
    unfold badVerdict; rw [if_neg hu, if_pos hl]
  · obtain ⟨st, i1, i2⟩ := h3 hu' (by omega)
    refine Or.inl ⟨st.set, i2.set, ?_, by rw [i1]; rfl⟩
    unfold badVerdict; rw [if_neg hu, if_neg hl]

/-! ## The state of the writer -/

/-- The posting entries of files, the first of which has number `k`. -/
def entriesFrom (k : Nat) : List (Bytes × Bytes) → List Nat
  | [] => []
  | f :: fs => (trigramsOf f.2).map (fun t => makePostEntry t (k % 2 ^ 32)) ++ entriesFrom (k + 1) fs

theorem entriesFrom_snoc {f : Bytes × Bytes} : ∀ {fs : List (Bytes × Bytes)} {k : Nat},
    entriesFrom k (fs ++ [f]) =
      entriesFrom k fs ++ (trigramsOf f.2).map (fun t => makePostEntry t ((k + fs.length) % 2 ^ 32))
  | [], k => by simp [entriesFrom]
  | g :: fs, k => by
    rw [List.cons_append, entriesFrom, entriesFrom, entriesFrom_snoc, List.append_assoc, List.length_cons,
      Nat.add_right_comm, Nat.add_assoc]

/-- The name list. -/
def namesData (names : List Bytes) : Bytes := names.flatMap (fun n => n ++ [0])

/-- Where each name starts. -/
def nameOffs : Nat → List Bytes → List Nat
  | _, [] => []
  | o, n :: ns => o :: nameOffs (o + (n.length + 1)) ns

theorem nameOffs_snoc {n : Bytes} : ∀ {ns : List Bytes} {o : Nat},
    nameOffs o (ns ++ [n]) = nameOffs o ns ++ [o + (namesData ns).length]
  | [], o => by simp [nameOffs, namesData]
  | m :: ns, o => by
    rw [List.cons_append, nameOffs, nameOffs, nameOffs_snoc]
    simp [namesData, Nat.add_assoc, Nat.add_comm 1]

/-- What the writer's state says about the files indexed so far (name, content). -/
structure WInv (paths : List Bytes) (files : List (Bytes × Bytes)) (ix : IW) : Prop where
  npost : 0 < ix.cfg.npost
  set : SSet.Inv ix.trigram (2 ^ 24)
  paths : ix.paths = paths
  nameData : ix.nameData.contents = namesData (files.map (·.1))
  nameIndex : ix.nameIndex.contents = (nameOffs 0 (files.map (·.1))).flatMap putUint32
  numName : ix.numName = files.length
  posts : ∃ chunks : List (List Nat), ix.postFile = chunks.map sortPost ∧
    chunks.flatten ++ ix.post = entriesFrom 0 files
  main : ix.main.contents = []
  postIndex : ix.postIndex.contents = []
  noNul : ∀ f ∈ files, (0 : UInt8) ∉ f.1
  utf8 : ∀ f ∈ files, looksUtf8 0 f.2 = true

theorem wInv_create {cfg : IWConfig} (h : 0 < cfg.npost) (paths : List Bytes) :
    WInv paths [] ((IW.create cfg).addPaths paths) where
  npost := h
  set := inv_new' 
  paths := by simp [IW.addPaths, IW.create]
  nameData := rfl
  nameIndex := rfl
  numName := rfl
  posts := ⟨[], rfl, rfl⟩
  main := rfl
  postIndex := rfl
  noNul := by simp
  utf8 := by simp
where
  inv_new' : SSet.Inv (SSet.new (1 <<< 24)) (2 ^ 24) := SSet.inv_new (by omega)

theorem WInv.withSet {paths files ix set} (h : WInv paths files ix) (hs : SSet.Inv set (2 ^ 24)) :
    WInv paths files { ix with trigram := set } :=
  { h with set := hs }

/-- The two versions of a writer that differ in its posting buffers only. -/
def SameButPosts (a b : IW) : Prop :=
  b = { a with post := b.post, postFile := b.postFile }

theorem addPosts_spec {fileid : Nat} : ∀ (ts : List Nat) (ix : IW) (chunks : List (List Nat)) (E : List Nat),
    0 < ix.cfg.npost → ix.postFile = chunks.map sortPost → chunks.flatten ++ ix.post = E →
    ∃ (ix' : IW) (chunks' : List (List Nat)), IW.addPosts fileid ix ts = some ix' ∧
      ix'.postFile = chunks'.map sortPost ∧
      chunks'.flatten ++ ix'.post = E ++ ts.map (fun t => makePostEntry t fileid) ∧
      SameButPosts ix ix'
  | [], ix, chunks, E, hn, h1, h2 => ⟨ix, chunks, rfl, h1, by simpa using h2, rfl⟩
  | t :: ts, ix, chunks, E, hn, h1, h2 => by
    unfold IW.addPosts
    by_cases hf : ix.post.length ≥ ix.cfg.npost
    · rw [if_pos hf]
      unfold IW.flushPost
      rw [if_neg (by omega)]
      obtain ⟨ix', chunks', i1, i2, i3, i4⟩ := addPosts_spec ts
        { ix with post := [] ++ [makePostEntry t fileid], postFile := ix.postFile ++ [sortPost ix.post] }
        (chunks ++ [ix.post]) (E ++ [makePostEntry t fileid]) hn (by simp [h1]) (by simp [← h2])
      refine ⟨ix', chunks', i1, i2, by rw [i3]; simp, ?_⟩
      unfold SameButPosts at i4 ⊢
      rw [i4]
    · rw [if_neg hf]
      obtain ⟨ix', chunks', i1, i2, i3, i4⟩ := addPosts_spec ts
        { ix with post := ix.post ++ [makePostEntry t fileid] }
        chunks (E ++ [makePostEntry t fileid]) hn h1 (by simp [← h2])
      refine ⟨ix', chunks', i1, i2, by rw [i3]; simp, ?_⟩
      unfold SameButPosts at i4 ⊢
      rw [i4]

/-- `addName`. -/
theorem addName_spec {ix : IW} (name : Bytes) :
    ix.addName name =
      if (0 : UInt8) ∈ name ∨ 2 ^ 32 ≤ ix.nameData.contents.length then none
      else some (ix.numName % 2 ^ 32, { ix with
        nameIndex := ix.nameIndex.writeUint32 ix.nameData.contents.length
        nameData := (ix.nameData.write name).writeByte 0
        numName := ix.numName + 1 }) := by
  unfold IW.addName
  rw [BufWriter.offset_eq]
  by_cases h0 : (0 : UInt8) ∈ name
  · simp [h0]
  · by_cases hl : ix.nameData.contents.length < 2 ^ 32
    · simp only [hl, if_true]
      simp [h0]; omega
    · simp only [hl, if_false]
      simp [h0]; omega

/-- **`Add`**, complete description. -/
theorem add_spec {paths : List Bytes} {files : List (Bytes × Bytes)} {ix : IW} (h : WInv paths files ix)
    (name : Bytes) (r : Reader) :
    (¬ r.Ok → ∃ ix', ix.add name r = some (badVerdict r.delivered, ix') ∧ WInv paths files ix') ∧
    (r.Ok → ∀ reason, verdict r.content = some reason →
      ∃ ix', ix.add name r = some (some reason, ix') ∧ WInv paths files ix') ∧
    (r.Ok → verdict r.content = none →
      if (0 : UInt8) ∈ name ∨ 2 ^ 32 ≤ (namesData (files.map (·.1))).length then ix.add name r = none
      else ∃ ix', ix.add name r = some (none, ix') ∧ WInv paths (files ++ [(name, r.content)]) ix') := by
  refine ⟨fun hb => ?_, fun hr reason hv => ?_, fun hr hv => ?_⟩
  · unfold IW.add
    rcases scanReader_bad hb h.set with ⟨set, i1, i3, i2⟩ | ⟨set, reason, i1, i3, i2⟩
    · rw [i2, i3]; exact ⟨_, rfl, h.withSet i1⟩
    · rw [i2, i3]; exact ⟨_, rfl, h.withSet i1⟩
  · unfold IW.add
    rcases (scanReader_ok hr h.set).1 reason hv with ⟨set, i1, i2⟩ | ⟨st, i1, i2, i3⟩
    · rw [i2]; exact ⟨_, rfl, h.withSet i1⟩
    · rw [i2]; simp only [i3]; exact ⟨_, rfl, h.withSet i1⟩
  · obtain ⟨st, i1, i2, i3, i4, i5⟩ := (scanReader_ok hr h.set).2 hv
    have hw := h.withSet i1
    have heq : ix.add name r = IW.addIndexed { ix with trigram := st.set } name st.set.dense := by
      unfold IW.add
      rw [i2]
      simp only [i3]
    unfold IW.addIndexed at heq
    rw [addName_spec, hw.nameData] at heq
    by_cases hc : (0 : UInt8) ∈ name ∨ 2 ^ 32 ≤ (namesData (files.map (·.1))).length
    · rw [if_pos hc] at heq ⊢
      exact heq
    · rw [if_neg hc] at heq ⊢
      simp only at heq
      obtain ⟨chunks, c1, c2⟩ := h.posts
      obtain ⟨ix', chunks', j1, j2, j3, j4⟩ := addPosts_spec (fileid := ix.numName % 2 ^ 32) st.set.dense
        { ix with
          trigram := st.set
          nameIndex := ix.nameIndex.writeUint32 (namesData (files.map (·.1))).length
          nameData := (ix.nameData.write name).writeByte 0
          numName := ix.numName + 1 } chunks _ h.npost c1 c2
      rw [j1] at heq
      refine ⟨ix', heq, ?_⟩
      unfold SameButPosts at j4
      have hfst : (files ++ [(name, r.content)]).map (·.1) = files.map (·.1) ++ [name] := by simp
      constructor
      · rw [j4]; exact h.npost
      · rw [j4]; exact i1
      · rw [j4]; exact h.paths
      · rw [j4, hfst]
        simp only [BufWriter.contents_writeByte, BufWriter.contents_write, h.nameData, namesData]
        simp
      · rw [j4, hfst, nameOffs_snoc]
        simp only [BufWriter.contents_writeUint32, h.nameIndex]
        simp
      · rw [j4]; simp [h.numName]
      · refine ⟨chunks', j2, ?_⟩
        rw [j3, entriesFrom_snoc, i4, h.numName, Nat.zero_add]
      · rw [j4]; exact h.main
      · rw [j4]; exact h.postIndex
      · intro f hf
        rcases List.mem_append.1 hf with hf | hf
        · exact h.noNul f hf
        · rw [List.mem_singleton] at hf; subst hf; intro e; exact hc (Or.inl e)
      · intro f hf
        rcases List.mem_append.1 hf with hf | hf
        · exact h.utf8 f hf
        · rw [List.mem_singleton] at hf; subst hf; exact i5

end Hound
