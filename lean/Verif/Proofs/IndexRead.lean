import Verif.Model.IndexRead
import Verif.Proofs.IndexLayout

namespace Hound
open Spec

namespace RIndex

theorem slice_at {d a b c : Bytes} {ix : RIndex} (hd : ix.data = d) (h : d = a ++ b ++ c) {off n : Nat}
    (ho : off = a.length) (hn : n = b.length) : ix.slice off n = some b := by
  subst ho hn
  unfold slice
  rw [hd, h, if_neg (by simp only [List.length_append]; omega), List.append_assoc, List.drop_left, List.take_left]

theorem sliceFrom_at {a b : Bytes} {ix : RIndex} (h : ix.data = a ++ b) {off : Nat}
    (ho : off = a.length) : ix.sliceFrom off = some b := by
  subst ho
  unfold sliceFrom
  rw [h, if_neg (by simp only [List.length_append]; omega), List.drop_left]

theorem uint32_at {a c : Bytes} {x : Nat} {ix : RIndex} (h : ix.data = a ++ putUint32 x ++ c) {off : Nat}
    (ho : off = a.length) (hx : x < 2 ^ 32) : ix.uint32 off = some x := by
  unfold uint32
  rw [slice_at rfl h ho (putUint32_length x).symm]
  have := getUint32_put hx []
  rwa [List.append_nil] at this

/-- The open index for a file with given sections. -/
def ofSections (s : Sections) (nf np : Nat) : RIndex where
  data := s.bytes
  pathData := Sections.o0
  nameData := s.o1
  postData := s.o2
  nameIndex := s.o3
  postIndex := s.o4
  numName := nf
  numPost := np

theorem open_bytes {s : Sections} {nf np : Nat} (h : s.bytes.length < 2 ^ 32)
    (hni : s.nameIndex.length = 4 * (nf + 1)) (hpi : s.postIndex.length = 11 * np) :
    RIndex.open s.bytes = some (ofSections s nf np) := by
  have hl := s.length_bytes
  have e0 : Sections.o0 = 16 := rfl
  have e1 : s.o1 = Sections.o0 + s.paths.length := rfl
  have e2 : s.o2 = s.o1 + s.names.length := rfl
  have e3 : s.o3 = s.o2 + s.lists.length := rfl
  have e4 : s.o4 = s.o3 + s.nameIndex.length := rfl
  have e5 : s.o5 = s.o4 + s.postIndex.length := rfl
  have ht : IW.trailerMagic.length = 16 := rfl
  have hm : IW.magic.length = 16 := rfl
  have hn : (s.bytes.length + 2 ^ 32 - IW.trailerMagic.length - 5 * 4) % 2 ^ 32 = s.o5 := by
    rw [ht]; omega
  have hbase : (IW.magic ++ s.paths ++ s.names ++ s.lists ++ s.nameIndex ++ s.postIndex).length = s.o5 := by
    simp only [List.length_append, hm]; omega
  unfold RIndex.open
  rw [if_neg]
  · rw [hn]
    simp only [Option.bind_eq_bind]
    rw [uint32_at (a := IW.magic ++ s.paths ++ s.names ++ s.lists ++ s.nameIndex ++ s.postIndex)
      (x := Sections.o0) (ix := { data := s.bytes })
      (c := putUint32 s.o1 ++ putUint32 s.o2 ++ putUint32 s.o3 ++ putUint32 s.o4 ++ IW.trailerMagic)
      (by simp [Sections.bytes]) hbase.symm (by omega)]
    simp only [Option.bind_some]
    rw [uint32_at (a := IW.magic ++ s.paths ++ s.names ++ s.lists ++ s.nameIndex ++ s.postIndex ++ putUint32 Sections.o0)
      (x := s.o1) (ix := { data := s.bytes })
      (c := putUint32 s.o2 ++ putUint32 s.o3 ++ putUint32 s.o4 ++ IW.trailerMagic)
      (by simp [Sections.bytes])
      (by rw [List.length_append, hbase, putUint32_length]; omega) (by omega)]
    simp only [Option.bind_some]
    rw [uint32_at (a := IW.magic ++ s.paths ++ s.names ++ s.lists ++ s.nameIndex ++ s.postIndex ++ putUint32 Sections.o0 ++ putUint32 s.o1)
      (x := s.o2) (ix := { data := s.bytes })
      (c := putUint32 s.o3 ++ putUint32 s.o4 ++ IW.trailerMagic)
      (by simp [Sections.bytes])
      (by rw [List.length_append, List.length_append, hbase, putUint32_length, putUint32_length]; omega) (by omega)]
    simp only [Option.bind_some]
    rw [uint32_at (a := IW.magic ++ s.paths ++ s.names ++ s.lists ++ s.nameIndex ++ s.postIndex ++ putUint32 Sections.o0 ++ putUint32 s.o1 ++ putUint32 s.o2)
      (x := s.o3) (ix := { data := s.bytes })
      (c := putUint32 s.o4 ++ IW.trailerMagic)
      (by simp [Sections.bytes])
      (by rw [List.length_append, List.length_append, List.length_append, hbase, putUint32_length, putUint32_length, putUint32_length]; omega) (by omega)]
    simp only [Option.bind_some]
    rw [uint32_at (a := IW.magic ++ s.paths ++ s.names ++ s.lists ++ s.nameIndex ++ s.postIndex ++ putUint32 Sections.o0 ++ putUint32 s.o1 ++ putUint32 s.o2 ++ putUint32 s.o3)
      (x := s.o4) (ix := { data := s.bytes })
      (c := IW.trailerMagic)
      (by simp [Sections.bytes])
      (by rw [List.length_append, List.length_append, List.length_append, List.length_append, hbase, putUint32_length, putUint32_length, putUint32_length, putUint32_length]; omega) (by omega)]
    simp only [Option.bind_some]
    have hnn : (((s.o4 + 2 ^ 32 - s.o3) % 2 ^ 32 / 4 : Nat) : Int) - 1 = (nf : Int) := by omega
    have hnp : (s.o5 + 2 ^ 32 - s.o4) % 2 ^ 32 / postEntrySize = np := by
      unfold postEntrySize; omega
    rw [hnn, hnp]
    rfl
  · rw [not_or]
    refine ⟨by omega, ?_⟩
    rw [Classical.not_not]
    have hd : s.bytes = (IW.magic ++ s.paths ++ s.names ++ s.lists ++ s.nameIndex ++ s.postIndex ++
      (putUint32 Sections.o0 ++ putUint32 s.o1 ++ putUint32 s.o2 ++ putUint32 s.o3 ++ putUint32 s.o4)) ++ IW.trailerMagic := rfl
    rw [hd]
    refine List.drop_left' ?_
    rw [List.length_append (bs := IW.trailerMagic)]
    omega

/-! ## Names and paths -/

theorem takeWhile_zero {n rest : Bytes} (hn : (0 : UInt8) ∉ n) : (n ++ 0 :: rest).takeWhile (· != 0) = n := by
  induction n with
  | nil => simp
  | cons c n ih =>
    rw [List.mem_cons, not_or] at hn
    rw [List.cons_append, List.takeWhile_cons, if_pos (by simpa using Ne.symm hn.1), ih hn.2]

theorem str_at {a n rest : Bytes} {ix : RIndex} (h : ix.data = a ++ (n ++ 0 :: rest)) {off : Nat}
    (ho : off = a.length) (hn : (0 : UInt8) ∉ n) : ix.str off = some n := by
  unfold str
  rw [sliceFrom_at h ho]
  simp only
  rw [if_pos (by simp), takeWhile_zero hn]

theorem nameOffs_append : ∀ {ns ms : List Bytes} {o : Nat},
    nameOffs o (ns ++ ms) = nameOffs o ns ++ nameOffs (o + (namesData ns).length) ms
  | [], ms, o => by simp [nameOffs, namesData]
  | n :: ns, ms, o => by
    rw [List.cons_append, nameOffs, nameOffs, nameOffs_append]
    simp [namesData, Nat.add_assoc, Nat.add_comm 1]

theorem namesData_append (ns ms : List Bytes) : namesData (ns ++ ms) = namesData ns ++ namesData ms := by
  simp [namesData]

/-- `Name` gives back the names. -/
theorem name_at {s : Sections} {nf np : Nat} (h : s.bytes.length < 2 ^ 32) {ns : List Bytes} {n : Bytes}
    {ms : List Bytes} (h1 : s.names = namesData (ns ++ n :: ms))
    (h2 : s.nameIndex = (nameOffs 0 (ns ++ n :: ms)).flatMap putUint32) (hn : (0 : UInt8) ∉ n) :
    (ofSections s nf np).name ns.length = some n := by
  have hl := s.length_bytes
  have hm : IW.magic.length = 16 := rfl
  have e0 : Sections.o0 = 16 := rfl
  have e1 : s.o1 = Sections.o0 + s.paths.length := rfl
  have e2 : s.o2 = s.o1 + s.names.length := rfl
  have e3 : s.o3 = s.o2 + s.lists.length := rfl
  have e4 : s.o4 = s.o3 + s.nameIndex.length := rfl
  have e5 : s.o5 = s.o4 + s.postIndex.length := rfl
  have hnl : s.names.length = (namesData ns).length + (namesData (n :: ms)).length := by
    rw [h1, namesData_append, List.length_append]
  have hil : s.nameIndex.length = 4 * ns.length + 4 * (ms.length + 1) := by
    rw [h2, flatMap_putUint32_length, nameOffs_length, List.length_append, List.length_cons]; omega
  rw [nameOffs_append, List.flatMap_append, nameOffs, List.flatMap_cons, Nat.zero_add] at h2
  unfold RIndex.name
  rw [uint32_at (a := IW.magic ++ s.paths ++ s.names ++ s.lists ++ (nameOffs 0 ns).flatMap putUint32)
    (x := (namesData ns).length)
    (c := (nameOffs ((namesData ns).length + (n.length + 1)) ms).flatMap putUint32 ++ s.postIndex ++
      (putUint32 Sections.o0 ++ putUint32 s.o1 ++ putUint32 s.o2 ++ putUint32 s.o3 ++ putUint32 s.o4) ++ IW.trailerMagic)]
  · simp only
    refine str_at (a := IW.magic ++ s.paths ++ namesData ns)
      (rest := namesData ms ++ s.lists ++ s.nameIndex ++ s.postIndex ++
      (putUint32 Sections.o0 ++ putUint32 s.o1 ++ putUint32 s.o2 ++ putUint32 s.o3 ++ putUint32 s.o4) ++ IW.trailerMagic) ?_ ?_ hn
    · show s.bytes = _
      unfold Sections.bytes
      rw [h1, namesData_append]
      simp [namesData]
    · show (s.o1 + (namesData ns).length) % 2 ^ 32 = _
      rw [List.length_append, List.length_append, hm]
      omega
  · show s.bytes = _
    unfold Sections.bytes
    rw [h2]
    simp only [List.append_assoc]
  · show (s.o3 + 4 * ns.length) % 2 ^ 32 = _
    simp only [List.length_append, hm, flatMap_putUint32_length, nameOffs_length]
    omega
  · omega

theorem pathsLoop_at {ix : RIndex} : ∀ (ps : List Bytes) (a rest : Bytes) (fuel off : Nat),
    ix.data = a ++ (ps.flatMap (fun p => p ++ [0]) ++ 0 :: rest) → off = a.length → ix.data.length < 2 ^ 32 →
    (∀ p ∈ ps, p ≠ [] ∧ (0 : UInt8) ∉ p) → ps.length < fuel → ix.pathsLoop fuel off = some ps
  | _, _, _, 0, _, _, _, _, _, hf => by omega
  | [], a, rest, fuel + 1, off, h, ho, _, _, _ => by
    unfold pathsLoop
    rw [str_at (n := []) (rest := rest) (by simpa using h) ho (by simp)]
    simp
  | p :: ps, a, rest, fuel + 1, off, h, ho, hl, hp, hf => by
    obtain ⟨hp0, hp1⟩ := hp p (by simp)
    have hlen := congrArg List.length h
    simp only [List.length_append, List.flatMap_cons, List.length_cons, List.length_nil] at hlen
    unfold pathsLoop
    rw [str_at (n := p) (rest := ps.flatMap (fun p => p ++ [0]) ++ 0 :: rest)
      (by rw [h]; simp) ho hp1]
    simp only
    rw [if_neg (by simpa using hp0), pathsLoop_at ps (a ++ (p ++ [0])) rest fuel _ (by rw [h]; simp)
      (by simp only [List.length_append, List.length_cons, List.length_nil]; omega) hl
      (fun q hq => hp q (by simp [hq])) (by simp only [List.length_cons] at hf; omega)]
    rfl

theorem paths_at {s : Sections} {nf np : Nat} (h : s.bytes.length < 2 ^ 32) {ps : List Bytes}
    (h1 : s.paths = ps.flatMap (fun p => p ++ [0]) ++ [0]) (hp : ∀ p ∈ ps, p ≠ [] ∧ (0 : UInt8) ∉ p) :
    (ofSections s nf np).paths = some ps := by
  have hl := s.length_bytes
  have hlen : ps.length ≤ (ps.flatMap (fun p => p ++ [0])).length := by
    clear h1 hp
    induction ps with
    | nil => simp
    | cons p ps ih =>
      rw [List.flatMap_cons, List.length_append, List.length_append, List.length_cons, List.length_singleton]
      omega
  unfold RIndex.paths
  have hps : s.paths.length = (ps.flatMap (fun p => p ++ [0])).length + 1 := by
    rw [h1, List.length_append, List.length_singleton]
  refine pathsLoop_at ps IW.magic (s.names ++ s.lists ++ s.nameIndex ++ s.postIndex ++
      (putUint32 Sections.o0 ++ putUint32 s.o1 ++ putUint32 s.o2 ++ putUint32 s.o3 ++ putUint32 s.o4) ++ IW.trailerMagic)
      _ _ ?_ rfl h hp ?_
  · show s.bytes = _
    unfold Sections.bytes
    rw [h1]
    simp only [List.append_assoc, List.cons_append, List.nil_append]
  · show ps.length < s.bytes.length + 1
    rw [hl]
    unfold Sections.o5 Sections.o4 Sections.o3 Sections.o2 Sections.o1
    omega

/-! ## Binary search -/

theorem searchLoop_spec {f : Nat → Option Bool} {p : Nat → Bool} {n : Nat} (hf : ∀ m < n, f m = some (p m))
    (hmono : ∀ a b, a ≤ b → b < n → p a = true → p b = true) :
    ∀ (fuel i j : Nat), i ≤ j → j ≤ n → j - i ≤ fuel → (∀ m < i, p m = false) →
      (∀ m, j ≤ m → m < n → p m = true) →
      ∃ k, searchLoop f fuel i j = some k ∧ k ≤ n ∧ (∀ m < k, p m = false) ∧ (∀ m, k ≤ m → m < n → p m = true)
  | 0, i, j, hij, hj, hfu, h1, h2 => ⟨i, rfl, by omega, h1, fun m hm hn => h2 m (by omega) hn⟩
  | fuel + 1, i, j, hij, hj, hfu, h1, h2 => by
    unfold searchLoop
    by_cases hlt : i < j
    · rw [if_pos hlt, hf _ (by omega)]
      simp only
      by_cases hp : p ((i + j) / 2) = true
      · rw [if_pos hp]
        exact searchLoop_spec hf hmono fuel i _ (by omega) (by omega) (by omega) h1
          (fun m hm hn => hmono _ _ hm hn hp)
      · rw [if_neg hp]
        refine searchLoop_spec hf hmono fuel _ j (by omega) (by omega) (by omega) (fun m hm => ?_) h2
        by_cases hpm : p m = true
        · exact absurd (hmono m _ (by omega) (by omega) hpm) hp
        · simpa using hpm
    · rw [if_neg hlt]
      exact ⟨i, rfl, by omega, h1, fun m hm hn => h2 m (by omega) hn⟩

theorem search_spec {f : Nat → Option Bool} {p : Nat → Bool} {n : Nat} (hf : ∀ m < n, f m = some (p m))
    (hmono : ∀ a b, a ≤ b → b < n → p a = true → p b = true) :
    ∃ k, search n f = some k ∧ k ≤ n ∧ (∀ m < k, p m = false) ∧ (∀ m, k ≤ m → m < n → p m = true) :=
  searchLoop_spec hf hmono n 0 n (by omega) (by omega) (by omega) (by simp) (fun m h1 h2 => by omega)

/-! ## The posting list index -/

theorem indexEntry_length (t n o : Nat) : (indexEntry t n o).length = 11 := rfl

theorem indexEntries_length : ∀ (gs : List (Nat × List Nat)) (o : Nat),
    (indexEntries o gs).length = 11 * (gs.length + 1)
  | [], o => by rw [indexEntries, indexEntry_length]; rfl
  | g :: gs, o => by
    rw [indexEntries, List.length_append, indexEntry_length, indexEntries_length gs, List.length_cons]
    omega

theorem indexEntries_drop : ∀ (i : Nat) (gs : List (Nat × List Nat)) (o : Nat), i ≤ gs.length →
    (indexEntries o gs).drop (i * 11) = indexEntries (o + (groupsBytes (gs.take i)).length) (gs.drop i)
  | 0, gs, o, _ => by simp [groupsBytes]
  | i + 1, [], o, h => by simp at h
  | i + 1, g :: gs, o, h => by
    rw [indexEntries, Nat.add_mul, Nat.one_mul, Nat.add_comm (i * 11), ← List.drop_drop,
      List.drop_left' (indexEntry_length _ _ _), indexEntries_drop i gs _ (by simpa using h)]
    simp only [List.take_succ_cons, List.drop_succ_cons, groupsBytes, List.flatMap_cons, List.length_append]
    rw [Nat.add_assoc]

/-- Trigram number `i` of the posting list index. -/
def triAt (gs : List (Nat × List Nat)) (i : Nat) : Nat :=
  match gs[i]? with
  | some g => g.1
  | none => 2 ^ 24 - 1

theorem indexEntries_head {gs : List (Nat × List Nat)} (hok : GroupsOk gs) {i : Nat} (hi : i ≤ gs.length)
    (o : Nat) : ∃ rest n o', (indexEntries o gs).drop (i * 11) = putTrigram (triAt gs i) ++ putUint32 n ++ putUint32 o' ++ rest
      ∧ triAt gs i < 2 ^ 24 ∧ o' = o + (groupsBytes (gs.take i)).length ∧
      n = (match gs[i]? with | some g => g.2.length | none => 0) := by
  rw [indexEntries_drop i gs o hi]
  by_cases hlt : i < gs.length
  · rw [List.drop_eq_getElem_cons hlt, indexEntries]
    have htri : triAt gs i = gs[i].1 := by
      unfold triAt
      rw [List.getElem?_eq_getElem hlt]
    refine ⟨_, gs[i].2.length, _, by rw [htri]; rfl, ?_, rfl, ?_⟩
    · rw [htri]
      have := hok.tri gs[i] (List.getElem_mem hlt)
      omega
    · rw [List.getElem?_eq_getElem hlt]
  · have : i = gs.length := by omega
    subst this
    refine ⟨[], 0, _, ?_, ?_, rfl, ?_⟩
    · rw [List.drop_length, indexEntries, List.append_nil]
      unfold triAt indexEntry
      rw [List.getElem?_eq_none (Nat.le_refl _)]
      rfl
    · unfold triAt
      rw [List.getElem?_eq_none (Nat.le_refl _)]
      simp only
      omega
    · rw [List.getElem?_eq_none (Nat.le_refl _)]

theorem triAt_mono {gs : List (Nat × List Nat)} (hok : GroupsOk gs) {a b : Nat} (hab : a < b)
    (hb : b < gs.length + 1) : triAt gs a < triAt gs b := by
  have ha : a < gs.length := by omega
  unfold triAt
  rw [List.getElem?_eq_getElem ha]
  by_cases hlt : b < gs.length
  · rw [List.getElem?_eq_getElem hlt]
    exact List.pairwise_iff_getElem.1 hok.sorted a b ha hlt hab
  · rw [List.getElem?_eq_none (by omega)]
    exact hok.tri gs[a] (List.getElem_mem ha)

theorem groupsBytes_take_le {gs : List (Nat × List Nat)} (i : Nat) :
    (groupsBytes (gs.take i)).length ≤ (groupsBytes gs).length := by
  have : groupsBytes gs = groupsBytes (gs.take i) ++ groupsBytes (gs.drop i) := by
    unfold groupsBytes
    rw [← List.flatMap_append, List.take_append_drop]
  rw [this, List.length_append]
  omega

/-- `findList`: the entry of a trigram that occurs, count 0 for any other. -/
theorem findList_spec {s : Sections} {nf : Nat} {gs : List (Nat × List Nat)} (h : s.bytes.length < 2 ^ 32)
    (hp : s.postIndex = indexEntries 0 gs) (hl : s.lists = groupsBytes gs ++ endBytes) (hok : GroupsOk gs)
    (t : Nat) :
    (∃ (i : Nat) (ids : List Nat), gs[i]? = some (t, ids) ∧
      (ofSections s nf (gs.length + 1)).findList t = some (ids.length, (groupsBytes (gs.take i)).length)) ∨
    ((∀ g ∈ gs, g.1 ≠ t) ∧ ∃ o, (ofSections s nf (gs.length + 1)).findList t = some (0, o)) := by
  have hlb := s.length_bytes
  have hm : IW.magic.length = 16 := rfl
  have e0 : Sections.o0 = 16 := rfl
  have e1 : s.o1 = Sections.o0 + s.paths.length := rfl
  have e2 : s.o2 = s.o1 + s.names.length := rfl
  have e3 : s.o3 = s.o2 + s.lists.length := rfl
  have e4 : s.o4 = s.o3 + s.nameIndex.length := rfl
  have e5 : s.o5 = s.o4 + s.postIndex.length := rfl
  have hpl := indexEntries_length gs 0
  have hll : s.lists.length = (groupsBytes gs).length + 4 := by
    rw [hl, List.length_append, endBytes_length]
  unfold findList
  rw [slice_at (d := s.bytes) (ix := ofSections s nf (gs.length + 1))
    (off := (ofSections s nf (gs.length + 1)).postIndex)
    (n := postEntrySize * (ofSections s nf (gs.length + 1)).numPost) rfl
    (a := IW.magic ++ s.paths ++ s.names ++ s.lists ++ s.nameIndex) (b := s.postIndex)
    (c := (putUint32 Sections.o0 ++ putUint32 s.o1 ++ putUint32 s.o2 ++ putUint32 s.o3 ++ putUint32 s.o4) ++ IW.trailerMagic)
    (by unfold Sections.bytes; simp only [List.append_assoc])
    (by show s.o4 = _; simp only [List.length_append, hm]; omega)
    (by show 11 * (gs.length + 1) = _; rw [hp, hpl])]
  simp only
  rw [hp]
  have hf : ∀ m < gs.length + 1, (getTrigram ((indexEntries 0 gs).drop (m * postEntrySize))).map
      (fun x => decide (x ≥ t)) = some (decide (triAt gs m ≥ t)) := by
    intro m hm
    obtain ⟨rest, n, o', k1, k2, _, _⟩ := indexEntries_head hok (show m ≤ gs.length by omega) 0
    show (getTrigram ((indexEntries 0 gs).drop (m * 11))).map _ = _
    rw [k1, List.append_assoc, List.append_assoc, getTrigram_put k2]
    rfl
  obtain ⟨k, s1, s2, s3, s4⟩ := search_spec (p := fun m => decide (triAt gs m ≥ t)) hf (by
    intro a b hab hb ha
    simp only [decide_eq_true_eq] at ha ⊢
    rcases Nat.lt_or_eq_of_le hab with hlt | rfl
    · have := triAt_mono hok hlt hb; omega
    · exact ha)
  have s1' : search (ofSections s nf (gs.length + 1)).numPost (fun i =>
      (getTrigram ((indexEntries 0 gs).drop (i * postEntrySize))).map (fun x => decide (x ≥ t))) = some k := s1
  rw [s1']
  simp only
  have habs : triAt gs k ≠ t ∨ k ≥ gs.length → ∀ g ∈ gs, g.1 ≠ t := by
    intro hk g hg heq
    obtain ⟨m, hm, hgm⟩ := List.getElem_of_mem hg
    have ht : triAt gs m = t := by
      unfold triAt
      rw [List.getElem?_eq_getElem hm, hgm]
      exact heq
    have hmk : k ≤ m := by
      rcases Nat.lt_or_ge m k with hlt | hge
      · have := s3 m hlt
        simp only [decide_eq_false_iff_not] at this
        omega
      · exact hge
    rcases hk with hk | hk
    · rcases Nat.lt_or_eq_of_le hmk with hlt | rfl
      · have h1 := triAt_mono hok hlt (show m < gs.length + 1 by omega)
        have h2 := s4 k (Nat.le_refl _) (by omega)
        simp only [decide_eq_true_eq] at h2
        omega
      · exact hk ht
    · omega
  by_cases hk : k ≥ gs.length + 1
  · rw [if_pos (show k ≥ (ofSections s nf (gs.length + 1)).numPost from hk)]
    exact Or.inr ⟨habs (Or.inr (by omega)), 0, rfl⟩
  · rw [if_neg (show ¬ k ≥ (ofSections s nf (gs.length + 1)).numPost from hk)]
    obtain ⟨rest, n, o', k1, k2, k3, k4⟩ := indexEntries_head hok (show k ≤ gs.length by omega) 0
    have k1' : (indexEntries 0 gs).drop (k * postEntrySize) =
        putTrigram (triAt gs k) ++ putUint32 n ++ putUint32 o' ++ rest := k1
    rw [k1']
    have hg0 : getTrigram (putTrigram (triAt gs k) ++ putUint32 n ++ putUint32 o' ++ rest) = some (triAt gs k) := by
      rw [List.append_assoc, List.append_assoc, getTrigram_put k2]
    simp only [hg0]
    by_cases hne : triAt gs k ≠ t
    · rw [if_pos hne]
      exact Or.inr ⟨habs (Or.inl hne), 0, rfl⟩
    · rw [if_neg hne]
      rw [Classical.not_not] at hne
      have hn32 : n < 2 ^ 32 := by
        rw [k4]
        split
        · rename_i g hg
          exact hok.few g (List.mem_of_getElem? hg)
        · omega
      have ho32 : o' < 2 ^ 32 := by
        have := groupsBytes_take_le (gs := gs) k
        omega
      have d3 : (putTrigram (triAt gs k) ++ putUint32 n ++ putUint32 o' ++ rest).drop 3 =
          putUint32 n ++ (putUint32 o' ++ rest) := by
        rw [List.append_assoc, List.append_assoc]
        exact List.drop_left' (putTrigram_length _)
      have d7 : (putTrigram (triAt gs k) ++ putUint32 n ++ putUint32 o' ++ rest).drop 7 =
          putUint32 o' ++ rest := by
        rw [List.append_assoc]
        exact List.drop_left' (by rw [List.length_append, putTrigram_length, putUint32_length])
      rw [d3, d7, getUint32_put hn32, getUint32_put ho32]
      simp only
      by_cases hlt : k < gs.length
      · left
        rw [List.getElem?_eq_getElem hlt] at k4
        refine ⟨k, gs[k].2, ?_, ?_⟩
        · rw [List.getElem?_eq_getElem hlt]
          unfold triAt at hne
          rw [List.getElem?_eq_getElem hlt] at hne
          rw [← hne]
        · rw [k4, k3, Nat.zero_add]
      · right
        refine ⟨habs (Or.inr (by omega)), o', ?_⟩
        rw [List.getElem?_eq_none (by omega)] at k4
        rw [k4]

end RIndex

end Hound
