import Verif.Proofs.PostingQuery

namespace Hound
open Spec

/-- What `Add` answers. -/
def addAnswer (r : Reader) : Option SkipReason :=
  if r.Ok then verdict r.content else badVerdict r.delivered

/-- The files that get into the index, with their contents. -/
def indexedOf (files : List (Bytes × Reader)) : List (Bytes × Bytes) :=
  files.filterMap fun f => if f.2.Ok ∧ verdict f.2.content = none then some (f.1, f.2.content) else none

/-- No `Add` ends the program: names have no NUL byte and their total size stays below 2^32. -/
def AddsOk (before : List (Bytes × Bytes)) : List (Bytes × Reader) → Prop
  | [] => True
  | f :: fs => (f.2.Ok ∧ verdict f.2.content = none →
      (0 : UInt8) ∉ f.1 ∧ (namesData (before.map (·.1))).length < 2 ^ 32) ∧
    AddsOk (before ++ indexedOf [f]) fs

theorem indexedOf_cons (f : Bytes × Reader) (fs : List (Bytes × Reader)) :
    indexedOf (f :: fs) = indexedOf [f] ++ indexedOf fs := by
  unfold indexedOf
  rw [← List.filterMap_append]
  rfl

theorem add_step {paths : List Bytes} {before : List (Bytes × Bytes)} {ix : IW} (h : WInv paths before ix)
    (f : Bytes × Reader) :
    ((f.2.Ok ∧ verdict f.2.content = none →
      (0 : UInt8) ∉ f.1 ∧ (namesData (before.map (·.1))).length < 2 ^ 32) →
      ∃ ix', ix.add f.1 f.2 = some (addAnswer f.2, ix') ∧ WInv paths (before ++ indexedOf [f]) ix') ∧
    (¬ (f.2.Ok ∧ verdict f.2.content = none →
      (0 : UInt8) ∉ f.1 ∧ (namesData (before.map (·.1))).length < 2 ^ 32) → ix.add f.1 f.2 = none) := by
  obtain ⟨h1, h2, h3⟩ := add_spec h f.1 f.2
  by_cases hok : f.2.Ok
  · have ha : addAnswer f.2 = verdict f.2.content := by unfold addAnswer; rw [if_pos hok]
    cases hv : verdict f.2.content with
    | some reason =>
      have hi : indexedOf [f] = [] := by simp [indexedOf, hv]
      refine ⟨fun _ => ?_, fun hn => absurd (fun hh => ?_) hn⟩
      · rw [ha, hv, hi, List.append_nil]
        exact h2 hok reason hv
      · simp at hh
    | none =>
      have hi : indexedOf [f] = [(f.1, f.2.content)] := by simp [indexedOf, hv, hok]
      have h3' := h3 hok hv
      rw [ha, hv, hi]
      refine ⟨fun hc => ?_, fun hc => ?_⟩
      · rw [if_neg] at h3'
        · exact h3'
        · have := hc ⟨hok, rfl⟩
          rintro (a | a)
          · exact this.1 a
          · omega
      · rw [if_pos] at h3'
        · exact h3'
        · refine Classical.byContradiction fun hcc => hc fun _ => ?_
          rw [not_or] at hcc
          exact ⟨hcc.1, by omega⟩
  · have ha : addAnswer f.2 = badVerdict f.2.delivered := by unfold addAnswer; rw [if_neg hok]
    have hi : indexedOf [f] = [] := by simp [indexedOf, hok]
    refine ⟨fun _ => ?_, fun hn => absurd (fun hh => absurd hh.1 hok) hn⟩
    rw [ha, hi, List.append_nil]
    exact h1 hok

theorem iwAddAll_spec {paths : List Bytes} : ∀ (files : List (Bytes × Reader)) {before : List (Bytes × Bytes)} {ix : IW},
    WInv paths before ix →
    (AddsOk before files → ∃ ix', ix.addAll files = some (files.map (fun f => addAnswer f.2), ix') ∧
      WInv paths (before ++ indexedOf files) ix') ∧
    (¬ AddsOk before files → ix.addAll files = none)
  | [], before, ix, h => ⟨fun _ => ⟨ix, rfl, by simpa [indexedOf] using h⟩, fun hn => absurd trivial hn⟩
  | f :: fs, before, ix, h => by
    obtain ⟨s1, s2⟩ := add_step h f
    by_cases hc : (f.2.Ok ∧ verdict f.2.content = none →
      (0 : UInt8) ∉ f.1 ∧ (namesData (before.map (·.1))).length < 2 ^ 32)
    · obtain ⟨ix1, a1, a2⟩ := s1 hc
      obtain ⟨r1, r2⟩ := iwAddAll_spec fs a2
      unfold IW.addAll
      simp only [a1]
      refine ⟨fun hok => ?_, fun hok => ?_⟩
      · obtain ⟨ix2, b1, b2⟩ := r1 hok.2
        rw [b1]
        refine ⟨ix2, rfl, ?_⟩
        rw [indexedOf_cons, ← List.append_assoc]
        exact b2
      · rw [r2 (fun hh => hok ⟨hc, hh⟩)]
    · refine ⟨fun hok => absurd hok.1 hc, fun _ => ?_⟩
      unfold IW.addAll
      simp only [s2 hc]

/-- **The whole index writer**, for any positive buffer size: what `Add` answers and the bytes written. -/
theorem buildIndex_spec {cfg : IWConfig} (hc : 0 < cfg.npost) (paths : List Bytes) (files : List (Bytes × Reader)) :
    (AddsOk [] files ∧ (indexedOf files).length + 1 < 2 ^ 30 ∧
        (sectionsOf paths (indexedOf files)).bytes.length < 2 ^ 32 →
      buildIndex cfg paths files =
        some (files.map (fun f => addAnswer f.2), (sectionsOf paths (indexedOf files)).bytes)) ∧
    (¬ (AddsOk [] files ∧ (indexedOf files).length + 1 < 2 ^ 30 ∧
        (sectionsOf paths (indexedOf files)).bytes.length < 2 ^ 32) →
      buildIndex cfg paths files = none) := by
  obtain ⟨a1, a2⟩ := iwAddAll_spec files (wInv_create hc paths)
  rw [List.nil_append] at a1
  refine ⟨fun ⟨h1, h2, h3⟩ => ?_, fun hn => ?_⟩
  · obtain ⟨ix, b1, b2⟩ := a1 h1
    unfold buildIndex
    rw [b1]
    simp only
    rw [flush_spec b2 h2, if_pos h3]
  · unfold buildIndex
    by_cases h1 : AddsOk [] files
    · obtain ⟨ix, b1, b2⟩ := a1 h1
      rw [b1]
      simp only
      cases hf : ix.flush with
      | none => rfl
      | some data =>
        exfalso
        have h2 := flush_files b2 hf
        rw [flush_spec b2 h2] at hf
        split at hf
        · rename_i h3
          exact hn ⟨h1, h2, h3⟩
        · simp at hf
    · rw [a2 h1]

theorem buildIndex_some {cfg : IWConfig} (hc : 0 < cfg.npost) {paths : List Bytes} {files : List (Bytes × Reader)}
    {ress : List (Option SkipReason)} {data : Bytes} (h : buildIndex cfg paths files = some (ress, data)) :
    AddsOk [] files ∧ (indexedOf files).length + 1 < 2 ^ 30 ∧
      (sectionsOf paths (indexedOf files)).bytes.length < 2 ^ 32 ∧
      ress = files.map (fun f => addAnswer f.2) ∧ data = (sectionsOf paths (indexedOf files)).bytes := by
  obtain ⟨h1, h2⟩ := buildIndex_spec hc paths files
  by_cases hh : AddsOk [] files ∧ (indexedOf files).length + 1 < 2 ^ 30 ∧
        (sectionsOf paths (indexedOf files)).bytes.length < 2 ^ 32
  · rw [h1 hh] at h
    injection h with h
    injection h with h3 h4
    exact ⟨hh.1, hh.2.1, hh.2.2, h3.symm, h4.symm⟩
  · rw [h2 hh] at h
    simp at h

/-- Names in the index have no NUL byte. -/
theorem addsOk_names : ∀ {files : List (Bytes × Reader)} {before : List (Bytes × Bytes)}, AddsOk before files →
    ∀ f ∈ indexedOf files, (0 : UInt8) ∉ f.1
  | [], _, _, f, hf => by simp [indexedOf] at hf
  | g :: gs, before, h, f, hf => by
    rw [indexedOf_cons, List.mem_append] at hf
    rcases hf with hf | hf
    · unfold indexedOf at hf
      simp only [List.filterMap_cons, List.filterMap_nil] at hf
      split at hf
      · simp at hf
      · rename_i x hx
        split at hx
        · rename_i hc
          injection hx with hx
          subst hx
          rw [List.mem_singleton] at hf
          subst hf
          exact (h.1 hc).1
        · simp at hx
    · exact addsOk_names h.2 f hf

theorem verdict_none_utf8 {w : Bytes} (h : verdict w = none) : looksUtf8 0 w = true := by
  unfold verdict at h
  split at h
  · simp at h
  · rename_i hu
    split at h
    · simp at h
    · rename_i hl
      rw [List.take_of_length_le (by omega)] at hu
      simpa using hu

theorem mem_indexedOf {files : List (Bytes × Reader)} {f : Bytes × Bytes} :
    f ∈ indexedOf files ↔ ∃ r, (f.1, r) ∈ files ∧ r.Ok ∧ verdict r.content = none ∧ r.content = f.2 := by
  unfold indexedOf
  rw [List.mem_filterMap]
  constructor
  · rintro ⟨g, hg, hx⟩
    split at hx
    · rename_i hc
      injection hx with hx
      subst hx
      exact ⟨g.2, hg, hc.1, hc.2, rfl⟩
    · simp at hx
  · rintro ⟨r, hm, h1, h2, h3⟩
    refine ⟨(f.1, r), hm, ?_⟩
    rw [if_pos ⟨h1, h2⟩, h3]

theorem indexedOf_tri {files : List (Bytes × Reader)} :
    ∀ f ∈ indexedOf files, ∀ t ∈ trigramsOf f.2, t < 2 ^ 24 - 1 := by
  intro f hf
  obtain ⟨r, _, _, h2, h3⟩ := mem_indexedOf.1 hf
  rw [← h3]
  exact trigram_bound (verdict_none_utf8 h2)

end Hound

namespace Hound
open Spec

/-- The files that were indexed, as the answers tell. -/
theorem indexedFiles_eq (files : List (Bytes × Reader)) :
    indexedFiles files (files.map (fun f => addAnswer f.2)) = indexedOf files := by
  unfold indexedFiles indexedOf
  rw [List.zip_map_right, List.filterMap_map]
  induction files with
  | nil => rfl
  | cons f fs ih =>
    rw [List.zip_cons_cons, List.filterMap_cons, List.filterMap_cons, ih]
    have : ((fun p : (Bytes × Reader) × Option SkipReason =>
          if p.1.2.Ok ∧ p.2 = none then some (p.1.1, p.1.2.content) else none) ∘
        Prod.map id (fun f : Bytes × Reader => addAnswer f.2)) (f, f) =
        if f.2.Ok ∧ verdict f.2.content = none then some (f.1, f.2.content) else none := by
      simp only [Function.comp, Prod.map, id]
      by_cases h : f.2.Ok
      · unfold addAnswer
        simp only [h, if_true, true_and]
      · simp [h]
    rw [this]

/-! ## How large the file gets -/

theorem firsts_length_le : ∀ l : List Nat, (firsts l).length ≤ l.length
  | [] => Nat.le_refl _
  | x :: l => by
    rw [firsts, List.length_cons, List.length_cons]
    have := List.length_filter_le (· ≠ x) (firsts l)
    have := firsts_length_le l
    omega

theorem blocks3_length_le : ∀ w : Bytes, (blocks3 w).length ≤ w.length
  | [] => Nat.le_refl _
  | [_] => by simp [blocks3]
  | [_, _] => by simp [blocks3]
  | a :: b :: c :: w => by
    rw [blocks3, List.length_cons, List.length_cons]
    have := blocks3_length_le (b :: c :: w)
    omega

theorem entriesFrom_length_le : ∀ (files : List (Bytes × Bytes)) (k : Nat),
    (entriesFrom k files).length ≤ (files.map (fun f => f.2.length)).sum
  | [], _ => Nat.le_refl _
  | f :: fs, k => by
    rw [entriesFrom, List.length_append, List.length_map, List.map_cons, List.sum_cons]
    have h1 := firsts_length_le (blocks3 f.2)
    have h2 := blocks3_length_le f.2
    have h3 := entriesFrom_length_le fs (k + 1)
    unfold trigramsOf
    omega

theorem putUvarint_length_le (x : Nat) : (putUvarint x).length ≤ 5 := by
  unfold putUvarint
  split
  · simp
  · split
    · simp
    · split
      · simp
      · split <;> simp

theorem deltas_length_le : ∀ (ids : List Nat) (prev : Nat), (deltas prev ids).length ≤ 5 * ids.length
  | [], _ => by simp [deltas]
  | i :: ids, prev => by
    rw [deltas, List.length_append, List.length_cons]
    have := putUvarint_length_le ((i + 2 ^ 32 - prev) % 2 ^ 32)
    have := deltas_length_le ids i
    omega

theorem groups_length_le : ∀ (gs : List (Nat × List Nat)), (∀ g ∈ gs, g.2 ≠ []) →
    (groupsBytes gs).length + 11 * gs.length ≤ 20 * (groupsEntries gs).length
  | [], _ => by simp [groupsBytes]
  | g :: gs, h => by
    have ih := groups_length_le gs (fun x hx => h x (by simp [hx]))
    have h0 : g.2.length ≠ 0 := by
      intro h0
      exact h g (by simp) (List.length_eq_zero_iff.1 h0)
    have hb : (groupBytes g).length ≤ 4 + 5 * g.2.length := by
      unfold groupBytes
      rw [List.length_append, List.length_append, putTrigram_length, RIndex.putUvarint_zero, List.length_singleton]
      have := deltas_length_le g.2 (2 ^ 32 - 1)
      omega
    have e1 : (groupsBytes (g :: gs)).length = (groupBytes g).length + (groupsBytes gs).length := by
      unfold groupsBytes; rw [List.flatMap_cons, List.length_append]
    have e2 : (groupsEntries (g :: gs)).length = g.2.length + (groupsEntries gs).length := by
      unfold groupsEntries; rw [List.flatMap_cons, List.length_append, List.length_map]
    rw [e1, e2, List.length_cons]
    omega

theorem namesData_length : ∀ ns : List Bytes, (namesData ns).length = (ns.map (fun n => n.length + 1)).sum
  | [] => rfl
  | n :: ns => by
    have := namesData_length ns
    unfold namesData at *
    rw [List.flatMap_cons, List.length_append, this, List.map_cons, List.sum_cons, List.length_append,
      List.length_singleton]

/-- A bound for the size of an index file. -/
def sizeBound (paths : List Bytes) (files : List (Bytes × Bytes)) : Nat :=
  (paths.map (fun p => p.length + 1)).sum + (files.map (fun f => f.1.length + 5 + 20 * f.2.length)).sum + 73

theorem bytes_length_le {paths : List Bytes} {files : List (Bytes × Bytes)} (hn : files.length < 2 ^ 32)
    (ht : ∀ f ∈ files, ∀ t ∈ trigramsOf f.2, t < 2 ^ 24 - 1) :
    (sectionsOf paths files).bytes.length ≤ sizeBound paths files := by
  have hlb := (sectionsOf paths files).length_bytes
  have hok := groupsOk (files := files) hn
  have h1 := groups_length_le (groupsOf files) hok.ne
  have h2 := (groupsEntries_perm hn ht).length_eq
  have h3 := entriesFrom_length_le files 0
  have l1 : (sectionsOf paths files).paths.length = (paths.map (fun p => p.length + 1)).sum + 1 := by
    simp only [sectionsOf]
    rw [List.length_append, List.length_singleton]
    exact congrArg (· + 1) (namesData_length paths)
  have l2 : (sectionsOf paths files).names.length = (files.map (fun f => f.1.length + 1)).sum + 1 := by
    simp only [sectionsOf]
    rw [namesData_length, List.map_append, List.sum_append, List.map_map]
    rfl
  have l3 : (sectionsOf paths files).lists.length = (groupsBytes (groupsOf files)).length + 4 := by
    simp only [sectionsOf]
    rw [List.length_append, endBytes_length]
  have l4 := RIndex.sectionsOf_nameIndex_length paths files
  have l5 : (sectionsOf paths files).postIndex.length = 11 * ((groupsOf files).length + 1) := by
    simp only [sectionsOf]
    exact RIndex.indexEntries_length _ _
  have hsum : (files.map (fun f => f.1.length + 5 + 20 * f.2.length)).sum =
      (files.map (fun f => f.1.length + 1)).sum + 4 * files.length + 20 * (files.map (fun f => f.2.length)).sum := by
    clear hlb hok h1 h2 h3 l1 l2 l3 l4 l5 hn ht
    induction files with
    | nil => rfl
    | cons f fs ih =>
      simp only [List.map_cons, List.sum_cons, List.length_cons, ih]
      omega
  have hm : Sections.o0 = 16 := rfl
  unfold sizeBound
  rw [hlb]
  unfold Sections.o5 Sections.o4 Sections.o3 Sections.o2 Sections.o1
  omega

theorem addsOk_of {files : List (Bytes × Reader)} : ∀ {before : List (Bytes × Bytes)},
    (∀ f ∈ files, (0 : UInt8) ∉ f.1) →
    (namesData (before.map (·.1))).length + (files.map (fun f => f.1.length + 1)).sum < 2 ^ 32 →
    AddsOk before files := by
  induction files with
  | nil => intro _ _ _; exact trivial
  | cons f fs ih =>
    intro before h1 h2
    simp only [List.map_cons, List.sum_cons] at h2
    refine ⟨fun _ => ⟨h1 f (by simp), by omega⟩, ih (fun x hx => h1 x (by simp [hx])) ?_⟩
    rw [List.map_append, RIndex.namesData_append, List.length_append]
    have : (namesData ((indexedOf [f]).map (·.1))).length ≤ f.1.length + 1 := by
      by_cases hc : f.2.Ok ∧ verdict f.2.content = none
      · have hi : indexedOf [f] = [(f.1, f.2.content)] := by
          unfold indexedOf; simp only [List.filterMap_cons, List.filterMap_nil, if_pos hc]
        rw [hi]
        simp [namesData]
      · have hi : indexedOf [f] = [] := by
          unfold indexedOf; simp only [List.filterMap_cons, List.filterMap_nil, if_neg hc]
        rw [hi]
        simp [namesData]
    omega

/-- **Small inputs never make the writer abort.** -/
theorem buildIndex_succeeds {cfg : IWConfig} (hc : 0 < cfg.npost) {paths : List Bytes} {files : List (Bytes × Reader)}
    (h1 : ∀ f ∈ files, (0 : UInt8) ∉ f.1)
    (h2 : (paths.map (fun p => p.length + 1)).sum +
      (files.map (fun f => f.1.length + 5 + 20 * f.2.content.length)).sum + 73 < 2 ^ 32) :
    ∃ ress data, buildIndex cfg paths files = some (ress, data) := by
  have hle : ∀ fs : List (Bytes × Reader), ((indexedOf fs).map (fun f => f.1.length + 5 + 20 * f.2.length)).sum ≤
      (fs.map (fun f => f.1.length + 5 + 20 * f.2.content.length)).sum := by
    intro fs
    induction fs with
    | nil => exact Nat.le_refl _
    | cons f fs ih =>
      rw [indexedOf_cons, List.map_append, List.sum_append, List.map_cons, List.sum_cons]
      have : ((indexedOf [f]).map (fun f => f.1.length + 5 + 20 * f.2.length)).sum ≤
          f.1.length + 5 + 20 * f.2.content.length := by
        by_cases hc : f.2.Ok ∧ verdict f.2.content = none
        · have hi : indexedOf [f] = [(f.1, f.2.content)] := by
            unfold indexedOf; simp only [List.filterMap_cons, List.filterMap_nil, if_pos hc]
          rw [hi]; simp
        · have hi : indexedOf [f] = [] := by
            unfold indexedOf; simp only [List.filterMap_cons, List.filterMap_nil, if_neg hc]
          rw [hi]; simp
      omega
  have hle1 := hle files
  have hn5 : ∀ fs : List (Bytes × Bytes), 5 * fs.length ≤ (fs.map (fun f => f.1.length + 5 + 20 * f.2.length)).sum := by
    intro fs
    induction fs with
    | nil => exact Nat.le_refl _
    | cons f fs ih => simp only [List.length_cons, List.map_cons, List.sum_cons]; omega
  have hn5' := hn5 (indexedOf files)
  have hnames : ∀ fs : List (Bytes × Reader), (fs.map (fun f => f.1.length + 1)).sum ≤
      (fs.map (fun f => f.1.length + 5 + 20 * f.2.content.length)).sum := by
    intro fs
    induction fs with
    | nil => exact Nat.le_refl _
    | cons f fs ih => simp only [List.map_cons, List.sum_cons]; omega
  have hnames' := hnames files
  have hb := bytes_length_le (paths := paths) (files := indexedOf files) (by omega) indexedOf_tri
  unfold sizeBound at hb
  refine ⟨_, _, (buildIndex_spec hc paths files).1 ⟨addsOk_of h1 (by simpa [namesData] using by omega), by omega, by omega⟩⟩

end Hound
