import Verif.Spec.FileByFile
import Verif.Props.Complete
import Verif.Props.FileFilter
import Verif.Props.Walk
import Verif.Proofs.MatcherEnc

/-!
# C93: what a search finds in a file depends on that file alone

`indexedFiles files answers` is the list of the files an index was built from, with their contents, without those
left out (C11).
-/

namespace Hound
open Spec

section
variable {compile : Bytes → Option (Compiled Query)} {quoteMeta : Bytes → Bytes}
  {ix1 ix2 ix : IndexView Query} {files1 files2 files : List (Bytes × Reader)}
  {answers1 answers2 answers : List (Option SkipReason)} {pat : Bytes} {opt : SearchOptions}
  {r r1 r2 : SearchResponse}

/-- The candidates of a query in order, and what is read of each file. -/
theorem serves_exact (h : ServesFiles ix files answers) {q : Query} (h3 : ThreeByte q) (hne : NoEmptyAnd q) :
    (ix.postingQuery q).Pairwise (· < ·) ∧
    (∀ i, i ∈ ix.postingQuery q ↔
      ∃ f, (indexedFiles files answers)[i]? = some f ∧ Sat (HasTrigram f.2) q) ∧
    ∀ (i : Nat) (f : Bytes × Bytes), (indexedFiles files answers)[i]? = some f →
      ix.name i = f.1 ∧ ix.raw f.1 = some f.2 := by
  obtain ⟨cfg, paths, data, rix, hc, hb, ho, hpq, hnm, hraw⟩ := h
  obtain ⟨l, hl, hsort, hmem⟩ := postingQuery_partial hc hb ho h3 hne
  obtain ⟨rix', ho', _, hnames, _⟩ := index_names hc hb
  rw [ho] at ho'
  cases ho'
  have hpl : ix.postingQuery q = l := by rw [hpq, hl]; rfl
  refine ⟨by rw [hpl]; exact hsort, ?_, ?_⟩
  · intro i
    rw [hpl, hmem i]
    constructor
    · rintro ⟨n, c, h1, h2⟩; exact ⟨(n, c), h1, h2⟩
    · rintro ⟨f, h1, h2⟩; exact ⟨f.1, f.2, h1, h2⟩
  · intro i f hi
    refine ⟨?_, hraw _ (List.mem_of_getElem? hi)⟩
    rw [hnm, hnames i f.1 f.2 hi]; rfl

theorem searchLoop_congr {re : Compiled Query} {fre ex : Option (Compiled Query)} (l : List Nat) (st : SearchState)
    (hg : ix1.autoGeneratedFiles = ix2.autoGeneratedFiles)
    (h : ∀ i ∈ l, ix1.name i = ix2.name i ∧ ix1.raw (ix1.name i) = ix2.raw (ix2.name i)) :
    searchLoop opt re fre ex ix1 l st = searchLoop opt re fre ex ix2 l st := by
  induction l generalizing st with
  | nil => rfl
  | cons i l ih =>
    obtain ⟨h1, h2⟩ := h i (by simp)
    have hf : searchFile opt re fre ex ix1 st i = searchFile opt re fre ex ix2 st i := by
      have h2' : ix1.raw (ix2.name i) = ix2.raw (ix2.name i) := by rw [← h1, h2, h1]
      simp only [searchFile, h1, h2', hg]
    simp only [searchLoop, hf, fun st => ih st (fun j hj => h j (by simp [hj]))]

open Classical in
/-- The part of the answer that comes from one file. -/
noncomputable def ofFile (ctx : Nat) (re : Compiled Query) (fre ex : Option (Compiled Query)) (auto : List Bytes)
    (f : Bytes × Bytes) : Option FileMatch :=
  if Sat (HasTrigram f.2) re.query then
    if nameRejected fre ex f.1 then none
    else if grepAll re.mt ctx f.2 = [] then none
    else some ⟨f.1, grepAll re.mt ctx f.2, containsString auto f.1⟩
  else none

theorem filterMap_range {α β : Type} (h : α → Option β) (l : List α) :
    (List.range l.length).filterMap (fun i => l[i]?.bind h) = l.filterMap h := by
  induction l with
  | nil => rfl
  | cons a l ih =>
    rw [List.length_cons, List.range_succ_eq_map, List.filterMap_cons, List.filterMap_map, List.filterMap_cons]
    have : ((fun i => (a :: l)[i]?.bind h) ∘ Nat.succ) = fun i => l[i]?.bind h := by
      funext i; simp
    rw [this, ih]
    simp

open Classical in
theorem fileHits_eq (hix : ServesFiles ix files answers) {re : Compiled Query} (h3 : ThreeByte re.query)
    (hne : NoEmptyAnd re.query) (ctx : Nat) (fre ex : Option (Compiled Query)) :
    fileHits ctx re fre ex ix (ix.postingQuery re.query) =
      (indexedFiles files answers).filterMap (ofFile ctx re fre ex ix.autoGeneratedFiles) := by
  obtain ⟨hs, hm, hf⟩ := serves_exact hix h3 hne
  have hl : ix.postingQuery re.query = (List.range (indexedFiles files answers).length).filter
      (fun i => decide (∃ f, (indexedFiles files answers)[i]? = some f ∧ Sat (HasTrigram f.2) re.query)) := by
    refine sorted_ext hs (List.pairwise_lt_range.filter _) ?_
    intro i
    rw [hm i, List.mem_filter, List.mem_range, decide_eq_true_iff]
    constructor
    · rintro ⟨f, h1, h2⟩
      exact ⟨(List.getElem?_eq_some_iff.1 h1).1, f, h1, h2⟩
    · exact fun h => h.2
  rw [← filterMap_range, hl]
  unfold fileHits
  rw [List.filterMap_filter]
  apply filterMap_congr'
  intro i hi
  rw [List.mem_range] at hi
  obtain ⟨f, hfi⟩ : ∃ f, (indexedFiles files answers)[i]? = some f := ⟨_, List.getElem?_eq_getElem hi⟩
  obtain ⟨hn, hr⟩ := hf i f hfi
  rw [hfi, hn, hr]
  simp only [Option.bind_some, ofFile, Option.some.injEq, decide_eq_true_iff]
  by_cases hsat : Sat (HasTrigram f.2) re.query
  · rw [if_pos ⟨f, rfl, hsat⟩, if_pos hsat]
  · rw [if_neg (by rintro ⟨g, rfl, h⟩; exact hsat h), if_neg hsat]

theorem queries_ok (hq : QueriesOfPatterns compile) {re : Compiled Query} (h : compile pat = some re) :
    ThreeByte re.query ∧ NoEmptyAnd re.query := by
  obtain ⟨grow, orbit, t, h⟩ := hq _ _ h
  rw [h]
  exact ⟨regexpQuery_threeByte, regexpQuery_noEmptyAnd⟩

theorem serves_readable (hix : ServesFiles ix files answers) {re : Compiled Query} (h3 : ThreeByte re.query)
    (hne : NoEmptyAnd re.query) (fre ex : Option (Compiled Query)) :
    Readable fre ex ix (ix.postingQuery re.query) := by
  intro i hi _
  obtain ⟨f, _, _, hr⟩ := (serves_candidates hix h3 hne).1 i hi
  rw [hr]; rfl

/-- The whole answer, file by file. -/
theorem whole_search (hq : QueriesOfPatterns compile) (hix : ServesFiles ix files answers) (ho : Whole opt)
    (h : search compile quoteMeta ix pat opt = .ok r) :
    ∃ re fre ex, compile (fullPattern quoteMeta pat opt) = some re ∧ compileOpt compile opt.fileRegexp = .ok fre ∧
      compileOpt compile opt.excludeFileRegexp = .ok ex ∧
      r.matches_ = (indexedFiles files answers).filterMap
        (ofFile opt.linesOfContext re fre ex ix.autoGeneratedFiles) ∧
      r.filesWithMatch = r.matches_.length := by
  obtain ⟨re, fre, ex, st, h1, h2, h3, h4, rfl⟩ := search_unfold h
  obtain ⟨h5, h6⟩ := queries_ok hq h1
  obtain ⟨st', h7, h8, h9⟩ := searchLoop_uncapped opt re fre ex ix (by have := ho.maxResults; omega) _ {}
    (serves_readable hix h5 h6 fre ex)
  rw [h4] at h7
  cases h7
  have e1 : opt.offset.toNat = 0 := by have := ho.offset; omega
  have e2 : ¬ opt.limit > 0 := by have := ho.limit; omega
  have hres : st.results = fileHits opt.linesOfContext re fre ex ix (ix.postingQuery re.query) := by
    rw [h8]; simp [restPage, e1, e2]
  refine ⟨re, fre, ex, h1, h2, h3, ?_, ?_⟩
  · rw [← fileHits_eq hix h5 h6]; exact hres
  · simpa [hres] using h9

/-- **C93**: two indexes of the same files, whatever they were built from and in whatever way they are laid out, give
the same answer to every search, with all its numbers, pages and limits, or the same error. -/
theorem same_files_same_answer (hq : QueriesOfPatterns compile) (h1 : ServesFiles ix1 files1 answers1)
    (h2 : ServesFiles ix2 files2 answers2) (hsame : indexedFiles files1 answers1 = indexedFiles files2 answers2)
    (hauto : ix1.autoGeneratedFiles = ix2.autoGeneratedFiles) (hrev : ix1.rev = ix2.rev) (pat : Bytes)
    (opt : SearchOptions) :
    search compile quoteMeta ix1 pat opt = search compile quoteMeta ix2 pat opt := by
  simp only [search]
  split
  · rfl
  · rename_i re hre
    obtain ⟨h3, hne⟩ := queries_ok hq hre
    obtain ⟨s1, m1, f1⟩ := serves_exact h1 h3 hne
    obtain ⟨s2, m2, f2⟩ := serves_exact h2 h3 hne
    have hl : ix1.postingQuery re.query = ix2.postingQuery re.query :=
      sorted_ext s1 s2 (fun i => by rw [m1 i, m2 i, hsame])
    split
    · rfl
    · split
      · rfl
      · rw [hl, hrev, searchLoop_congr (ix1 := ix1) (ix2 := ix2) _ _ hauto]
        intro i hi
        obtain ⟨f, hf, _⟩ := (m2 i).1 hi
        obtain ⟨e1, e2⟩ := f2 i f hf
        rw [← hsame] at hf
        obtain ⟨e3, e4⟩ := f1 i f hf
        rw [e1, e3, e2, e4]
        exact ⟨rfl, rfl⟩

/-- A search is refused in one index if it is in another: for a bad pattern. -/
theorem refused_alike (hq : QueriesOfPatterns compile) (h1 : ServesFiles ix1 files1 answers1)
    (h2 : ServesFiles ix2 files2 answers2) {e : SearchErr} (ho : Whole opt)
    (h : search compile quoteMeta ix1 pat opt = .error e) : search compile quoteMeta ix2 pat opt = .error e := by
  simp only [search] at h ⊢
  split
  · rename_i hn
    simpa only [hn] using h
  · rename_i re hre
    simp only [hre] at h
    obtain ⟨h3, hne⟩ := queries_ok hq hre
    split
    · rename_i hn
      simpa only [hn] using h
    · rename_i fre hfre
      simp only [hfre] at h
      split
      · rename_i hn
        simpa only [hn] using h
      · rename_i ex hex
        simp only [hex] at h
        obtain ⟨st, hst, _⟩ := searchLoop_uncapped opt re fre ex ix1 (by have := ho.maxResults; omega) _ {}
          (serves_readable h1 h3 hne fre ex)
        simp [hst] at h

theorem ofFile_name {ctx : Nat} {re : Compiled Query} {fre ex : Option (Compiled Query)} {auto : List Bytes}
    {f : Bytes × Bytes} {fm : FileMatch} (h : ofFile ctx re fre ex auto f = some fm) : fm.filename = f.1 := by
  unfold ofFile at h
  split at h
  · split at h
    · cases h
    · split at h
      · cases h
      · cases h; rfl
  · cases h

theorem ofFile_auto {ctx : Nat} {re : Compiled Query} {fre ex : Option (Compiled Query)} {auto auto' : List Bytes}
    {f : Bytes × Bytes} (h : containsString auto f.1 = containsString auto' f.1) :
    ofFile ctx re fre ex auto f = ofFile ctx re fre ex auto' f := by
  unfold ofFile
  rw [h]

/-- **C93**: what a search answers about a name is the same in two indexes that agree on the files with that name,
whatever other files there are. -/
theorem answer_about_file (hq : QueriesOfPatterns compile) (h1 : ServesFiles ix1 files1 answers1)
    (h2 : ServesFiles ix2 files2 answers2) (ho : Whole opt) {name : Bytes}
    (hsame : (indexedFiles files1 answers1).filter (fun f => f.1 == name) =
      (indexedFiles files2 answers2).filter (fun f => f.1 == name))
    (hauto : containsString ix1.autoGeneratedFiles name = containsString ix2.autoGeneratedFiles name)
    (hr1 : search compile quoteMeta ix1 pat opt = .ok r1) (hr2 : search compile quoteMeta ix2 pat opt = .ok r2) :
    AnswerAbout r1 name = AnswerAbout r2 name := by
  obtain ⟨re, fre, ex, a1, a2, a3, a4, _⟩ := whole_search hq h1 ho hr1
  obtain ⟨re', fre', ex', b1, b2, b3, b4, _⟩ := whole_search hq h2 ho hr2
  rw [a1] at b1; cases b1
  rw [a2] at b2; cases b2
  rw [a3] at b3; cases b3
  have key : ∀ (auto : List Bytes) (l : List (Bytes × Bytes)),
      (l.filterMap (ofFile opt.linesOfContext re fre ex auto)).filter (fun fm => fm.filename == name) =
        (l.filter (fun f => f.1 == name)).filterMap (ofFile opt.linesOfContext re fre ex auto) := by
    intro auto l
    induction l with
    | nil => rfl
    | cons f l ih =>
      rw [List.filterMap_cons, List.filter_cons]
      cases hof : ofFile opt.linesOfContext re fre ex auto f with
      | none =>
        simp only
        rw [ih]
        split
        · rw [List.filterMap_cons, hof]
        · rfl
      | some fm =>
        simp only
        rw [List.filter_cons, ofFile_name hof, ih]
        split
        · rw [List.filterMap_cons, hof]
        · rfl
  unfold AnswerAbout
  rw [a4, b4, key, key, hsame]
  apply filterMap_congr'
  intro f hf
  have : f.1 = name := by simpa using (List.mem_filter.1 hf).2
  exact ofFile_auto (by rw [this]; exact hauto)

/-- **C93**: the files of the answer come in the order of the files of the index, each at most once per file, and are
counted. -/
theorem answer_in_order (hq : QueriesOfPatterns compile) (hix : ServesFiles ix files answers) (ho : Whole opt)
    (h : search compile quoteMeta ix pat opt = .ok r) :
    (r.matches_.map FileMatch.filename).Sublist ((indexedFiles files answers).map Prod.fst) ∧
      r.filesWithMatch = r.matches_.length := by
  obtain ⟨re, fre, ex, _, _, _, h4, h5⟩ := whole_search hq hix ho h
  refine ⟨?_, h5⟩
  rw [h4]
  generalize indexedFiles files answers = l
  induction l with
  | nil => exact .slnil
  | cons f l ih =>
    rw [List.filterMap_cons, List.map_cons]
    cases hof : ofFile opt.linesOfContext re fre ex ix.autoGeneratedFiles f with
    | none => exact ih.cons _
    | some fm => rw [List.map_cons, ofFile_name hof]; exact ih.cons_cons _

/-- **C93**: more files, wherever they come in the order, add to the answer and take nothing away. -/
theorem more_files_more_answer (hq : QueriesOfPatterns compile) (h1 : ServesFiles ix1 files1 answers1)
    (h2 : ServesFiles ix2 files2 answers2) (ho : Whole opt)
    (hsub : (indexedFiles files1 answers1).Sublist (indexedFiles files2 answers2))
    (hauto : ∀ f ∈ indexedFiles files1 answers1,
      containsString ix1.autoGeneratedFiles f.1 = containsString ix2.autoGeneratedFiles f.1)
    (hr1 : search compile quoteMeta ix1 pat opt = .ok r1) (hr2 : search compile quoteMeta ix2 pat opt = .ok r2) :
    r1.matches_.Sublist r2.matches_ := by
  obtain ⟨re, fre, ex, a1, a2, a3, a4, _⟩ := whole_search hq h1 ho hr1
  obtain ⟨re', fre', ex', b1, b2, b3, b4, _⟩ := whole_search hq h2 ho hr2
  rw [a1] at b1; cases b1
  rw [a2] at b2; cases b2
  rw [a3] at b3; cases b3
  rw [a4, b4, filterMap_congr' (fun f hf => ofFile_auto (hauto f hf))]
  exact hsub.filterMap _

theorem answer_about_member (hq : QueriesOfPatterns compile) (h1 : ServesFiles ix1 files1 answers1)
    (h2 : ServesFiles ix2 files2 answers2) (ho : Whole opt) {name : Bytes}
    (hsame : ∀ content, (name, content) ∈ indexedFiles files1 answers1 → (name, content) ∈ indexedFiles files2 answers2)
    (hauto : containsString ix1.autoGeneratedFiles name = containsString ix2.autoGeneratedFiles name)
    (hr1 : search compile quoteMeta ix1 pat opt = .ok r1) (hr2 : search compile quoteMeta ix2 pat opt = .ok r2)
    {fm : FileMatch} (hn : fm.filename = name) (hm : fm ∈ r1.matches_) : fm ∈ r2.matches_ := by
  obtain ⟨re, fre, ex, a1, a2, a3, a4, _⟩ := whole_search hq h1 ho hr1
  obtain ⟨re', fre', ex', b1, b2, b3, b4, _⟩ := whole_search hq h2 ho hr2
  rw [a1] at b1; cases b1
  rw [a2] at b2; cases b2
  rw [a3] at b3; cases b3
  rw [a4] at hm
  rw [b4]
  obtain ⟨f, hf, hof⟩ := List.mem_filterMap.1 hm
  have hfn : f.1 = name := by rw [← hn, ofFile_name hof]
  refine List.mem_filterMap.2 ⟨f, ?_, ?_⟩
  · have : f = (name, f.2) := by rw [← hfn]
    rw [this] at hf ⊢
    exact hsame _ hf
  · rw [← hof]
    exact ofFile_auto (by rw [hfn]; exact hauto.symm)

end

section
variable {cfg cfg' : IWConfig} {opt : IndexOptions} {top top' : Bytes} {root root' : FsNode} {d d' : BuiltDir}
  {path : List Bytes} {name : Bytes} {r : Reader}

/-- Whether a file of a tree is indexed depends on the file and its name. -/
theorem searchable_by_file (hc : 0 < cfg.npost) (hn : WellNamed root) (h : indexAllFiles cfg opt top root = .ok d)
    (hu : Under opt (· = true) top root path name (.file true r)) :
    Searchable d (relPath path) ↔
      (¬ LeftOut opt name ∧ isTextFile r = some true ∧ r.Ok ∧ addAnswer r = none) := by
  obtain ⟨ls, hls, hb, _, _, hfine⟩ := indexAllFiles_ok hc hn h
  rw [searchable_iff hc hb]
  constructor
  · rintro ⟨c, hm⟩
    obtain ⟨l, hl, r', ha, hok, hans, _⟩ := mem_indexed.1 hm
    simp only [addOf] at ha
    split at ha
    · cases ha
    · rename_i hlo
      split at ha
      · rename_i o r'' hm'
        split at ha
        · rename_i ht
          simp only [Option.some.injEq, Prod.mk.injEq] at ha
          obtain ⟨e1, rfl⟩ := ha
          have hu' := ((hls l).1 hl).1
          obtain ⟨e2, e3⟩ := under_rel hn hu' hu e1
          rw [hm'] at e3
          cases e3
          exact ⟨e2 ▸ hlo, ht, hok, hans⟩
        · cases ha
      · cases ha
  · rintro ⟨hlo, ht, hok, hans⟩
    refine ⟨r.content, mem_indexed.2 ⟨(path, name, .file true r), (hls _).2 ⟨hu, rfl⟩, r, ?_, hok, hans, rfl⟩⟩
    simp [addOf, hlo, ht]

/-- **C93**, from the directory trees: a file that is in two trees under the same path, with the same content, is
answered for alike, whatever else is in the trees. -/
theorem tree_answer_about_file (hc : 0 < cfg.npost) (hc' : 0 < cfg'.npost) (hn : WellNamed root) (hn' : WellNamed root')
    (h : indexAllFiles cfg opt top root = .ok d) (h' : indexAllFiles cfg' opt top' root' = .ok d')
    {ix ix' : IndexView Query} (hix : ServesDir ix d) (hix' : ServesDir ix' d')
    (hu : Under opt (· = true) top root path name (.file true r))
    (hu' : Under opt (· = true) top' root' path name (.file true r))
    {compile : Bytes → Option (Compiled Query)} {quoteMeta : Bytes → Bytes} {pat : Bytes} {sopt : SearchOptions}
    (hq : QueriesOfPatterns compile) (ho : Whole sopt)
    (hauto : containsString ix.autoGeneratedFiles (relPath path) = containsString ix'.autoGeneratedFiles (relPath path))
    {res res' : SearchResponse} (hr : search compile quoteMeta ix pat sopt = .ok res)
    (hr' : search compile quoteMeta ix' pat sopt = .ok res') (fm : FileMatch) (hfm : fm.filename = relPath path) :
    fm ∈ res.matches_ ↔ fm ∈ res'.matches_ := by
  obtain ⟨files, answers, hs, hmem⟩ := tree_serves hc hn h hix
  obtain ⟨files', answers', hs', hmem'⟩ := tree_serves hc' hn' h' hix'
  have hboth : Searchable d (relPath path) ↔ Searchable d' (relPath path) := by
    rw [searchable_by_file hc hn h hu, searchable_by_file hc' hn' h' hu']
  constructor
  · refine answer_about_member hq hs hs' ho (fun c hm => ?_) hauto hr hr' hfm
    obtain ⟨h1, path', name', r', e, hu1, rfl⟩ := (hmem _ _).1 hm
    have := (under_rel hn hu1 hu e.symm).2
    simp only [FsNode.file.injEq, true_and] at this
    subst this
    exact (hmem' _ _).2 ⟨hboth.1 h1, path, name, r', rfl, hu', rfl⟩
  · refine answer_about_member hq hs' hs ho (fun c hm => ?_) hauto.symm hr' hr hfm
    obtain ⟨h1, path', name', r', e, hu1, rfl⟩ := (hmem' _ _).1 hm
    have := (under_rel hn' hu1 hu' e.symm).2
    simp only [FsNode.file.injEq, true_and] at this
    subst this
    exact (hmem _ _).2 ⟨hboth.2 h1, path, name, r', rfl, hu, rfl⟩

end

/-! ## A case in which everything is met -/

/-- An index over two readable files. -/
theorem exists_serves_two (n1 c1 n2 c2 : Bytes) (h1 : (0 : UInt8) ∉ n1) (h2 : (0 : UInt8) ∉ n2) (hn : n1 ≠ n2)
    (a1 : addAnswer ⟨[c1], false⟩ = none) (a2 : addAnswer ⟨[c2], false⟩ = none) (e1 : c1 ≠ []) (e2 : c2 ≠ [])
    (hlen : n1.length + n2.length + 10 + 20 * (c1.length + c2.length) + 80 < 2 ^ 32) :
    ∃ ix answers, ServesFiles ix [(n1, ⟨[c1], false⟩), (n2, ⟨[c2], false⟩)] answers ∧
      indexedFiles [(n1, ⟨[c1], false⟩), (n2, ⟨[c2], false⟩)] answers = [(n1, c1), (n2, c2)] ∧
      ix.autoGeneratedFiles = [] := by
  obtain ⟨answers, data, hb⟩ := buildIndex_succeeds (cfg := goConfig) (by decide) (paths := [])
    (files := [(n1, ⟨[c1], false⟩), (n2, ⟨[c2], false⟩)]) (by simp [h1, h2])
    (by simp [Reader.content] at hlen ⊢; omega)
  obtain ⟨rix, ho, _⟩ := index_names (by decide) hb
  have hix : indexedFiles [(n1, ⟨[c1], false⟩), (n2, ⟨[c2], false⟩)] answers = [(n1, c1), (n2, c2)] := by
    obtain ⟨_, _, _, h4, _⟩ := buildIndex_some (by decide) hb
    subst h4
    simp [indexedFiles, a1, a2, Reader.Ok, Reader.content, e1, e2]
  refine ⟨⟨fun q => (rix.postingQuery q none).getD [], fun i => (rix.name i).getD [],
    fun n => if n = n1 then some c1 else some c2, [], []⟩, answers,
    ⟨goConfig, [], data, rix, by decide, hb, ho, fun _ => rfl, fun _ => rfl, ?_⟩, hix, rfl⟩
  intro f hf
  rw [hix] at hf
  simp only [List.mem_cons, List.not_mem_nil, or_false] at hf
  rcases hf with rfl | rfl
  · simp
  · simp [hn.symm]

open GoRe in
/-- The pattern of `exLine` in `a.go`, alone and beside `b.go`. -/
example : ∃ (compile : Bytes → Option (Compiled Query)) (ix ix' : IndexView Query) (answers answers' : List (Option SkipReason))
    (r r' : SearchResponse), QueriesOfPatterns compile ∧
    ServesFiles ix [(b!"a.go", ⟨[b!"ad\nwAqbb\n"], false⟩)] answers ∧
    ServesFiles ix' [(b!"b.go", ⟨[b!"wAqbb"], false⟩), (b!"a.go", ⟨[b!"ad\nwAqbb\n"], false⟩)] answers' ∧
    search compile id ix exLine.text {} = .ok r ∧ search compile id ix' exLine.text {} = .ok r' ∧
    AnswerAbout r b!"a.go" ≠ [] ∧ AnswerAbout r' b!"a.go" = AnswerAbout r b!"a.go" ∧
    r.matches_.Sublist r'.matches_ := by
  obtain ⟨c, hc⟩ := exLine_compiled
  obtain ⟨ix, answers, hix, hfiles⟩ := exists_serves b!"a.go" b!"ad\nwAqbb\n" (by decide) (by decide +kernel) (by decide) (by decide)
  obtain ⟨ix', answers', hix', hfiles', hauto'⟩ := exists_serves_two b!"b.go" b!"wAqbb" b!"a.go" b!"ad\nwAqbb\n" (by decide) (by decide) (by decide)
    (by decide +kernel) (by decide +kernel) (by decide) (by decide) (by decide)
  have hq : QueriesOfPatterns (fun _ => some c) := by
    intro pat c' h
    cases h
    exact ⟨_, _, _, hc.2⟩
  have hw : Whole {} := ⟨by decide, by decide, by decide⟩
  have hix0 : ServesFiles { ix with autoGeneratedFiles := [] } [(b!"a.go", ⟨[b!"ad\nwAqbb\n"], false⟩)] answers := hix
  obtain ⟨r, hr, fm, hfm, hname, _⟩ := search_complete_noBar_partial (T := exTables false) (uni := exUni) (grow := goGrow) (p := exLine) (opt := {}) (name := b!"a.go")
    (c := c) (compile := fun _ => some c) (quoteMeta := id) exOrbit_ascii exOrbit_cycles exOrbit_valid (exDescribes false) exLine_ok.1 exLine_ok.2.1 rfl exLine_ok.2.2.1
    exLine_ok.2.2.2.2 ⟨_, exLine_tree, hc⟩ hix0 rfl ⟨rfl, rfl, by decide, by decide, by decide⟩
    (content := b!"ad\nwAqbb\n") (s := 3) (e := 8) (by rw [hfiles]; simp)
    ⟨by decide, by decide, by decide, .inr (by decide), .inr (by decide)⟩ (by decide) exLine_within
  cases hr' : search (fun _ => some c) id ix' exLine.text {} with
  | error e => exact absurd (refused_alike hq hix' hix0 hw hr') (by rw [hr]; simp)
  | ok r' =>
    refine ⟨fun _ => some c, _, ix', answers, answers', r, r', hq, hix0, hix', hr, hr', ?_, ?_, ?_⟩
    · refine List.ne_nil_of_mem (List.mem_filter.2 ⟨hfm, ?_⟩)
      rw [hname]
      decide
    · refine answer_about_file hq hix' hix0 hw ?_ (by rw [hauto']) hr' hr
      rw [hfiles, hfiles']
      decide
    · refine more_files_more_answer hq hix0 hix' hw ?_ (fun f _ => by rw [hauto']) hr hr'
      rw [hfiles, hfiles']
      exact .cons _ (List.Sublist.refl _)

end Hound
