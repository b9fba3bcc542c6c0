import Verif.Proofs.Search
import Verif.Props.Grep
import Verif.Spec.Paging

/-!
# C02, C03, C05, C06, C07, C08: what one `Search` call returns

All theorems are about the model of `(*Index).Search` (`Hound.search`), for any pattern compiler,
any index and any pattern. "`search … = .ok r`" means the call returned `r` and no error.
-/

namespace Hound
open Spec

variable {Q : Type} {compile : Bytes → Option (Compiled Q)} {quoteMeta : Bytes → Bytes}
  {ix : IndexView Q} {pat : Bytes} {opt : SearchOptions} {r : SearchResponse}

theorem getRegexpPattern_eq (pat : Bytes) (opt : SearchOptions) :
    getRegexpPattern (if opt.literalSearch then quoteMeta pat else pat) opt.ignoreCase =
      fullPattern quoteMeta pat opt := by
  unfold getRegexpPattern fullPattern
  cases opt.ignoreCase <;> cases opt.literalSearch <;> rfl

theorem search_unfold (h : search compile quoteMeta ix pat opt = .ok r) :
    ∃ re fre excludeFre st,
      compile (fullPattern quoteMeta pat opt) = some re ∧
      compileOpt compile opt.fileRegexp = .ok fre ∧
      compileOpt compile opt.excludeFileRegexp = .ok excludeFre ∧
      searchLoop opt re fre excludeFre ix (ix.postingQuery re.query) {} = .ok st ∧
      r = ⟨st.results, st.filesFound, st.filesOpened, ix.rev⟩ := by
  unfold search at h
  simp only [getRegexpPattern_eq] at h
  split at h
  · simp at h
  · rename_i re hre
    split at h
    · simp at h
    · rename_i fre hfre
      split at h
      · simp at h
      · rename_i ex hex
        split at h
        · simp at h
        · rename_i st hst
          simp only [Except.ok.injEq] at h
          exact ⟨re, fre, ex, st, hre, hfre, hex, hst, h.symm⟩

theorem search_fold {re : Compiled Q} {fre excludeFre : Option (Compiled Q)} {st : SearchState}
    (h1 : compile (fullPattern quoteMeta pat opt) = some re)
    (h2 : compileOpt compile opt.fileRegexp = .ok fre)
    (h3 : compileOpt compile opt.excludeFileRegexp = .ok excludeFre)
    (h4 : searchLoop opt re fre excludeFre ix (ix.postingQuery re.query) {} = .ok st) :
    search compile quoteMeta ix pat opt = .ok ⟨st.results, st.filesFound, st.filesOpened, ix.rev⟩ := by
  unfold search
  simp only [getRegexpPattern_eq, h1, h2, h3, h4]

/-- All candidate files of the pattern can be read from the raw directory. -/
def CandidatesReadable (compile : Bytes → Option (Compiled Q)) (quoteMeta : Bytes → Bytes)
    (ix : IndexView Q) (pat : Bytes) (opt : SearchOptions) : Prop :=
  ∀ re, compile (fullPattern quoteMeta pat opt) = some re →
    ∀ f ∈ ix.postingQuery re.query, (ix.raw (ix.name f)).isSome

/-- **C02**. Every match returned by any search belongs to a candidate file of the index, and it
carries the number and the exact text of an existing line of that file's content, which the pattern
accepts (exception: the empty text after a final newline, reported as an extra line). The revision is
the revision of the index searched. -/
theorem search_sound_partial (h : search compile quoteMeta ix pat opt = .ok r) :
    r.revision = ix.rev ∧
    ∃ re, compile (fullPattern quoteMeta pat opt) = some re ∧
    ∀ fm ∈ r.matches_, ∃ f ∈ ix.postingQuery re.query, fm.filename = ix.name f ∧
      (fm.autoGenerated = true ↔ fm.filename ∈ ix.autoGeneratedFiles) ∧ fm.matches_ ≠ [] ∧
      ∃ buf, ix.raw fm.filename = some buf ∧
      ∀ acc, IsLineMatcher re.mt acc → ∀ m ∈ fm.matches_,
        1 ≤ m.lineno ∧
        ((lines buf)[m.lineno - 1]? = some m.line ∨
          (m.line = [] ∧ m.lineno = (lines buf).length + 1 ∧ buf.getLast? = some NL)) ∧
        ∃ bot eot, acc bot eot m.line = true := by
  obtain ⟨re, fre, ex, st, hre, _, _, hst, rfl⟩ := search_unfold h
  refine ⟨rfl, re, hre, ?_⟩
  intro fm hfm
  rcases searchLoop_sound _ _ _ _ _ _ _ _ hst fm hfm with h0 | ⟨f, hf, hn, _, hne, ha, buf, hb, hp⟩
  · simp at h0
  · refine ⟨f, hf, hn, ?_, hne, buf, hb, ?_⟩
    · rw [ha]
      generalize ix.autoGeneratedFiles = l
      induction l with
      | nil => simp [containsString]
      | cons x xs ih =>
        simp only [containsString, List.mem_cons]
        by_cases hx : x = fm.filename
        · simp [hx]
        · simp [hx, ih, Ne.symm hx]
    · intro acc hacc m hm
      exact grep_match_is_a_line_partial hacc opt.linesOfContext buf m (hp.subset hm)

/-- **C24**, for one call: the answer names the revision of the index that was searched, and every file in it is a file of
that index with the content that index keeps. -/
theorem search_revision (h : search compile quoteMeta ix pat opt = .ok r) :
    r.revision = ix.rev ∧ ∀ fm ∈ r.matches_, (∃ i, fm.filename = ix.name i) ∧ (ix.raw fm.filename).isSome = true := by
  obtain ⟨h1, re, _, h2⟩ := search_sound_partial h
  refine ⟨h1, fun fm hfm => ?_⟩
  obtain ⟨f, _, hn, _, _, buf, hb, _⟩ := h2 fm hfm
  exact ⟨⟨f, hn⟩, by rw [hb]; rfl⟩

/-- **C05**. Without a match cap, the files returned for an offset and a limit are exactly that page of
the full result (the same search with offset and limit zero). In particular consecutive pages
partition the full result. -/
theorem search_paging {r r0 : SearchResponse} (hM : opt.maxResults ≤ 0)
    (hread : CandidatesReadable compile quoteMeta ix pat opt)
    (h0 : search compile quoteMeta ix pat { opt with offset := 0, limit := 0 } = .ok r0)
    (h : search compile quoteMeta ix pat opt = .ok r) :
    r.matches_ = page opt.offset opt.limit r0.matches_ := by
  obtain ⟨re, fre, ex, st, hre, hfre, hex, hst, rfl⟩ := search_unfold h
  obtain ⟨re0, fre0, ex0, st0, hre0, hfre0, hex0, hst0, rfl⟩ := search_unfold h0
  simp only [fullPattern] at hre hre0
  rw [hre] at hre0; rw [hfre] at hfre0; rw [hex] at hex0
  obtain rfl := Option.some.inj hre0
  obtain rfl := Except.ok.inj hfre0
  obtain rfl := Except.ok.inj hex0
  have hr : Readable fre ex ix (ix.postingQuery re.query) := fun f hf _ => hread re hre f hf
  obtain ⟨s1, e1, f1, -⟩ := searchLoop_uncapped opt re fre ex ix (by omega) _ {} hr
  obtain ⟨s0, e0, f0, -⟩ := searchLoop_uncapped { opt with offset := 0, limit := 0 } re fre ex ix
    (by simp only; omega) _ {} hr
  rw [hst] at e1; rw [hst0] at e0
  obtain rfl := Except.ok.inj e1
  obtain rfl := Except.ok.inj e0
  simp only [f1, f0, restPage, page]
  simp

/-- **C05**, consequence: two consecutive pages of sizes `l` and `l'` are together the page of size
`l + l'`. -/
theorem pages_partition {α : Type} (o l l' : Nat) (hl : 0 < l) (hl' : 0 < l') (xs : List α) :
    page o l xs ++ page (o + l) l' xs = page o (l + l') xs := by
  unfold page
  rw [if_pos (by omega), if_pos (by omega), if_pos (by omega)]
  have e1 : ((o : Int) + l).toNat = o + l := by omega
  have e2 : ((l : Int) + l').toNat = l + l' := by omega
  rw [e1, e2]
  simp only [Int.toNat_natCast]
  rw [List.take_add, List.drop_drop]

/-- **C07**. Without a match cap the number of files with a match does not depend on offset and limit:
it is the number of files in the full result. -/
theorem search_filesWithMatch {r r0 : SearchResponse} (hM : opt.maxResults ≤ 0)
    (hread : CandidatesReadable compile quoteMeta ix pat opt)
    (h0 : search compile quoteMeta ix pat { opt with offset := 0, limit := 0 } = .ok r0)
    (h : search compile quoteMeta ix pat opt = .ok r) :
    r.filesWithMatch = r0.matches_.length ∧ r0.filesWithMatch = r0.matches_.length := by
  obtain ⟨re, fre, ex, st, hre, hfre, hex, hst, rfl⟩ := search_unfold h
  obtain ⟨re0, fre0, ex0, st0, hre0, hfre0, hex0, hst0, rfl⟩ := search_unfold h0
  simp only [fullPattern] at hre hre0
  rw [hre] at hre0; rw [hfre] at hfre0; rw [hex] at hex0
  obtain rfl := Option.some.inj hre0
  obtain rfl := Except.ok.inj hfre0
  obtain rfl := Except.ok.inj hex0
  have hr : Readable fre ex ix (ix.postingQuery re.query) := fun f hf _ => hread re hre f hf
  obtain ⟨s1, e1, -, g1⟩ := searchLoop_uncapped opt re fre ex ix (by omega) _ {} hr
  obtain ⟨s0, e0, f0, g0⟩ := searchLoop_uncapped { opt with offset := 0, limit := 0 } re fre ex ix
    (by simp only; omega) _ {} hr
  rw [hst] at e1; rw [hst0] at e0
  obtain rfl := Except.ok.inj e1
  obtain rfl := Except.ok.inj e0
  simp only [f0, g0, g1, restPage]
  simp

/-- All (file name, match) pairs of a result, in order. -/
def allMatches (fms : List FileMatch) : List (Bytes × LineMatch) :=
  fms.flatMap fun fm => fm.matches_.map fun m => (fm.filename, m)

/-- **C06**. With a match cap `M > 0` the returned matches are exactly the first `M` of the matches
returned without a cap (same page); in particular there are at most `M`. -/
theorem search_cap {r r0 : SearchResponse} (hM : opt.maxResults > 0)
    (hread : CandidatesReadable compile quoteMeta ix pat opt)
    (h0 : search compile quoteMeta ix pat { opt with maxResults := 0 } = .ok r0)
    (h : search compile quoteMeta ix pat opt = .ok r) :
    allMatches r.matches_ = (allMatches r0.matches_).take opt.maxResults.toNat ∧
    ((allMatches r.matches_).length : Int) ≤ opt.maxResults := by
  obtain ⟨re, fre, ex, st, hre, hfre, hex, hst, rfl⟩ := search_unfold h
  obtain ⟨re0, fre0, ex0, st0, hre0, hfre0, hex0, hst0, rfl⟩ := search_unfold h0
  simp only [fullPattern] at hre hre0
  rw [hre] at hre0; rw [hfre] at hfre0; rw [hex] at hex0
  obtain rfl := Option.some.inj hre0
  obtain rfl := Except.ok.inj hfre0
  obtain rfl := Except.ok.inj hex0
  have hr : Readable fre ex ix (ix.postingQuery re.query) := fun f hf _ => hread re hre f hf
  obtain ⟨s1, e1, f1⟩ := searchLoop_capped opt re fre ex ix hM _ {} hr
  obtain ⟨s0, e0, f0, -⟩ := searchLoop_uncapped { opt with maxResults := 0 } re fre ex ix
    (by simp) _ {} hr
  rw [hst] at e1; rw [hst0] at e0
  obtain rfl := Except.ok.inj e1
  obtain rfl := Except.ok.inj e0
  have key : allMatches st.results = (allMatches st0.results).take opt.maxResults.toNat := by
    have : flat st.results = (flat st0.results).take opt.maxResults.toNat := by
      rw [f1, f0]
      simp [flat, restPage]
    exact this
  refine ⟨key, ?_⟩
  show ((allMatches st.results).length : Int) ≤ _
  rw [key, List.length_take]
  omega

/-- A file name is accepted by an optional include pattern. -/
def included (fre : Option (Compiled Q)) (name : Bytes) : Bool :=
  match fre with
  | none => true
  | some re => (re.mt name).isSome

/-- A file name is hit by an optional exclude pattern. -/
def excluded (ex : Option (Compiled Q)) (name : Bytes) : Bool :=
  match ex with
  | none => false
  | some re => (re.mt name).isSome

theorem firstEnd_pos {acc : LineAcc} {p : Bytes} (ps : List Bytes) (hp : p ≠ []) {m : Nat} {b : Bool}
    (h : firstEnd acc b (p :: ps) 0 = some m) : 0 < m := by
  have gen : ∀ (ps : List Bytes) (b : Bool) (off : Nat), 0 < off →
      firstEnd acc b ps off = some m → 0 < m := by
    intro ps
    induction ps with
    | nil => intro b off _ h; simp [firstEnd] at h
    | cons q qs ih =>
      intro b off ho h
      cases qs with
      | nil => simp only [firstEnd] at h; split at h <;> simp at h; omega
      | cons r rs =>
        simp only [firstEnd] at h
        split at h
        · simp at h; omega
        · exact ih false _ (by omega) h
  have hl := List.length_pos_iff.2 hp
  cases ps with
  | nil => simp only [firstEnd] at h; split at h <;> simp at h; omega
  | cons r rs =>
    simp only [firstEnd] at h
    split at h
    · simp at h; omega
    · exact gen _ _ _ (by omega) h

theorem matcher_pos {mt : Bytes → Option Nat} {acc : LineAcc} (hmt : IsLineMatcher mt acc)
    {name : Bytes} (hne : name ≠ []) (hnl : name.head? ≠ some NL) {m : Nat}
    (h : mt name = some m) : 0 < m := by
  rw [hmt name hne] at h
  cases name with
  | nil => exact absurd rfl hne
  | cons c cs =>
    have hc : ¬ c = 10 := by simpa using hnl
    simp only [pieces, if_neg hc] at h
    split at h
    · exact firstEnd_pos _ (by simp) h
    · exact firstEnd_pos _ (by simp) h

/-- **C08**. A search with include and exclude file patterns (no paging, no cap) returns exactly the
results of the search without file patterns, restricted to the files whose name the include pattern
matches and the exclude pattern does not match -- for file names that are not empty and do not begin
with a newline (see `not_fileFiltersFull` for those). -/
theorem search_file_filters_partial {r r0 : SearchResponse}
    (hM : opt.maxResults ≤ 0) (ho : opt.offset ≤ 0) (hl : opt.limit ≤ 0)
    (hread : CandidatesReadable compile quoteMeta ix pat opt)
    (hcomp : ∀ p re, compile p = some re → ∃ acc, IsLineMatcher re.mt acc)
    (hnames : ∀ i, ix.name i ≠ [] ∧ (ix.name i).head? ≠ some NL)
    (h0 : search compile quoteMeta ix pat { opt with fileRegexp := [], excludeFileRegexp := [] }
      = .ok r0)
    (h : search compile quoteMeta ix pat opt = .ok r) :
    ∃ fre ex, compileOpt compile opt.fileRegexp = .ok fre ∧
      compileOpt compile opt.excludeFileRegexp = .ok ex ∧
      r.matches_ = r0.matches_.filter
        (fun fm => included fre fm.filename && !excluded ex fm.filename) := by
  obtain ⟨re, fre, ex, st, hre, hfre, hex, hst, rfl⟩ := search_unfold h
  obtain ⟨re0, fre0, ex0, st0, hre0, hfre0, hex0, hst0, rfl⟩ := search_unfold h0
  refine ⟨fre, ex, hfre, hex, ?_⟩
  simp only [fullPattern] at hre hre0
  rw [hre] at hre0
  obtain rfl := Option.some.inj hre0
  have hf0 : fre0 = none := by simpa [compileOpt] using hfre0.symm
  have he0 : ex0 = none := by simpa [compileOpt] using hex0.symm
  subst hf0 he0
  have hr : Readable fre ex ix (ix.postingQuery re.query) := fun f hf _ => hread re hre f hf
  have hr0 : Readable (none : Option (Compiled Q)) none ix (ix.postingQuery re.query) :=
    fun f hf _ => hread re hre f hf
  obtain ⟨s1, e1, f1, -⟩ := searchLoop_uncapped opt re fre ex ix (by omega) _ {} hr
  obtain ⟨s0, e0, f0, -⟩ := searchLoop_uncapped { opt with fileRegexp := [], excludeFileRegexp := [] }
    re none none ix (by simp only; omega) _ {} hr0
  rw [hst] at e1; rw [hst0] at e0
  obtain rfl := Except.ok.inj e1
  obtain rfl := Except.ok.inj e0
  have ho' : opt.offset.toNat = 0 := by omega
  have hl' : ¬ opt.limit > 0 := by omega
  simp only [f1, f0, restPage, hl', if_false]
  simp only [List.nil_append, Int.natCast_zero, Int.sub_zero, ho', List.drop_zero]
  unfold fileHits
  rw [List.filter_filterMap]
  apply filterMap_congr'
  intro f _
  have hrej : nameRejected fre ex (ix.name f) =
      !(included fre (ix.name f) && !excluded ex (ix.name f)) := by
    have hx : excludeRejects ex (ix.name f) = excluded ex (ix.name f) := by
      unfold excludeRejects excluded
      cases ex with
      | none => rfl
      | some rx =>
        simp only
        have hrx : ∃ acc, IsLineMatcher rx.mt acc := by
          unfold compileOpt at hex
          split at hex
          · simp at hex
          · split at hex
            · simp at hex
            · rename_i rx' hrx'
              simp only [Except.ok.injEq, Option.some.injEq] at hex
              subst hex
              exact hcomp _ _ hrx'
        obtain ⟨acc, hacc⟩ := hrx
        cases hm : rx.mt (ix.name f) with
        | none => rfl
        | some m =>
          have := matcher_pos hacc (hnames f).1 (hnames f).2 hm
          simp [this]
    rw [nameRejected, hx]
    cases fre with
    | none => simp [includeRejects, included]
    | some rf => simp [includeRejects, included]
  rw [hrej]
  have hn0 : nameRejected (none : Option (Compiled Q)) none (ix.name f) = false := by
    simp [nameRejected, includeRejects, excludeRejects]
  rw [hn0]
  cases hraw : ix.raw (ix.name f) with
  | none => simp
  | some buf =>
    by_cases hms : grepAll re.mt opt.linesOfContext buf = []
    · simp [hms]
    · by_cases hk : (included fre (ix.name f) && !excluded ex (ix.name f)) = true
      · simp [hms, hk, Option.filter]
      · simp only [Bool.not_eq_true] at hk
        simp [hms, hk, Option.filter]

/-! ### A concrete index for the examples -/

/-- Pattern compiler of the examples: a one-byte pattern after "(?m)" or alone matches the lines
containing that byte; the query type is trivial. -/
def exCompile : Bytes → Option (Compiled Unit) := fun p =>
  match p.getLast? with
  | none => none
  | some c => some { mt := exMt (exAcc c), query := () }

/-- Three files "a", "b", "c"; the first and the last contain an `x`. -/
def exIndex : IndexView Unit where
  postingQuery := fun _ => [0, 1, 2]
  name := fun i => if i = 0 then b!"a" else if i = 1 then b!"b" else b!"c"
  raw := fun n => if n = b!"a" then some b!"x\ny\nxx" else if n = b!"b" then some b!"y"
    else if n = b!"c" then some b!"y\nyx\n" else none
  rev := b!"r1"
  autoGeneratedFiles := [b!"c"]

def exFull : SearchResponse :=
  { matches_ := [⟨b!"a", [⟨b!"x", 1, [], []⟩, ⟨b!"xx", 3, [], []⟩], false⟩,
      ⟨b!"c", [⟨b!"yx", 2, [], []⟩], true⟩]
    filesWithMatch := 2, filesOpened := 3, revision := b!"r1" }

theorem exReadable (pat : Bytes) (opt : SearchOptions) :
    CandidatesReadable exCompile id exIndex pat opt := by
  intro re _ f hf
  simp [exIndex] at hf
  rcases hf with rfl | rfl | rfl <;> decide

example : search exCompile id exIndex b!"x" {} = .ok exFull := by rfl
-- paging: offset 1, limit 1
example : (search exCompile id exIndex b!"x" { offset := 1, limit := 1 }) =
    .ok { exFull with matches_ := [⟨b!"c", [⟨b!"yx", 2, [], []⟩], true⟩] } := by rfl
example : page 1 1 exFull.matches_ = [⟨b!"c", [⟨b!"yx", 2, [], []⟩], true⟩] := by decide
-- cap 2 of 3 matches
example : (search exCompile id exIndex b!"x" { maxResults := 2 }) =
    .ok { exFull with matches_ := [⟨b!"a", [⟨b!"x", 1, [], []⟩, ⟨b!"xx", 3, [], []⟩], false⟩],
                      filesWithMatch := 1, filesOpened := 1 } := by rfl
-- exclude pattern "c"
example : (search exCompile id exIndex b!"x" { excludeFileRegexp := b!"c" }) =
    .ok { exFull with matches_ := [⟨b!"a", [⟨b!"x", 1, [], []⟩, ⟨b!"xx", 3, [], []⟩], false⟩],
                      filesWithMatch := 1, filesOpened := 2 } := by rfl
example : ∀ i, exIndex.name i ≠ [] ∧ (exIndex.name i).head? ≠ some NL := by
  intro i; simp only [exIndex]; split
  · decide
  · split <;> decide
-- the theorems applied to the example
example (r : SearchResponse) (h : search exCompile id exIndex b!"x" { offset := 1, limit := 1 } = .ok r) :
    r.matches_ = page 1 1 exFull.matches_ :=
  search_paging (opt := { offset := 1, limit := 1 }) (by decide) (exReadable _ _) rfl h

/-- The full statement of **C08** for one file name: a file is rejected exactly if its name is not
included or is excluded. False of the code; see `not_fileFiltersFull`. -/
def FileFiltersFull : Prop :=
  ∀ (fre ex : Option (Compiled Unit)) (name : Bytes),
    (∀ re, fre = some re ∨ ex = some re → ∃ acc, IsLineMatcher re.mt acc) → name ≠ [] →
    nameRejected fre ex name = !(included fre name && !excluded ex name)

/-- **C08 fails for odd file names**: for a file whose name begins with a newline the exclude pattern
"empty line" (`(?m)^$`) matches the name at offset 0, and the comparison `> 0` does not exclude it. -/
theorem not_fileFiltersFull : ¬ FileFiltersFull := by
  intro h
  have := h none (some { mt := exMt (fun _ _ l => l.isEmpty), query := () }) b!"\nfoo" (by
    rintro re (h | h)
    · simp at h
    · simp only [Option.some.injEq] at h
      subst h; exact ⟨_, exMt_isLineMatcher _⟩) (by decide)
  revert this; decide

end Hound
