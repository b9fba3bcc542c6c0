import Verif.Props.Printed
import Verif.Props.Paging
import Verif.Props.UiLines
import Verif.Proofs.QuotedPattern
import Verif.Spec.OnPage

/-!
# C83: the page shows the lines that match, from the files to the browser
-/

namespace Hound.Ui
open Spec Spec.Pat GoRe Api

section
variable {T : Tables} {uni : Bytes → Option (Rune → Prop)} {grow : Nat → Nat → Nat} {p : Alts} {only except : Option Alts} {c : Compiled Query}
  {ix : IndexView Query} {files : List (Bytes × Reader)} {answers : List (Option SkipReason)} {srv : Server Query} {params : Params} {repo : Bytes}

/-- The options of a search from the page. -/
def pageOptions (srv : Server Query) (params : Params) : SearchOptions := searchOptions (firstForm params) srv.resultLimit

/-- The options with which the pattern is searched for. -/
def pageMode (srv : Server Query) (params : Params) : SearchOptions := asPattern (pageOptions srv params)

/-- What is assumed of a search from the page, in one repository: the parameters ask for a pattern that is understood, as it is written or as a text
that is quoted so, with file filters that are understood or none, and
without a range of their own; the repository has a plain name and an index of its files. -/
structure PageSearch (T : Tables) (uni : Bytes → Option (Rune → Prop)) (grow : Nat → Nat → Nat) (srv : Server Query) (params : Params) (repo : Bytes)
    (p : Alts) (only except : Option Alts) (c : Compiled Query) (ix : IndexView Query) (files : List (Bytes × Reader)) (answers : List (Option SkipReason)) : Prop where
  query : patternText srv.quoteMeta (firstForm params b!"q") (pageOptions srv params) = p.text
  understood : Cmd.Understood T uni grow srv.quoteMeta (pageMode srv params) p
  filter : FilterIs T uni grow srv.compile (pageOptions srv params).fileRegexp only
  exclude : FilterIs T uni grow srv.compile (pageOptions srv params).excludeFileRegexp except
  range : params b!"rng" = none
  plain : PlainName repo
  index : srv.idx.lookup repo = some ix
  compile : srv.compile (fullPattern srv.quoteMeta p.text (pageMode srv params)) = some c
  compiled : CompiledText T grow (fullPattern srv.quoteMeta p.text (pageMode srv params)) c
  serves : ServesFiles ix files answers
  few : files.length < 2 ^ 63

theorem PageSearch.full (h : PageSearch T uni grow srv params repo p only except c ix files answers) :
    fullPattern srv.quoteMeta (firstForm params b!"q") (pageOptions srv params) = fullPattern srv.quoteMeta p.text (pageMode srv params) := by
  rw [← h.query]
  exact (fullPattern_asPattern _ _ _).symm

/-- The options of the whole search. -/
def wholeMode (srv : Server Query) (params : Params) : SearchOptions := { pageMode srv params with offset := 0, limit := 0, maxResults := 0 }

theorem PageSearch.whole (h : PageSearch T uni grow srv params repo p only except c ix files answers) :
    Hound.search srv.compile srv.quoteMeta ix (firstForm params b!"q")
      { searchOptions (firstForm params) srv.resultLimit with offset := 0, limit := 0, maxResults := 0 } =
    Hound.search srv.compile srv.quoteMeta ix p.text (wholeMode srv params) := by
  rw [← h.query]
  exact (search_asPattern srv.compile srv.quoteMeta ix (firstForm params b!"q")
    { searchOptions (firstForm params) srv.resultLimit with offset := 0, limit := 0, maxResults := 0 }).symm

theorem PageSearch.queries (h : PageSearch T uni grow srv params repo p only except c ix files answers) : ThreeByte c.query ∧ NoEmptyAnd c.query := by
  obtain ⟨t, h1, h2⟩ := h.compiled
  have hq : c.query = (HInfo.regexpQuery grow T.orbit t.re).1 := h2.2
  rw [hq]
  exact ⟨regexpQuery_threeByte, regexpQuery_noEmptyAnd⟩

theorem PageSearch.matcher (hf : AsciiFolds T.orbit) (h : PageSearch T uni grow srv params repo p only except c ix files answers) : ∃ acc, IsLineMatcher c.mt acc := by
  obtain ⟨t, h1, ⟨pr, q, k1, k2, k3, k4, k5⟩, -⟩ := h.compiled
  exact ⟨_, matcherOf_line (progOK_bytes hf (compile_progOK k1 k2) (compile_runeOK k1 (h.understood.tree t h1).1) k3 k4) k5⟩

/-- The full result of the search. -/
theorem PageSearch.setting (hf : AsciiFolds T.orbit) (hcy : FoldCycles T.orbit) (hd : Describes T uni) (h : PageSearch T uni grow srv params repo p only except c ix files answers) :
    ∃ full, Setting srv params repo ix full ∧ full.matches_.length ≤ files.length ∧
      ∀ {name content : Bytes} {s e : Nat}, (name, content) ∈ indexedFiles files answers → Judged only except name →
        Chosen T.orbit uni only except name → LineAt content s e → s < content.length →
        PatternWithin T.orbit uni (searchMode (pageOptions srv params)) p content s e →
        ∃ fm ∈ full.matches_, fm.filename = name ∧ ∃ m ∈ fm.matches_, m.lineno = (content.take s).count NL + 1 ∧ m.line = slice content s e := by
  obtain ⟨h3, hne⟩ := h.queries
  have hread : ∀ re, srv.compile (fullPattern srv.quoteMeta (firstForm params b!"q") (pageOptions srv params)) = some re →
      ∀ f ∈ ix.postingQuery re.query, (ix.raw (ix.name f)).isSome := by
    intro re hre f hf
    rw [h.full, h.compile] at hre
    cases hre
    obtain ⟨g, -, -, hg⟩ := (serves_candidates h.serves h3 hne).1 f hf
    rw [hg]; rfl
  obtain ⟨full, hfull', hall⟩ := search_complete_filtered_partial (only := only) (except := except)
    (opt := wholeMode srv params) hf hcy hd h.understood.proper
    h.understood.copies rfl h.understood.settled h.compiled h.understood.tree h.serves h.compile h.filter h.exclude
    ⟨Int.le_refl 0, Int.le_refl 0, Int.le_refl 0⟩
  have hfull : Hound.search srv.compile srv.quoteMeta ix (firstForm params b!"q")
    { searchOptions (firstForm params) srv.resultLimit with offset := 0, limit := 0, maxResults := 0 } = .ok full := by rw [h.whole]; exact hfull'
  have hsmall : full.matches_.length ≤ files.length := ?_
  · exact ⟨full, ⟨h.range, h.plain, h.index, hread, hfull, Nat.lt_of_le_of_lt hsmall h.few⟩, hsmall, hall⟩
  have hlen := (search_filesWithMatch (opt := { searchOptions (firstForm params) srv.resultLimit with offset := 0, limit := 0, maxResults := 0 })
    (r0 := full) (r := full) (Int.le_refl 0) hread hfull hfull).2
  obtain ⟨re, fre, ex, st, hre, -, -, hst, rfl⟩ := search_unfold hfull
  have hre' : re = c := by
    have hx := h.compile
    rw [← h.full] at hx
    exact Option.some.inj (hre.symm.trans hx)
  subst hre'
  have h1 := Cmd.searchLoop_found hst
  have h2 := Cmd.serves_number h.serves h3 hne
  have h4 : ({} : SearchState).filesFound = 0 := rfl
  simp only at hlen ⊢
  omega

/-- The lines of a file that is shown. -/
theorem PageSearch.lines (hf : AsciiFolds T.orbit) (h : PageSearch T uni grow srv params repo p only except c ix files answers) {full : SearchResponse}
    (hfull : FullResult srv params ix full) {g : FileMatch} (hg : g ∈ full.matches_) {ms : List LineMatch} (hms : ms <+: g.matches_) :
    ∃ buf bs, coalesceMatches ms = some bs ∧ PageFor (Client.fileText buf) ms bs ∧ ∀ m ∈ ms, m.line = Client.fileText buf m.lineno := by
  obtain ⟨acc, hacc⟩ := h.matcher hf
  obtain ⟨re, fre, ex, st, hre, -, -, hst, rfl⟩ := search_unfold hfull
  have hre' : re = c := by
    have hx := h.compile
    rw [← h.full] at hx
    exact Option.some.inj (hre.symm.trans hx)
  subst hre'
  rcases searchLoop_sound _ _ _ _ _ _ _ _ hst g hg with h0 | ⟨_, _, _, _, _, _, buf, _, hp⟩
  · simp at h0
  · obtain ⟨bs, h1, h2⟩ := page_lines_server hacc _ buf ms (hms.trans hp)
    exact ⟨buf, bs, h1, h2, fun m hm => (Client.grep_matchOf hacc _ buf m (hp.subset (hms.subset hm))).2.1⟩

/-- **C83**, the whole way, from the files of a repository to the page. Once the button that loads more is gone, every line of every file
chosen by the two filters in which the pattern has a match is on the page, under the name of the file and with its number, provided that the matches in the repository are below the limit
of results. And at any time, if there is no `\A` in the pattern, every line marked as a match is a line of such a file, with that number, and the
pattern has a match in it. -/
theorem page_exact_partial (hf : AsciiFolds T.orbit) (hcy : FoldCycles T.orbit) (hd : Describes T uni)
    (h : PageSearch T uni grow srv params repo p only except c ix files answers) {page : Page} (hr : Reach srv true params page) {s : Shown}
    (hs : page.byRepo repo = some s) :
    (∃ full, FullResult srv params ix full ∧ (¬ s.button → capOf srv params ≤ 0 ∨ (countMatches full.matches_ : Int) < capOf srv params →
      ∀ name content a e, (name, content) ∈ indexedFiles files answers → Judged only except name → Chosen T.orbit uni only except name →
        LineAt content a e → a < content.length →
        PatternWithin T.orbit uni (searchMode (pageOptions srv params)) p content a e →
        OnPage s name ((content.take a).count NL + 1) (slice content a e))) ∧
    (¬ p.Starts (searchMode (pageOptions srv params)) → ∀ name k line, OnPage s name k line →
      ∃ content a e, (name, content) ∈ indexedFiles files answers ∧ (Judged only except name → Chosen T.orbit uni only except name) ∧
        LineAt content a e ∧ k = (content.take a).count NL + 1 ∧
        line = slice content a e ∧ (NoSurrogate line ∨ (∀ t, parse T (fullPattern srv.quoteMeta p.text (pageMode srv params)) = .ok t → NoSurrogates T.orbit t) →
          PatternWithin T.orbit uni (searchMode (pageOptions srv params)) p content a e)) := by
  obtain ⟨full, hset, -, hcomplete⟩ := h.setting hf hcy hd
  obtain ⟨w1, w2, w3, w4⟩ := webPaging_partial hset hr hs
  have hfull := hset.result
  have hfull' : Hound.search srv.compile srv.quoteMeta ix p.text (wholeMode srv params) = .ok full := by
      rw [← h.whole]; exact hfull
  refine ⟨⟨full, hfull, fun hb hcap name content a e hfile hj hch hline ha hm => ?_⟩, fun hst name k line hon => ?_⟩
  · have hlen := (w2 (hcap.imp id fun k => by have := countMatches_take 20 full.matches_; omega)).2 hb
    have hall : s.matches_ = full.matches_ := by
      rw [w4 (hcap.imp id fun k => by omega), hlen, List.take_length]
    obtain ⟨fm, hfm, hname, m, hmm, hno, hli⟩ := hcomplete hfile hj hch hline ha hm
    obtain ⟨buf, bs, h1, h2, h3⟩ := h.lines hf hfull hfm (List.prefix_refl _)
    obtain ⟨l, hl, hln⟩ := (h2.lines_iff m.lineno).2 ⟨m, hmm, by unfold ShownBy; omega⟩
    refine ⟨fm, by rw [hall]; exact hfm, hname, bs, h1, l, hl, by rw [hln, hno], ?_, (h2.marked_iff l hl).2 ⟨m, hmm, hln.symm⟩⟩
    rw [h2.content l hl, hln, ← h3 m hmm, hli]
  · obtain ⟨fm, hfm, rfl, bs, hbs, l, hl, hln, hlc, hmk⟩ := hon
    obtain ⟨g, hg, k1, k2, k3, k4⟩ := Cmd.each_mem_left w1 fm hfm
    have hg' := List.mem_of_mem_take hg
    obtain ⟨buf, bs', h1, h2, h3⟩ := h.lines hf hfull hg' k4
    rw [hbs] at h1
    cases h1
    obtain ⟨m, hm, hmn⟩ := (h2.marked_iff l hl).1 hmk
    obtain ⟨content, q1, a, e, q2, q3, q4, q5⟩ := search_only_matching_pattern_partial
      (opt := wholeMode srv params) hf hcy hd h.understood.proper
      h.understood.copies rfl h.understood.settled h.compiled (fun t k => (h.understood.tree t k).1) hst h.serves h.compile hfull' hg' (k4.subset hm)
    have hline : m.line = line := by rw [h3 m hm, hmn, ← h2.content l hl, hlc]
    have hchosen : Judged only except g.filename → Chosen T.orbit uni only except g.filename := search_only_chosen_partial
      (opt := wholeMode srv params) hf hcy hd h.filter h.exclude hfull' hg'
    exact ⟨content, a, e, by rw [k1]; exact q1, fun hj => (by rw [k1] at hj ⊢; exact hchosen hj), q2, by omega, by rw [← hline, q4], fun hn => q5 (by rw [hline]; exact hn)⟩

/-- **C83**: a repository that was asked for and is not on the page after the first answer has no line, in the files chosen, in which the pattern has a match. -/
theorem page_absent_partial (hf : AsciiFolds T.orbit) (hcy : FoldCycles T.orbit) (hd : Describes T uni)
    (h : PageSearch T uni grow srv params repo p only except c ix files answers) {all : AllFound} (hs : Served srv (firstForm params) (.ok all))
    (hin : repo ∈ parseAsRepoList (firstForm params b!"repos") srv.idx) (hn : firstResults all repo = none) {name content : Bytes} {a e : Nat}
    (hfile : (name, content) ∈ indexedFiles files answers) (hj : Judged only except name) (hch : Chosen T.orbit uni only except name)
    (hline : LineAt content a e) (ha : a < content.length) :
    ¬ PatternWithin T.orbit uni (searchMode (pageOptions srv params)) p content a e := by
  intro hm
  obtain ⟨full, hset, -, hcomplete⟩ := h.setting hf hcy hd
  have hempty := webPaging_absent hset hs hin hn
  obtain ⟨fm, hfm, -⟩ := hcomplete hfile hj hch hline ha hm
  rw [hempty] at hfm
  cases hfm

end

/-- A search for `(?i:a)[^x]b{2,3}$` in the files `\.go$` but not `^[xy]`. -/
def exPageParams : Params := fun k => if k = b!"q" then some exLine.text else if k = b!"files" then some exOnly.text else
  if k = b!"excludeFiles" then some exExcept.text else none

/-- Whoever searches for it on the page, in a repository with a file `a.go` with the lines `ad` and `wAqbb`, finds the second of them on the page. -/
example : ∃ (srv : Server Query) (page : Page) (s : Shown), Reach srv true exPageParams page ∧ page.byRepo b!"r" = some s ∧ ¬ s.button ∧
    OnPage s b!"a.go" 2 b!"wAqbb" := by
  obtain ⟨compile, ⟨c, hc, hct⟩, hfilter, hexcept, -⟩ := exCompiler
  obtain ⟨hname, hchosen, -⟩ := exNames
  obtain ⟨ix, answers, hix, hfiles⟩ := exists_serves b!"a.go" b!"ad\nwAqbb\n" (by decide) (by decide +kernel) (by decide) (by decide)
  obtain ⟨srv, hsrv⟩ : ∃ srv : Server Query, srv = ⟨compile, id, [(b!"r", ix)], 0⟩ := ⟨_, rfl⟩
  have hplain : PlainPattern (exTables false) exUni (pageMode srv exPageParams) exLine := exLine_ok.2.2.2.2
  have h : PageSearch (exTables false) exUni goGrow srv exPageParams b!"r" exLine (some exOnly) (some exExcept) c ix [(b!"a.go", ⟨[b!"ad\nwAqbb\n"], false⟩)] answers := {
    query := rfl
    understood := Cmd.understood_noBar exOrbit_ascii exOrbit_cycles exOrbit_valid (exDescribes false) exLine_ok.1 exLine_ok.2.1 rfl exLine_ok.2.2.1 hplain
    filter := by rw [hsrv]; exact hfilter
    exclude := by rw [hsrv]; exact hexcept
    range := rfl
    plain := by unfold PlainName; decide
    index := by rw [hsrv]; rfl
    compile := by rw [hsrv]; exact hc
    compiled := by rw [hsrv]; exact hct
    serves := hix
    few := by simp }
  have hasked : b!"r" ∈ parseAsRepoList (firstForm exPageParams b!"repos") srv.idx := by rw [hsrv]; exact List.mem_cons_self
  have hin : (b!"a.go", b!"ad\nwAqbb\n") ∈ indexedFiles [(b!"a.go", ⟨[b!"ad\nwAqbb\n"], false⟩)] answers := by rw [hfiles]; simp
  have hline : LineAt b!"ad\nwAqbb\n" 3 8 := ⟨by decide, by decide, by decide, .inr (by decide), .inr (by decide)⟩
  obtain ⟨out, hout⟩ := Cmd.served_exists srv (firstForm exPageParams)
  cases out with
  | error e =>
    obtain ⟨n, hn, ix', h1, h2⟩ := searchAll_error hout
    obtain ⟨full, hset, -⟩ := h.setting exOrbit_ascii exOrbit_cycles (exDescribes false)
    obtain ⟨-, r, hr, -⟩ := search_page hset.readable hset.result
    have hx : ix' = ix := by
      rw [hsrv] at h1
      simp only [List.lookup_cons] at h1
      split at h1
      · exact (Option.some.inj h1).symm
      · cases h1
    rw [hx, hr] at h2
    cases h2
  | ok all =>
    have hreach : Reach srv true exPageParams _ := .searched hout
    cases hb : firstResults all b!"r" with
    | none => exact absurd exLine_within (page_absent_partial exOrbit_ascii exOrbit_cycles (exDescribes false) h hout hasked hb hin (.inl hname) hchosen hline (by decide))
    | some s =>
      obtain ⟨⟨full, hfull, hshow⟩, -⟩ := page_exact_partial exOrbit_ascii exOrbit_cycles (exDescribes false) h hreach (s := s) hb
      have hcap : capOf srv exPageParams ≤ 0 := by rw [hsrv]; exact Int.le_refl 0
      obtain ⟨full, hset, hlen, -⟩ := h.setting exOrbit_ascii exOrbit_cycles (exDescribes false)
      have hbut : ¬ s.button := by
        intro hbut
        have := ((webPaging_partial hset hreach hb).2.1 (.inl hcap)).1.1 hbut
        simp only [List.length_singleton] at hlen
        have hz : s.matches_ = [] := List.eq_nil_of_length_eq_zero (by omega)
        obtain ⟨r, hr, rfl⟩ := Option.map_eq_some_iff.1 hb
        exact ((searchAll_ok hout).1 _ r hr).2.2 hz
      exact ⟨srv, _, s, hreach, hb, hbut, hshow hbut (.inl hcap) _ _ 3 8 hin (.inl hname) hchosen hline (by decide) exLine_within⟩

end Hound.Ui
