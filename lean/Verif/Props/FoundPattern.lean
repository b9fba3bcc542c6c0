import Verif.Props.Found

/-!
# C98: what is in the repository in the end is found in the end, by patterns and in files chosen by name
-/

namespace Hound.Found
open Spec Spec.Pat GoRe Fair
open Hound.Sr (Cfg)

section
variable {T : Tables} {uni : Bytes → Option (Rune → Prop)} {grow : Nat → Nat → Nat} {compile : Bytes → Option (Compiled Query)}
  {quoteMeta : Bytes → Bytes} {p : Alts} {only except : Option Alts} {opt : SearchOptions} {cfg : IWConfig} {iopt : IndexOptions} {rootName : Bytes}
  {c : Cfg} {tree : Nat → FsNode} {st : Nat → Cur.St FsNode} {ev : Nat → Option Cur.Ev} {rev : Nat}

/-- What is assumed of a search for a pattern: pattern and file filters are understood (C82, C84) and without `\A`, and there are no limits. -/
structure PatternSearch (T : Tables) (uni : Bytes → Option (Rune → Prop)) (grow : Nat → Nat → Nat) (compile : Bytes → Option (Compiled Query))
    (quoteMeta : Bytes → Bytes) (p : Alts) (only except : Option Alts) (opt : SearchOptions) : Prop where
  understood : Cmd.Understood T uni grow quoteMeta opt p
  pattern : opt.literalSearch = false
  noStart : ¬ p.Starts (searchMode opt)
  compiled : ∃ c, compile (fullPattern quoteMeta p.text opt) = some c ∧ CompiledText T grow (fullPattern quoteMeta p.text opt) c
  only : FilterIs T uni grow compile opt.fileRegexp only
  except : FilterIs T uni grow compile opt.excludeFileRegexp except
  all : opt.maxResults ≤ 0 ∧ opt.offset ≤ 0 ∧ opt.limit ≤ 0

/-- What a search for a pattern has to report of these files: of those chosen by name, every line in which the pattern has a match, and
nothing else. (`res` is the result; lines with encoded surrogates may be reported without a match, and the filters judge ordinary names.) -/
structure ReportsPattern (orbit : Rune → List Rune) (uni : Bytes → Option (Rune → Prop)) (m : Mode) (p : Alts) (only except : Option Alts)
    (file : Bytes → Bytes → Prop) (res : Except SearchErr SearchResponse) : Prop where
  complete : ∀ name content a e, file name content → Judged only except name → Chosen orbit uni only except name →
    LineAt content a e → a < content.length → PatternWithin orbit uni m p content a e →
    Reports res name ((content.take a).count NL + 1) (slice content a e)
  sound : ∀ name k line, Reports res name k line → (Judged only except name → Chosen orbit uni only except name) ∧
    ∃ content a e, file name content ∧ LineAt content a e ∧ k = (content.take a).count NL + 1 ∧ line = slice content a e ∧
      (NoSurrogate line → PatternWithin orbit uni m p content a e)

/-- A search for a pattern, in the files of an index. -/
theorem pattern_search (hf : AsciiFolds T.orbit) (hcy : FoldCycles T.orbit) (hd : Describes T uni)
    (h : PatternSearch T uni grow compile quoteMeta p only except opt) {ix : IndexView Query} {files : List (Bytes × Reader)}
    {answers : List (Option SkipReason)} (hix : ServesFiles ix files answers) :
    ReportsPattern T.orbit uni (searchMode opt) p only except (fun n content => (n, content) ∈ indexedFiles files answers)
      (search compile quoteMeta ix p.text opt) := by
  obtain ⟨c, hc, hct⟩ := h.compiled
  have hu := h.understood
  constructor
  · intro name content a e h1 h2 h3 h4 h5 h6
    obtain ⟨r, hr, hall⟩ := search_complete_filtered_partial hf hcy hd hu.proper hu.copies h.pattern hu.settled hct hu.tree hix hc h.only h.except h.all
    exact ⟨r, hr, hall h1 h2 h3 h4 h5 h6⟩
  · rintro name k line ⟨r, hr, fm, hfm, rfl, m, hm, rfl, rfl⟩
    refine ⟨fun hj => search_only_chosen_partial hf hcy hd h.only h.except hr hfm hj, ?_⟩
    obtain ⟨content, k1, s, e, k2, k3, k4, k5⟩ := search_only_matching_pattern_partial hf hcy hd hu.proper hu.copies h.pattern hu.settled hct
      (fun t ht => (hu.tree t ht).1) h.noStart hix hc hr hfm hm
    exact ⟨content, s, e, k1, k2, k3, k4, fun hn => k5 (.inl hn)⟩

/-- Every search for the pattern that begins at moment `m` or later reports revision `r`, and of the files of this revision what it has to. (`d` is
the directory built of the files of the index that was searched, `ix` the open index.) -/
def FindsPatternFrom (T : Tables) (uni : Bytes → Option (Rune → Prop)) (compile : Bytes → Option (Compiled Query)) (quoteMeta : Bytes → Bytes) (p : Alts)
    (only except : Option Alts) (opt : SearchOptions) (cfg : IWConfig) (iopt : IndexOptions) (rootName : Bytes) (tree : Nat → FsNode)
    (st : Nat → Cur.St FsNode) (ev : Nat → Option Cur.Ev) (m r : Nat) : Prop :=
  ∀ b r' h, SearchedAfter ev m b r' h → r' = r ∧
    ∀ d ix, indexAllFiles cfg iopt rootName ((st b).files h) = .ok d → ServesDir ix d →
      ReportsPattern T.orbit uni (searchMode opt) p only except (InTree iopt rootName (tree r) fun p => ¬ Excluded d p)
        (search compile quoteMeta ix p.text opt)

theorem pattern_of_shows (hf : AsciiFolds T.orbit) (hcy : FoldCycles T.orbit) (hd : Describes T uni)
    (hs : PatternSearch T uni grow compile quoteMeta p only except opt) (hc : 0 < cfg.npost) {m r : Nat} (hn : WellNamed (tree r))
    (ha : AllReadable iopt rootName (tree r)) (h : ShowsFrom tree st ev m r) :
    FindsPatternFrom T uni compile quoteMeta p only except opt cfg iopt rootName tree st ev m r := by
  rintro b r' x ⟨a, i, h1, h2, h3, h4, h5⟩
  obtain ⟨rfl, hx⟩ := h a b i r' x h1 h2 h3 h4 h5
  refine ⟨rfl, fun d ix hb hix => ?_⟩
  rw [hx] at hb
  obtain ⟨files, answers, k1, k2⟩ := tree_files hc hn ha hb hix
  obtain ⟨g1, g2⟩ := pattern_search hf hcy hd hs k1
  constructor
  · intro name content a e h
    exact g1 name content a e ((k2 _ _).2 h)
  · intro name k line h
    obtain ⟨q1, content, a, e, q2, q3⟩ := g2 name k line h
    exact ⟨q1, content, a, e, (k2 _ _).1 q2, q3⟩

/-- **C98, for patterns.** A repository with polling is not changed any more, no goroutine is passed over and nothing fails any more. Then there
comes a moment from which on every search for a pattern reports, of the files of its last revision that are chosen by name, the lines in which the
pattern has a match. -/
theorem pattern_found_in_the_end (hf : AsciiFolds T.orbit) (hcy : FoldCycles T.orbit) (hdc : Describes T uni)
    (hsearch : PatternSearch T uni grow compile quoteMeta p only except opt) (hc : 0 < cfg.npost)
    (h : History (Cur.Step c tree) st ev) (h0 : Cur.Start tree rev (st 0)) (hfair : FairRepo c tree st ev)
    (ht : c.timer = true) (hb : ∃ m, ev m = some (.sr .begin)) (hs : ∀ m e, ev m = some (.sr e) → e.stop = false)
    (hd : ∀ m, ev m ≠ some (.sr (.destroyed false))) {n : Nat} (hq : CalmFrom ev n)
    (hn : WellNamed (tree (st n).upstream)) (ha : AllReadable iopt rootName (tree (st n).upstream)) :
    ∃ m, n ≤ m ∧ FindsPatternFrom T uni compile quoteMeta p only except opt cfg iopt rootName tree st ev m (st n).upstream := by
  obtain ⟨m, hm, hx⟩ := last_revision_shown h h0 hfair ht hb hs hd hq
  exact ⟨m, hm, pattern_of_shows hf hcy hdc hsearch hc hn ha hx⟩

/-- **C98, for patterns, on request.** -/
theorem pattern_found_on_request (hf : AsciiFolds T.orbit) (hcy : FoldCycles T.orbit) (hdc : Describes T uni)
    (hsearch : PatternSearch T uni grow compile quoteMeta p only except opt) (hc : 0 < cfg.npost)
    (h : History (Cur.Step c tree) st ev) (h0 : Cur.Start tree rev (st 0)) (hfair : FairRepo c tree st ev)
    (hs : ∀ m e, ev m = some (.sr e) → e.stop = false) (hd : ∀ m, ev m ≠ some (.sr (.destroyed false))) {n : Nat}
    (hu : ev n = some (.sr .updateAccepted)) (hg : ∃ m, m < n ∧ ev m = some (.sr .enter)) (hq : CalmFrom ev n)
    (hn : WellNamed (tree (st n).upstream)) (ha : AllReadable iopt rootName (tree (st n).upstream)) :
    ∃ m, n ≤ m ∧ FindsPatternFrom T uni compile quoteMeta p only except opt cfg iopt rootName tree st ev m (st n).upstream := by
  obtain ⟨m, hm, hx⟩ := requested_revision_shown h h0 hfair hs hd hu hg hq
  exact ⟨m, hm, pattern_of_shows hf hcy hdc hsearch hc hn ha hx⟩

end

/-! ## Texts, in files chosen by name -/

section
variable {T : Tables} {uni : Bytes → Option (Rune → Prop)} {grow : Nat → Nat → Nat} {compile : Bytes → Option (Compiled Query)} {rs : List Rune}
  {pat : Bytes} {only except : Option Alts} {opt : SearchOptions} {cfg : IWConfig} {iopt : IndexOptions} {rootName : Bytes}
  {c : Cfg} {tree : Nat → FsNode} {st : Nat → Cur.St FsNode} {ev : Nat → Option Cur.Ev} {rev : Nat}

/-- What is assumed of a search for a text in files chosen by name: as `TextSearch`, with file filters that are understood (C84). -/
structure TextSearchIn (T : Tables) (uni : Bytes → Option (Rune → Prop)) (grow : Nat → Nat → Nat) (compile : Bytes → Option (Compiled Query)) (pat : Bytes)
    (rs : List Rune) (only except : Option Alts) (opt : SearchOptions) : Prop where
  text : EncodedAs pat rs
  nonempty : rs ≠ []
  literal : opt.literalSearch = true
  letters : opt.ignoreCase = true → ∀ r ∈ rs, r ≤ 0x1044f ∨ T.orbit r = []
  compiled : ∃ c, compile (fullPattern goQuoteMeta pat opt) = .some c ∧ GoRe.CompiledText T grow (fullPattern goQuoteMeta pat opt) c
  only : FilterIs T uni grow compile opt.fileRegexp only
  except : FilterIs T uni grow compile opt.excludeFileRegexp except
  all : opt.maxResults ≤ 0 ∧ opt.offset ≤ 0 ∧ opt.limit ≤ 0

/-- What a search for a text has to report of these files: of those chosen by name, every line with the text in it, and nothing else. -/
structure ReportsText (orbit : Rune → List Rune) (uni : Bytes → Option (Rune → Prop)) (caseless : Bool) (rs : List Rune) (only except : Option Alts)
    (file : Bytes → Bytes → Prop) (res : Except SearchErr SearchResponse) : Prop where
  complete : ∀ name k line, TextOnLine orbit caseless rs file name k line → Judged only except name → Chosen orbit uni only except name →
    Reports res name k line
  sound : ∀ name k line, Reports res name k line → TextOnLine orbit caseless rs file name k line ∧
    (Judged only except name → Chosen orbit uni only except name)

/-- A search for a text in files chosen by name, in the files of an index. -/
theorem text_search_in (hf : AsciiFolds T.orbit) (hcy : FoldCycles T.orbit) (hvf : ValidFolds T.orbit) (hd : Describes T uni)
    (h : TextSearchIn T uni grow compile pat rs only except opt) {ix : IndexView Query} {files : List (Bytes × Reader)}
    {answers : List (Option SkipReason)} (hix : ServesFiles ix files answers) :
    ReportsText T.orbit uni opt.ignoreCase rs only except (fun n content => (n, content) ∈ indexedFiles files answers)
      (search compile goQuoteMeta ix pat opt) := by
  obtain ⟨hv, rfl⟩ := h.text
  obtain ⟨c, hc, hct⟩ := h.compiled
  have hq : patternText goQuoteMeta (rs.flatMap encodeRaw) opt = (quotedAlts rs).text := by
    unfold patternText
    rw [if_pos h.literal, quotedAlts_text hv]
  have hfull : fullPattern goQuoteMeta (quotedAlts rs).text (asPattern opt) = fullPattern goQuoteMeta (rs.flatMap encodeRaw) opt := by
    rw [← hq]; exact fullPattern_asPattern _ _ _
  have hsearch : search compile goQuoteMeta ix (quotedAlts rs).text (asPattern opt) = search compile goQuoteMeta ix (rs.flatMap encodeRaw) opt := by
    rw [← hq]; exact search_asPattern _ _ _ _ _
  have hp : PlainPattern T uni (asPattern opt) (quotedAlts rs) :=
    quotedSeq_all (searchMode (asPattern opt)) (rs := rs) fun r hr => ⟨hv r hr, fun hi => h.letters hi r hr⟩
  have hcop : (quotedAlts rs).copies ≤ 1000 := by
    show (quotedSeq rs).copies ≤ 1000
    rw [quotedSeq_copies]; decide
  have hps : PatternSearch T uni grow compile goQuoteMeta (quotedAlts rs) only except (asPattern opt) :=
    ⟨Cmd.understood_noBar hf hcy hvf hd (quotedAlts_ok hv) hcop rfl (quotedSeq_forks rs) hp, rfl, quotedSeq_starts _ rs,
      ⟨c, by rw [hfull]; exact hc, by rw [hfull]; exact hct⟩, h.only, h.except, h.all⟩
  have hrep := pattern_search hf hcy hd hps hix
  rw [hsearch] at hrep
  constructor
  · rintro name k line ⟨content, a, e, k1, k2, rfl, rfl, k5⟩ hj hch
    refine hrep.complete name content a e k1 hj hch k2 ?_ ((Ui.hasText_within hv k2.1 k2.2.1).2 k5)
    rcases Nat.lt_or_ge a content.length with hlt | hge
    · exact hlt
    · exfalso
      have : slice content a e = [] := by
        unfold slice
        simp only [List.take_eq_nil_iff, List.drop_eq_nil_iff]
        first | exact .inr hge | exact .inl (by omega) | omega
      rw [this] at k5
      exact Ui.hasText_empty h.nonempty k5
  · intro name k line hr
    refine ⟨?_, (hrep.sound name k line hr).1⟩
    obtain ⟨r, hr, fm, hfm, rfl, m, hm, rfl, rfl⟩ := hr
    rw [← hsearch] at hr
    obtain ⟨content, k1, s, e, k2, k3, k4, k5⟩ := search_only_matching_noBar_partial hf hcy hvf hd (quotedAlts_ok hv) hcop rfl (quotedSeq_forks rs) hp
      (by rw [hfull]; exact hct) (quotedSeq_starts _ rs) hix (by rw [hfull]; exact hc) hr hfm hm
    refine ⟨content, s, e, k1, k2, k3, k4, ?_⟩
    rw [k4]
    refine (Ui.hasText_within hv k2.1 k2.2.1).1 (k5 (.inr fun t ht => ?_))
    rw [hfull, parse_quoted T opt hv h.literal] at ht
    cases ht
    exact Ui.quotedSyn_noSurrogates hvf _ hv

/-- **C98, in files chosen by name.** A repository with polling is not changed any more, no goroutine is passed over and nothing fails any more. Then
there comes a moment from which on every search for a text reports, of the files of its last revision that are chosen by name, just the lines with the
text in them. -/
theorem text_found_in_chosen (hf : AsciiFolds T.orbit) (hcy : FoldCycles T.orbit) (hvf : ValidFolds T.orbit) (hdc : Describes T uni)
    (hsearch : TextSearchIn T uni grow compile pat rs only except opt) (hc : 0 < cfg.npost)
    (h : History (Cur.Step c tree) st ev) (h0 : Cur.Start tree rev (st 0)) (hfair : FairRepo c tree st ev)
    (ht : c.timer = true) (hb : ∃ m, ev m = some (.sr .begin)) (hs : ∀ m e, ev m = some (.sr e) → e.stop = false)
    (hd : ∀ m, ev m ≠ some (.sr (.destroyed false))) {n : Nat} (hq : CalmFrom ev n)
    (hn : WellNamed (tree (st n).upstream)) (ha : AllReadable iopt rootName (tree (st n).upstream)) :
    ∃ m, n ≤ m ∧ ∀ b r h, SearchedAfter ev m b r h → r = (st n).upstream ∧
      ∀ d ix, indexAllFiles cfg iopt rootName ((st b).files h) = .ok d → ServesDir ix d →
        ReportsText T.orbit uni opt.ignoreCase rs only except (InTree iopt rootName (tree r) fun p => ¬ Excluded d p)
          (search compile goQuoteMeta ix pat opt) := by
  obtain ⟨m, hm, hx⟩ := last_revision_shown h h0 hfair ht hb hs hd hq
  refine ⟨m, hm, ?_⟩
  rintro b r x ⟨a, i, h1, h2, h3, h4, h5⟩
  obtain ⟨rfl, hx⟩ := hx a b i r x h1 h2 h3 h4 h5
  refine ⟨rfl, fun d ix hb hix => ?_⟩
  rw [hx] at hb
  obtain ⟨files, answers, k1, k2⟩ := tree_files hc hn ha hb hix
  obtain ⟨g1, g2⟩ := text_search_in hf hcy hvf hdc hsearch k1
  constructor
  · intro name k line ht
    refine g1 name k line ?_
    unfold TextOnLine at ht ⊢
    simpa only [k2] using ht
  · intro name k line ht
    have := g2 name k line ht
    unfold TextOnLine at this ⊢
    simpa only [k2] using this

/-- The assumptions are met by a search for `qb` in the files of the case below. -/
example : ∃ compile, TextSearchIn (exTables false) exUni goGrow compile b!"qb" [113, 98] (some exOnly) (some exExcept)
    { literalSearch := true, fileRegexp := exOnly.text, excludeFileRegexp := exExcept.text } := by
  have hv : ∀ r ∈ ([113, 98] : List Rune), validRune r = true := by decide
  have hparse := parse_quoted (exTables false) { literalSearch := true, fileRegexp := exOnly.text, excludeFileRegexp := exExcept.text } hv rfl
  have hu : Cmd.Understood (exTables false) exUni goGrow goQuoteMeta {} (quotedAlts [113, 98]) := by
    refine Cmd.understood_noBar exOrbit_ascii exOrbit_cycles exOrbit_valid (exDescribes false) (quotedAlts_ok hv) (by decide) rfl (quotedSeq_forks _) ?_
    exact quotedSeq_all (searchMode _) (rs := [113, 98]) fun r hr => ⟨hv r hr, fun hi => (by cases hi)⟩
  obtain ⟨c, hc⟩ := exists_compiled (hu.tree _ hparse).1 (by decide +kernel)
  obtain ⟨c1, hc1⟩ := exists_compiled (exOnly_name.tree _ exOnly_tree) (by decide +kernel)
  obtain ⟨c2, hc2⟩ := exists_compiled (exExcept_name.tree _ exExcept_tree) (by decide +kernel)
  refine ⟨fun e => if e = exOnly.text then some c1 else if e = exExcept.text then some c2 else some c,
    ⟨hv, by decide⟩, by decide, rfl, (by intro h; cases h), ⟨c, rfl, _, hparse, hc⟩, ⟨rfl, fun q h => ?_, fun q h => ?_⟩,
    ⟨rfl, fun q h => ?_, fun q h => ?_⟩, by decide, by decide, by decide⟩
  all_goals cases h
  · exact ⟨by decide, exOnly_name⟩
  · exact ⟨c1, rfl, _, exOnly_tree, hc1⟩
  · exact ⟨by decide, exExcept_name⟩
  · exact ⟨c2, rfl, _, exExcept_tree, hc2⟩

end

/-! ## A case -/

/-- A tree with two files that have the same content. -/
def goTree : FsNode :=
  .dir true (.cons b!"a.go" (.file true ⟨[b!"ad\nwAqbb\n"], false⟩) (.cons b!"y.go" (.file true ⟨[b!"ad\nwAqbb\n"], false⟩) .nil))

/-- Revision 8 is this tree, all the others are empty. -/
def goRevisions (r : Nat) : FsNode := if r = 8 then goTree else .dir true .nil

theorem go_wellNamed : WellNamed goTree := by
  simp only [goTree, WellNamed, WellNamedAll, entriesOf]
  exact ⟨goodName_of _ rfl, by simp, trivial, goodName_of _ rfl, by simp, trivial, trivial⟩

theorem go_leaves : leavesN noDots [] b!"r" goTree = [([b!"a.go"], b!"a.go", .file true ⟨[b!"ad\nwAqbb\n"], false⟩),
    ([b!"y.go"], b!"y.go", .file true ⟨[b!"ad\nwAqbb\n"], false⟩)] := rfl

theorem go_readable : AllReadable noDots b!"r" (goRevisions 8) := by
  intro path name r hu hlo
  have := under_leaves hu rfl
  rw [show goRevisions 8 = goTree from rfl, go_leaves] at this
  simp only [List.mem_cons, List.not_mem_nil, or_false, Prod.mk.injEq, FsNode.file.injEq, true_and] at this
  rcases this with h | h <;> obtain ⟨-, -, rfl⟩ := h <;> decide

theorem go_file : Under noDots (· = true) b!"r" goTree [b!"a.go"] b!"a.go" (.file true ⟨[b!"ad\nwAqbb\n"], false⟩) :=
  .step (n := .file true ⟨[b!"ad\nwAqbb\n"], false⟩) (by decide) rfl (by simp [entriesOf]) (.here _ _)

theorem go_builds : ∃ d, indexAllFiles goConfig noDots b!"r" goTree = .ok d := by
  refine build_of_leaves go_wellNamed ?_ (by decide +kernel)
  rw [go_leaves]
  intro l hl
  simp only [List.mem_cons, List.not_mem_nil, or_false] at hl
  rcases hl with rfl | rfl <;> refine ⟨by simp, by decide, ?_⟩ <;> intro o r h <;> cases h <;> decide

theorem go_listed {d : BuiltDir} (hd : indexAllFiles goConfig noDots b!"r" goTree = .ok d) : ¬ Excluded d b!"a.go" := by
  obtain ⟨ls, hls, hb, -, -, -⟩ := indexAllFiles_ok (by decide) go_wellNamed hd
  have hs : Searchable d b!"a.go" := (searchable_iff (by decide) hb _).2
    ⟨b!"ad\nwAqbb\n", mem_indexed.2 ⟨_, (hls ([b!"a.go"], b!"a.go", .file true ⟨[b!"ad\nwAqbb\n"], false⟩)).2 ⟨go_file, rfl⟩, ⟨[b!"ad\nwAqbb\n"], false⟩, rfl, by decide,
      by decide +kernel, rfl⟩⟩
  rcases accounted_partial (path := [b!"a.go"]) (by decide) go_wellNamed hd go_file trivial (by decide) (by intro o r h; cases h; decide) with h | h
  · exact h.2
  · exact absurd hs h.1

/-- The hypotheses are met: a repository that is changed to this tree at moment 3, with polling, requests and searches for ever. From some moment on
every search for the pattern of the examples of C80, in files with names `\.go$` but not `^[xy]`, reports line 2 of a.go, and nothing of y.go. -/
example : ∃ st ev, History (Cur.Step both goRevisions) st ev ∧ FairRepo both goRevisions st ev ∧ (st 4).upstream = 8 ∧
    (∀ n, ∃ b, SearchedAfter ev n b 8 1) ∧ ∃ compile m, ∀ b, SearchedAfter ev m b 8 1 →
      ∃ d, indexAllFiles goConfig noDots b!"r" ((st b).files 1) = .ok d ∧ ∀ ix, ServesDir ix d →
        Reports (search compile id ix exLine.text { fileRegexp := exOnly.text, excludeFileRegexp := exExcept.text }) b!"a.go" 2 b!"wAqbb" ∧
        ∀ k line, ¬ Reports (search compile id ix exLine.text { fileRegexp := exOnly.text, excludeFileRegexp := exExcept.text }) b!"y.go" k line := by
  obtain ⟨st, ev, h1, h2, h3, h4, h5, h6, h7, h8, h9, h10, h11, h12, h13⟩ := fair_case
  have hist : History (Cur.Step both goRevisions) (fun n => filled goRevisions (st n)) ev := fun n => by
    have := h1 n
    split <;> simp_all [filled_step]
  have hfair : FairRepo both goRevisions (fun n => filled goRevisions (st n)) ev := by
    refine ⟨fun n hn => h3.moves n fun m hm => ?_, h3.ends, h3.writers⟩
    obtain ⟨e, t, ho, hst⟩ := hn m hm
    obtain ⟨t', ht'⟩ := step_filled hst
    exact ⟨e, t', ho, ht'⟩
  have hstart : Cur.Start goRevisions 7 (filled goRevisions (st 0)) :=
    ⟨h2.1, h2.2.1, fun h => congrArg goRevisions (h2.2.2 h)⟩
  obtain ⟨compile, ⟨c, hc, hct⟩, f1, f2, -⟩ := exCompiler
  obtain ⟨n1, n2, n3, n4⟩ := exNames
  have hu : Cmd.Understood (exTables false) exUni goGrow id { fileRegexp := exOnly.text, excludeFileRegexp := exExcept.text } exLine :=
    ⟨exLine_ok.1, exLine_ok.2.1, noBar_alts _ _ exLine_ok.2.2.1, treeOK_noBar (uni := exUni) (opt := {}) exOrbit_ascii exOrbit_cycles exOrbit_valid
      (exDescribes false) exLine_ok.1 exLine_ok.2.1 rfl exLine_ok.2.2.1 exLine_ok.2.2.2.2⟩
  have hs : PatternSearch (exTables false) exUni goGrow compile id exLine (some exOnly) (some exExcept)
      { fileRegexp := exOnly.text, excludeFileRegexp := exExcept.text } :=
    ⟨hu, rfl, exLine_ok.2.2.2.1, ⟨c, hc, hct⟩, f1, f2, by decide, by decide, by decide⟩
  have hup : (filled goRevisions (st 4)).upstream = 8 := h10
  obtain ⟨m, -, hm⟩ := pattern_found_in_the_end (cfg := goConfig) (iopt := noDots) (rootName := b!"r") (n := 4) exOrbit_ascii exOrbit_cycles
    (exDescribes false) hs (by decide) hist hstart hfair h4 ⟨0, h5⟩ h7 h8 h9 (by rw [hup]; exact go_wellNamed) (by rw [hup]; exact go_readable)
  obtain ⟨m', -, hm'⟩ := last_revision_shown hist hstart hfair h4 ⟨0, h5⟩ h7 h8 h9
  rw [hup] at hm hm'
  refine ⟨_, ev, hist, hfair, h10, fun n => ?_, compile, max m m', fun b hb => ?_⟩
  · obtain ⟨a, ha, k1, k2, k3⟩ := h12 n
    refine ⟨a + 2, a, 1, ha, by omega, k1, k3, fun k h1 h2 r h e => ?_⟩
    rw [show k = a + 1 by omega, k2] at e
    cases e
  · obtain ⟨d, hd⟩ := go_builds
    have hfiles : (filled goRevisions (st b)).files 1 = goTree := by
      obtain ⟨a, i, k1, k2, k3, k4, k5⟩ := hb
      exact (hm' a b i 8 1 (by omega) k2 k3 k4 k5).2
    have hb' : SearchedAfter ev m b 8 1 := by
      obtain ⟨a, i, k1, k2, k3, k4, k5⟩ := hb
      exact ⟨a, i, by omega, k2, k3, k4, k5⟩
    refine ⟨d, by rw [hfiles]; exact hd, fun ix hix => ?_⟩
    obtain ⟨g1, g2⟩ := (hm b 8 1 hb').2 d ix (by rw [hfiles]; exact hd) hix
    constructor
    · exact g1 b!"a.go" b!"ad\nwAqbb\n" 3 8 ⟨_, _, _, rfl, go_file, by decide, go_listed hd, rfl⟩ (.inl n1) n2
        ⟨by decide, by decide, by decide, .inr (by decide), .inr (by decide)⟩ (by decide) exLine_within
    · intro k line h
      exact n4 ((g2 _ _ _ h).1 (.inl n3))

end Hound.Found
