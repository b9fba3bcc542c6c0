import Verif.Spec.Found
import Verif.Props.Fair
import Verif.Props.FairCases
import Verif.Props.LiteralPage
import Verif.Props.Walk

/-!
# C98: what is in the repository in the end is found in the end
-/

namespace Hound.Found
open Spec Spec.Pat GoRe Fair
open Hound.Sr (Cfg)

section
variable {T : Tables} {uni : Bytes → Option (Rune → Prop)} {grow : Nat → Nat → Nat} {compile : Bytes → Option (Compiled Query)} {rs : List Rune}
  {pat : Bytes} {opt : SearchOptions} {c : Compiled Query} {ix : IndexView Query} {files : List (Bytes × Reader)} {answers : List (Option SkipReason)}

/-- What is assumed of a search for a text: it is a literal search without file filters and limits; the text is UTF-8 and not empty, and if case is
ignored it has no letters above U+1044F. -/
structure TextSearch (T : Tables) (grow : Nat → Nat → Nat) (compile : Bytes → Option (Compiled Query)) (pat : Bytes) (rs : List Rune) (opt : SearchOptions) : Prop where
  text : EncodedAs pat rs
  nonempty : rs ≠ []
  literal : opt.literalSearch = true
  letters : opt.ignoreCase = true → ∀ r ∈ rs, r ≤ 0x1044f ∨ T.orbit r = []
  plain : Plain opt
  compiled : ∃ c, compile (fullPattern goQuoteMeta pat opt) = .some c ∧ GoRe.CompiledText T grow (fullPattern goQuoteMeta pat opt) c

/-- A search for a text, in the files of an index, through the whole of the parser and the compiler. -/
theorem text_search (hf : AsciiFolds T.orbit) (hcy : FoldCycles T.orbit) (hvf : ValidFolds T.orbit) (hd : Describes T uni)
    (h : TextSearch T grow compile pat rs opt) (hix : ServesFiles ix files answers) {name : Bytes} {k : Nat} {line : Bytes} :
    Reports (search compile goQuoteMeta ix pat opt) name k line ↔
      TextOnLine T.orbit opt.ignoreCase rs (fun p content => (p, content) ∈ indexedFiles files answers) name k line := by
  obtain ⟨hv, rfl⟩ := h.text
  obtain ⟨c, hc, hct⟩ := h.compiled
  have hq : patternText goQuoteMeta (rs.flatMap encodeRaw) opt = (quotedAlts rs).text := by
    unfold patternText
    rw [if_pos h.literal, quotedAlts_text hv]
  have hfull : fullPattern goQuoteMeta (quotedAlts rs).text (asPattern opt) = fullPattern goQuoteMeta (rs.flatMap encodeRaw) opt := by
    rw [← hq]; exact fullPattern_asPattern _ _ _
  have hsearch : search compile goQuoteMeta ix (quotedAlts rs).text (asPattern opt) = search compile goQuoteMeta ix (rs.flatMap encodeRaw) opt := by
    rw [← hq]; exact search_asPattern _ _ _ _ _
  have hp : PlainPattern T uni (asPattern opt) (quotedAlts rs) :=
    quotedSeq_all (searchMode (asPattern opt)) (rs := rs) fun r hr => ⟨hv r hr, fun hi => h.letters hi r hr⟩
  have hcop : (quotedAlts rs).copies ≤ 1000 := by
    show (quotedSeq rs).copies ≤ 1000
    rw [quotedSeq_copies]; decide
  have hpl : Plain (asPattern opt) := ⟨h.plain.1, h.plain.2, h.plain.3, h.plain.4, h.plain.5⟩
  constructor
  · rintro ⟨r, hr, fm, hfm, rfl, m, hm, rfl, rfl⟩
    rw [← hsearch] at hr
    obtain ⟨content, k1, s, e, k2, k3, k4, k5⟩ := search_only_matching_noBar_partial hf hcy hvf hd (quotedAlts_ok hv) hcop rfl (quotedSeq_forks rs) hp
      (by rw [hfull]; exact hct) (quotedSeq_starts _ rs) hix (by rw [hfull]; exact hc) hr hfm hm
    refine ⟨content, s, e, k1, k2, k3, k4, ?_⟩
    rw [k4]
    refine (Ui.hasText_within hv k2.1 k2.2.1).1 (k5 (.inr fun t ht => ?_))
    rw [hfull, parse_quoted T opt hv h.literal] at ht
    cases ht
    exact Ui.quotedSyn_noSurrogates hvf _ hv
  · rintro ⟨content, s, e, k1, k2, rfl, rfl, k5⟩
    rw [← hsearch]
    refine search_complete_noBar_partial hf hcy hvf hd (quotedAlts_ok hv) hcop rfl (quotedSeq_forks rs) hp (by rw [hfull]; exact hct) hix
      (by rw [hfull]; exact hc) hpl k1 k2 ?_ ((Ui.hasText_within hv k2.1 k2.2.1).2 k5)
    rcases Nat.lt_or_ge s content.length with hlt | hge
    · exact hlt
    · exfalso
      have : slice content s e = [] := by
        unfold slice
        simp only [List.take_eq_nil_iff, List.drop_eq_nil_iff]
        first | exact .inr hge | exact .inl (by omega) | omega
      rw [this] at k5
      exact Ui.hasText_empty h.nonempty k5

end

section
variable {cfg : IWConfig} {iopt : IndexOptions} {rootName : Bytes} {root : FsNode} {d : BuiltDir}

/-- An index built from a tree has the files of the tree, with their contents. -/
theorem tree_files (hc : 0 < cfg.npost) (hn : WellNamed root) (ha : AllReadable iopt rootName root)
    (h : indexAllFiles cfg iopt rootName root = .ok d) {ix : IndexView Query} (hix : ServesDir ix d) :
    ∃ files answers, ServesFiles ix files answers ∧ ∀ p content, (p, content) ∈ indexedFiles files answers ↔
      InTree iopt rootName root (fun p => ¬ Excluded d p) p content := by
  obtain ⟨files, answers, h1, h2⟩ := tree_serves hc hn h hix
  refine ⟨files, answers, h1, fun p content => (h2 p content).trans ⟨?_, ?_⟩⟩
  · rintro ⟨hs, path, name, r, rfl, hu, rfl⟩
    obtain ⟨path', name', r', e, hu', hl', hr'⟩ := (accounted_sound hc hn h).1 _ hs
    have hsame := under_rel hn hu hu' e
    have hlo : ¬ LeftOut iopt name := by
      have := hsame.1
      simp_all
    refine ⟨path, name, r, rfl, hu, hlo, ?_, rfl⟩
    rcases accounted_partial hc hn h hu trivial (fun g => hlo (.inl g)) (fun o r' e => by cases e; exact ha _ _ _ hu hlo) with g | g
    · exact g.2
    · exact absurd hs g.1
  · rintro ⟨path, name, r, rfl, hu, hlo, hex, rfl⟩
    refine ⟨?_, path, name, r, rfl, hu, rfl⟩
    rcases accounted_partial hc hn h hu trivial (fun g => hlo (.inl g)) (fun o r' e => by cases e; exact ha _ _ _ hu hlo) with g | g
    · exact g.1
    · exact absurd g.2 hex

end

section
variable {T : Tables} {uni : Bytes → Option (Rune → Prop)} {grow : Nat → Nat → Nat} {compile : Bytes → Option (Compiled Query)} {rs : List Rune}
  {pat : Bytes} {opt : SearchOptions} {cfg : IWConfig} {iopt : IndexOptions} {rootName : Bytes}
  {c : Cfg} {tree : Nat → FsNode} {st : Nat → Cur.St FsNode} {ev : Nat → Option Cur.Ev} {rev : Nat}

/-- Every search for a text that begins at moment `m` or later reports revision `r`, and just the lines of the files of this revision that have
the text in them. (`d` is the directory built of the files of the index that was searched, `ix` the open index.) -/
def FindsFrom (T : Tables) (compile : Bytes → Option (Compiled Query)) (pat : Bytes) (rs : List Rune) (opt : SearchOptions) (cfg : IWConfig)
    (iopt : IndexOptions) (rootName : Bytes) (tree : Nat → FsNode) (st : Nat → Cur.St FsNode) (ev : Nat → Option Cur.Ev) (m r : Nat) : Prop :=
  ∀ b r' h, SearchedAfter ev m b r' h → r' = r ∧
    ∀ d ix, indexAllFiles cfg iopt rootName ((st b).files h) = .ok d → ServesDir ix d → ∀ p k line,
      Reports (search compile goQuoteMeta ix pat opt) p k line ↔
        TextOnLine T.orbit opt.ignoreCase rs (InTree iopt rootName (tree r) fun p => ¬ Excluded d p) p k line

theorem finds_of_shows (hf : AsciiFolds T.orbit) (hcy : FoldCycles T.orbit) (hvf : ValidFolds T.orbit) (hd : Describes T uni)
    (hs : TextSearch T grow compile pat rs opt) (hc : 0 < cfg.npost) {m r : Nat} (hn : WellNamed (tree r)) (ha : AllReadable iopt rootName (tree r))
    (h : ShowsFrom tree st ev m r) : FindsFrom T compile pat rs opt cfg iopt rootName tree st ev m r := by
  rintro b r' x ⟨a, i, h1, h2, h3, h4, h5⟩
  obtain ⟨rfl, hx⟩ := h a b i r' x h1 h2 h3 h4 h5
  refine ⟨rfl, fun d ix hb hix p k line => ?_⟩
  rw [hx] at hb
  obtain ⟨files, answers, k1, k2⟩ := tree_files hc hn ha hb hix
  rw [text_search hf hcy hvf hd hs k1]
  unfold TextOnLine
  simp only [k2]

/-- **C98.** A repository with polling is not changed any more, no goroutine is passed over and nothing fails any more. Then there comes a moment from
which on every search for a text reports just the lines of the files of its last revision that have the text in them. -/
theorem found_in_the_end (hf : AsciiFolds T.orbit) (hcy : FoldCycles T.orbit) (hvf : ValidFolds T.orbit) (hdc : Describes T uni)
    (hsearch : TextSearch T grow compile pat rs opt) (hc : 0 < cfg.npost)
    (h : History (Cur.Step c tree) st ev) (h0 : Cur.Start tree rev (st 0)) (hfair : FairRepo c tree st ev)
    (ht : c.timer = true) (hb : ∃ m, ev m = some (.sr .begin)) (hs : ∀ m e, ev m = some (.sr e) → e.stop = false)
    (hd : ∀ m, ev m ≠ some (.sr (.destroyed false))) {n : Nat} (hq : CalmFrom ev n)
    (hn : WellNamed (tree (st n).upstream)) (ha : AllReadable iopt rootName (tree (st n).upstream)) :
    ∃ m, n ≤ m ∧ FindsFrom T compile pat rs opt cfg iopt rootName tree st ev m (st n).upstream := by
  obtain ⟨m, hm, hx⟩ := last_revision_shown h h0 hfair ht hb hs hd hq
  exact ⟨m, hm, finds_of_shows hf hcy hvf hdc hsearch hc hn ha hx⟩

/-- **C98, on request.** The same without polling, after a request that was accepted when the searcher had begun to wait for updates. -/
theorem found_on_request (hf : AsciiFolds T.orbit) (hcy : FoldCycles T.orbit) (hvf : ValidFolds T.orbit) (hdc : Describes T uni)
    (hsearch : TextSearch T grow compile pat rs opt) (hc : 0 < cfg.npost)
    (h : History (Cur.Step c tree) st ev) (h0 : Cur.Start tree rev (st 0)) (hfair : FairRepo c tree st ev)
    (hs : ∀ m e, ev m = some (.sr e) → e.stop = false) (hd : ∀ m, ev m ≠ some (.sr (.destroyed false))) {n : Nat}
    (hu : ev n = some (.sr .updateAccepted)) (hg : ∃ m, m < n ∧ ev m = some (.sr .enter)) (hq : CalmFrom ev n)
    (hn : WellNamed (tree (st n).upstream)) (ha : AllReadable iopt rootName (tree (st n).upstream)) :
    ∃ m, n ≤ m ∧ FindsFrom T compile pat rs opt cfg iopt rootName tree st ev m (st n).upstream := by
  obtain ⟨m, hm, hx⟩ := requested_revision_shown h h0 hfair hs hd hu hg hq
  exact ⟨m, hm, finds_of_shows hf hcy hvf hdc hsearch hc hn ha hx⟩

end

/-! ## A case -/

/-- The same state, with the files of the revisions in the place of their numbers. -/
def filled {F : Type} (tree : Nat → F) (s : Cur.St Nat) : Cur.St F := ⟨s.sr, s.upstream, s.fetched, tree s.copy, fun h => tree (s.files h)⟩

theorem filled_step {F : Type} {c : Cfg} (tree : Nat → F) {s t : Cur.St Nat} {e : Cur.Ev} (h : Cur.Step c id s e t) :
    Cur.Step c tree (filled tree s) e (filled tree t) := by
  cases h with
  | changed r => exact .changed _ r
  | fetched h1 h2 => exact .fetched (filled tree s) h1 h2
  | check t h => exact .check (filled tree s) t h
  | pulled r t h1 h2 => exact .pulled (filled tree s) r t h1 h2
  | pullFails t x h => exact .pullFails (filled tree s) t (tree x) h
  | built t h =>
    have := Cur.Step.built (tree := tree) (filled tree s) t h
    have e : ∀ h, (if h = s.sr.count then tree s.copy else tree (s.files h)) = tree (if h = s.sr.count then s.copy else s.files h) :=
      fun h => by split <;> rfl
    have e' : filled tree { s with sr := t, files := fun h => if h = s.sr.count then s.copy else s.files h } =
        { filled tree s with sr := t, files := fun h => if h = (filled tree s).sr.count then (filled tree s).copy else (filled tree s).files h } := by
      simp only [filled, Cur.St.mk.injEq, true_and]
      exact funext fun h => (e h).symm
    rw [e']
    exact this
  | other e t h1 h2 h3 h4 => exact .other (filled tree s) e t h1 h2 h3 h4

theorem step_filled {F : Type} {c : Cfg} {tree : Nat → F} {s : Cur.St Nat} {e : Cur.Ev} {t : Cur.St F} (h : Cur.Step c tree (filled tree s) e t) :
    ∃ t', Cur.Step c id s e t' := by
  generalize hs : filled tree s = s' at h
  cases h with
  | changed r => exact ⟨_, .changed _ r⟩
  | fetched h1 h2 => subst hs; exact ⟨_, .fetched s h1 h2⟩
  | check t h => subst hs; exact ⟨_, .check s t h⟩
  | pulled r t h1 h2 => subst hs; exact ⟨_, .pulled s r t h1 h2⟩
  | pullFails t x h => subst hs; exact ⟨_, .pullFails s t 0 h⟩
  | built t h => subst hs; exact ⟨_, .built s t h⟩
  | other e t h1 h2 h3 h4 => subst hs; exact ⟨_, .other s e t h1 h2 h3 h4⟩

/-- Revision 8 of the repository is the sample, all the others are empty. -/
def sampleRevisions (r : Nat) : FsNode := if r = 8 then sampleTree else .dir true .nil

theorem sample_readable : AllReadable noDots b!"r" (sampleRevisions 8) := by
  intro path name r hu hlo
  have := under_leaves hu rfl
  have hl : leavesN noDots [] b!"r" sampleTree = [([b!"a"], b!"a", .file true ⟨[b!"hello\n"], false⟩),
      ([b!".b"], b!".b", .file true ⟨[b!"x"], false⟩), ([b!"c"], b!"c", .irregular), ([b!"d"], b!"d", .file true ⟨[[0xFF]], false⟩),
      ([b!"e", b!"f"], b!"f", .file true ⟨[b!"deep\n"], false⟩)] := rfl
  rw [show sampleRevisions 8 = sampleTree from rfl, hl] at this
  simp only [List.mem_cons, List.not_mem_nil, or_false, Prod.mk.injEq, FsNode.file.injEq, true_and, reduceCtorEq, and_false, false_or] at this
  rcases this with h | h | h | h <;> obtain ⟨-, -, rfl⟩ := h <;> decide

theorem deep_listed {d : BuiltDir} (hd : indexAllFiles goConfig noDots b!"r" sampleTree = .ok d) : ¬ Excluded d b!"e/f" := by
  obtain ⟨ls, hls, hb, -, -, -⟩ := indexAllFiles_ok (by decide) sample_wellNamed hd
  have hs : Searchable d b!"e/f" := (searchable_iff (by decide) hb _).2
    ⟨b!"deep\n", mem_indexed.2 ⟨_, (hls ([b!"e", b!"f"], b!"f", .file true ⟨[b!"deep\n"], false⟩)).2 ⟨sample_deep, rfl⟩, ⟨[b!"deep\n"], false⟩, rfl, by decide,
      by decide +kernel, rfl⟩⟩
  rcases accounted_partial (path := [b!"e", b!"f"]) (by decide) sample_wellNamed hd sample_deep trivial (by decide) (by intro o r h; cases h; decide) with h | h
  · exact h.2
  · exact absurd hs h.1

/-- The hypotheses are met: a repository that is changed to the sample at moment 3, with polling, requests and searches for ever. From some moment on
every search for "EEP" that ignores case reports line 1 of e/f. -/
example : ∃ st ev, History (Cur.Step both sampleRevisions) st ev ∧ FairRepo both sampleRevisions st ev ∧ (st 4).upstream = 8 ∧
    (∀ n, ∃ b, SearchedAfter ev n b 8 1) ∧ ∃ compile m, ∀ b, SearchedAfter ev m b 8 1 →
      ∃ d, indexAllFiles goConfig noDots b!"r" ((st b).files 1) = .ok d ∧ ∀ ix, ServesDir ix d →
        Reports (search compile goQuoteMeta ix b!"EEP" { literalSearch := true, ignoreCase := true }) b!"e/f" 1 b!"deep" ∧
        ¬ Reports (search compile goQuoteMeta ix b!"EEP" { literalSearch := true, ignoreCase := true }) b!"a" 1 b!"hello" := by
  obtain ⟨st, ev, h1, h2, h3, h4, h5, h6, h7, h8, h9, h10, h11, h12, h13⟩ := fair_case
  have hist : History (Cur.Step both sampleRevisions) (fun n => filled sampleRevisions (st n)) ev := fun n => by
    have := h1 n
    split <;> simp_all [filled_step]
  have hfair : FairRepo both sampleRevisions (fun n => filled sampleRevisions (st n)) ev := by
    refine ⟨fun n hn => h3.moves n fun m hm => ?_, h3.ends, h3.writers⟩
    obtain ⟨e, t, ho, hst⟩ := hn m hm
    obtain ⟨t', ht'⟩ := step_filled hst
    exact ⟨e, t', ho, ht'⟩
  have hstart : Cur.Start sampleRevisions 7 (filled sampleRevisions (st 0)) :=
    ⟨h2.1, h2.2.1, fun h => congrArg sampleRevisions (h2.2.2 h)⟩
  have hv : ∀ r ∈ ([69, 69, 80] : List Rune), validRune r = true := by decide
  have hparse := parse_quoted (exTables false) { ignoreCase := true, literalSearch := true } hv rfl
  have hu : Cmd.Understood (exTables false) exUni goGrow goQuoteMeta { ignoreCase := true } (quotedAlts [69, 69, 80]) := by
    refine Cmd.understood_noBar exOrbit_ascii exOrbit_cycles exOrbit_valid (exDescribes false) (quotedAlts_ok hv) (by decide) rfl (quotedSeq_forks _) ?_
    exact quotedSeq_all (searchMode _) (rs := [69, 69, 80]) fun r hr =>
      ⟨hv r hr, fun _ => (by decide : ∀ r ∈ ([69, 69, 80] : List Rune), r ≤ 0x1044f ∨ exOrbit r = []) r hr⟩
  obtain ⟨c, hc⟩ := exists_compiled (hu.tree _ hparse).1 (by decide +kernel)
  have hs : TextSearch (exTables false) goGrow (fun _ => some c) b!"EEP" [69, 69, 80] { literalSearch := true, ignoreCase := true } :=
    ⟨⟨hv, by decide⟩, by decide, rfl, fun _ => by decide, ⟨rfl, rfl, by decide, by decide, by decide⟩, c, rfl, _, hparse, hc⟩
  have hup : (filled sampleRevisions (st 4)).upstream = 8 := h10
  obtain ⟨m, -, hm⟩ := found_in_the_end (cfg := goConfig) (iopt := noDots) (rootName := b!"r") (n := 4) exOrbit_ascii exOrbit_cycles exOrbit_valid
    (exDescribes false) hs (by decide) hist hstart hfair h4 ⟨0, h5⟩ h7 h8 h9 (by rw [hup]; exact sample_wellNamed) (by rw [hup]; exact sample_readable)
  obtain ⟨m', -, hm'⟩ := last_revision_shown hist hstart hfair h4 ⟨0, h5⟩ h7 h8 h9
  rw [hup] at hm hm'
  refine ⟨_, ev, hist, hfair, h10, fun n => ?_, fun _ => some c, max m m', fun b hb => ?_⟩
  · obtain ⟨a, ha, k1, k2, k3⟩ := h12 n
    refine ⟨a + 2, a, 1, ha, by omega, k1, k3, fun k h1 h2 r h e => ?_⟩
    rw [show k = a + 1 by omega, k2] at e
    cases e
  · obtain ⟨d, hd⟩ := sample_builds
    have hfiles : (filled sampleRevisions (st b)).files 1 = sampleTree := by
      obtain ⟨a, i, k1, k2, k3, k4, k5⟩ := hb
      exact (hm' a b i 8 1 (by omega) k2 k3 k4 k5).2
    have hb' : SearchedAfter ev m b 8 1 := by
      obtain ⟨a, i, k1, k2, k3, k4, k5⟩ := hb
      exact ⟨a, i, by omega, k2, k3, k4, k5⟩
    refine ⟨d, by rw [hfiles]; exact hd, fun ix hix => ?_⟩
    have key := fun p k line => (hm b 8 1 hb').2 d ix (by rw [hfiles]; exact hd) hix p k line
    constructor
    · rw [key]
      exact ⟨b!"deep\n", 0, 4, ⟨_, _, _, rfl, sample_deep, by decide, deep_listed hd, rfl⟩, ⟨by decide, by decide, by decide, .inl rfl, .inr rfl⟩, by decide, by decide, b!"eep", [101, 101, 112],
        ⟨by decide, by decide⟩, ⟨.inr (by decide), .inr (by decide), .inr (by decide), trivial⟩, by decide⟩
    · rw [key]
      rintro ⟨content, s, e, -, -, -, -, text, xs, ⟨-, rfl⟩, h1, h2⟩
      match xs, h1 with
      | [x, y, z], ⟨k1, k2, k3, _⟩ =>
        have e1 : (exTables false).orbit 69 = [101] := by decide
        have e2 : (exTables false).orbit 80 = [112] := by decide
        rw [e1, List.mem_singleton] at k1 k2
        rw [e2, List.mem_singleton] at k3
        revert h2
        rcases k1 with rfl | rfl <;> rcases k2 with rfl | rfl <;> rcases k3 with rfl | rfl <;> decide

end Hound.Found
