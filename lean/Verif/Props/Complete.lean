import Verif.Spec.EndToEnd
import Verif.Proofs.Complete
import Verif.Proofs.ThompsonBuild
import Verif.Props.Search
import Verif.Props.Index
import Verif.Props.ByteProg

/-!
# C01: a search never misses a matching line — from the files to the answer

`MatchWithin orbit re content s e`: the text has a match of the pattern between positions `s` and `e`, which are
the ends of a line (`LineAt`).  The line's number is one more than the number of newlines before it.
-/

namespace Hound
open Spec

/-- **C01**, the full claim, with Go's slice growth. -/
def SearchCompleteFull : Prop :=
  ∀ (orbit : Rune → List Rune), AsciiFolds orbit → ∀ (re : Re) (p : Prog) (c : Compiled Query),
    CompiledFrom goGrow orbit re p c → ∀ (ix : IndexView Query) (files : List (Bytes × Reader))
    (answers : List (Option SkipReason)), ServesFiles ix files answers →
    ∀ (compile : Bytes → Option (Compiled Query)) (quoteMeta : Bytes → Bytes) (pat : Bytes) (opt : SearchOptions),
    compile (fullPattern quoteMeta pat opt) = some c → Plain opt →
    ∀ (name content : Bytes) (s e : Nat), (name, content) ∈ indexedFiles files answers →
    LineAt content s e → s < content.length → MatchWithin orbit re content s e →
    Reports (search compile quoteMeta ix pat opt) name ((content.take s).count NL + 1) (slice content s e)

section
variable {grow : Nat → Nat → Nat} {orbit : Rune → List Rune} {re : Re} {p : Prog} {c : Compiled Query}
  {ix : IndexView Query} {files : List (Bytes × Reader)} {answers : List (Option SkipReason)}
  {compile : Bytes → Option (Compiled Query)} {quoteMeta : Bytes → Bytes} {pat : Bytes} {opt : SearchOptions}

open Classical in
theorem matcherOf_line {q : Prog} (hq : ProgOK q) {mt : Bytes → Option Nat} (h : MatcherOf q mt) :
    IsLineMatcher mt (fun bot eot l => decide (Accepts q bot eot l)) := by
  obtain ⟨M, hM, hrun⟩ := h
  intro buf _
  obtain ⟨history, M', M'', h1, h2⟩ := hrun buf
  exact match_first_line hq hM h1 h2 (by simp)

theorem progOK_bytes (hf : AsciiFolds orbit) (hp : ProgOK p) (hok : ∀ i ∈ p.inst, RuneOK orbit i) {q : Prog}
    (hq : toByteProg orbit p = some q) (hl : q.inst.length < 2 ^ 32) : ProgOK q := by
  obtain ⟨q', h1, h2, _⟩ := toByteProg_succeeds hf hp hok
  rw [hq] at h1
  cases h1
  exact h2 hl

theorem serves_candidates (h : ServesFiles ix files answers) {q : Query} (h3 : ThreeByte q) (hne : NoEmptyAnd q) :
    (∀ i ∈ ix.postingQuery q, ∃ f ∈ indexedFiles files answers, ix.name i = f.1 ∧ ix.raw (ix.name i) = some f.2) ∧
    ∀ f ∈ indexedFiles files answers, Sat (HasTrigram f.2) q → ∃ i ∈ ix.postingQuery q, ix.name i = f.1 := by
  obtain ⟨cfg, paths, data, rix, hc, hb, ho, hpq, hnm, hraw⟩ := h
  obtain ⟨l, hl, _, hmem⟩ := postingQuery_partial hc hb ho h3 hne
  obtain ⟨rix', ho', _, hnames, _⟩ := index_names hc hb
  rw [ho] at ho'
  cases ho'
  have hpl : ix.postingQuery q = l := by rw [hpq, hl]; rfl
  have hname : ∀ (i : Nat) (f : Bytes × Bytes), (indexedFiles files answers)[i]? = some f → ix.name i = f.1 := by
    intro i f hi
    rw [hnm, hnames i f.1 f.2 hi]; rfl
  constructor
  · intro i hi
    rw [hpl] at hi
    obtain ⟨name, content, hi', _⟩ := (hmem i).mp hi
    have h1 := hname i _ hi'
    have h2 := List.mem_of_getElem? hi'
    exact ⟨(name, content), h2, h1, by rw [h1]; exact hraw _ h2⟩
  · intro f hf hs
    obtain ⟨i, hi⟩ := List.getElem?_of_mem hf
    refine ⟨i, ?_, hname i f hi⟩
    rw [hpl]
    exact (hmem i).mpr ⟨f.1, f.2, hi, hs⟩

/-- What a plain search answers, in terms of the files. -/
theorem plain_search (hix : ServesFiles ix files answers) (h3 : ThreeByte c.query) (hne : NoEmptyAnd c.query)
    (hcomp : compile (fullPattern quoteMeta pat opt) = some c) (ho : Plain opt) :
    ∃ r, search compile quoteMeta ix pat opt = .ok r ∧
      r.matches_ = fileHits opt.linesOfContext c none none ix (ix.postingQuery c.query) := by
  obtain ⟨hcand, _⟩ := serves_candidates hix h3 hne
  have hread : Readable none none ix (ix.postingQuery c.query) := by
    intro i hi _
    obtain ⟨f, _, _, hr⟩ := hcand i hi
    rw [hr]; rfl
  obtain ⟨st, h1, h2, _⟩ := searchLoop_uncapped opt c none none ix (by have := ho.maxResults; omega) _ {} hread
  refine ⟨_, search_fold hcomp (by rw [ho.fileRegexp]; rfl) (by rw [ho.excludeFileRegexp]; rfl) h1, ?_⟩
  rw [h2]
  have e1 : opt.offset.toNat = 0 := by have := ho.offset; omega
  have e2 : ¬ opt.limit > 0 := by have := ho.limit; omega
  simp [restPage, e1, e2]

/-- **C01** for patterns whose trigram query is computed without an in-place append in `alternate` (the bug of
C09) and whose program only contains rune instructions that are compiled correctly (`RuneOK`, C17): every line of
every indexed file with a match of the pattern inside it is reported, under its number. -/
theorem search_complete_partial (hf : AsciiFolds orbit) (hc : CompiledFrom grow orbit re p c)
    (hz : (HInfo.regexpQuery grow orbit re).2 = false) (hok : ∀ i ∈ p.inst, RuneOK orbit i)
    (hix : ServesFiles ix files answers) (hcomp : compile (fullPattern quoteMeta pat opt) = some c) (ho : Plain opt)
    {name content : Bytes} {s e : Nat} (hfile : (name, content) ∈ indexedFiles files answers)
    (hline : LineAt content s e) (hs : s < content.length) (hm : MatchWithin orbit re content s e) :
    Reports (search compile quoteMeta ix pat opt) name ((content.take s).count NL + 1) (slice content s e) := by
  have h3 : ThreeByte c.query := by rw [hc.query]; exact regexpQuery_threeByte
  have hne : NoEmptyAnd c.query := by rw [hc.query]; exact regexpQuery_noEmptyAnd
  obtain ⟨r, hr, hrm⟩ := plain_search hix h3 hne hcomp ho
  obtain ⟨hcand, hmore⟩ := serves_candidates hix h3 hne
  -- the file is a candidate
  have hsat : Sat (HasTrigram content) c.query := by
    rw [hc.query]
    obtain ⟨i, j, h1, h2, h4, h5⟩ := hm
    exact regexpQuery_sound_partial hz ⟨i, j, by have := hline.2.1; omega, h5⟩
  obtain ⟨i, hi, hname⟩ := hmore _ hfile hsat
  -- the line is accepted
  obtain ⟨q, hq, hql, hmt⟩ := hc.matcher
  have hqok := progOK_bytes hf hc.progOK hok hq hql
  have hlm := matcherOf_line hqok hmt
  have hacc : Accepts q (s == 0) (e == content.length) (slice content s e) :=
    toByteProg_complete_partial hf hc.progOK hok hq hline.2.2.1
      ((compiles_faithful hc.compiles content s e hline).mpr hm)
  obtain ⟨m, hm1, hm2, hm3⟩ := grepAll_complete hlm
    (by intro eot l h; simp only [decide_eq_true_eq] at h ⊢; exact accepts_bot_mono h) opt.linesOfContext hline hs
    (by simpa using hacc)
  have hraw : ix.raw (ix.name i) = some content := by
    obtain ⟨cfg, paths, data, rix, _, _, _, _, _, hraw⟩ := hix
    rw [hname]; exact hraw _ hfile
  refine ⟨r, hr, ⟨name, grepAll c.mt opt.linesOfContext content, containsString ix.autoGeneratedFiles name⟩, ?_, rfl,
    m, hm1, hm2, hm3⟩
  rw [hrm]
  unfold fileHits
  refine List.mem_filterMap.mpr ⟨i, hi, ?_⟩
  have hnr : nameRejected (none : Option (Compiled Query)) none (ix.name i) = false := rfl
  rw [hnr, hraw]
  have hnil : grepAll c.mt opt.linesOfContext content ≠ [] := List.ne_nil_of_mem hm1
  simp [hnil, hname]

/-- C01 without the first proviso for patterns without `|`. -/
theorem search_complete_noAlternate_partial (hf : AsciiFolds orbit) (hc : CompiledFrom grow orbit re p c)
    (hz : NoAlternate re) (hok : ∀ i ∈ p.inst, RuneOK orbit i)
    (hix : ServesFiles ix files answers) (hcomp : compile (fullPattern quoteMeta pat opt) = some c) (ho : Plain opt)
    {name content : Bytes} {s e : Nat} (hfile : (name, content) ∈ indexedFiles files answers)
    (hline : LineAt content s e) (hs : s < content.length) (hm : MatchWithin orbit re content s e) :
    Reports (search compile quoteMeta ix pat opt) name ((content.take s).count NL + 1) (slice content s e) :=
  search_complete_partial hf hc (regexpQuery_noalt hz) hok hix hcomp ho hfile hline hs hm

/-! ## The converse: only matching lines -/

theorem runeAccepts_noBot (hb : NoBeginText p) {l : Bytes} {eot b b' : Bool} (h : RuneAccepts orbit p b eot l) :
    RuneAccepts orbit p b' eot l := by
  obtain ⟨i, j, pc, h1, h2, h3⟩ := h
  refine ⟨i, j, pc, h1, ?_, h3⟩
  have step : ∀ {x y}, PStep p l b eot x y → PStep p l b' eot x y := by
    intro x y hs
    cases hs with
    | capture h => exact .capture h
    | nop h => exact .nop h
    | altOut h => exact .altOut h
    | altArg h => exact .altArg h
    | altMatchOut h => exact .altMatchOut h
    | altMatchArg h => exact .altMatchArg h
    | empty h hf =>
      refine .empty h ?_
      have := hb _ _ (List.mem_of_getElem? h)
      simp only [Asserted, flagsAt, this] at hf ⊢
      simpa using hf
    | byte h hc hr => exact .byte h hc hr
  have go : ∀ {x y}, RPath orbit (RuneAt l) p l b eot x y → RPath orbit (RuneAt l) p l b' eot x y := by
    intro x y hp
    induction hp with
    | refl => exact .refl _
    | tail _ s ih =>
      refine ih.tail ?_
      cases s with
      | plain s => exact .plain (step s)
      | rune h ho hr hat => exact .rune h ho hr hat
  exact go h2

/-- **C02, for whole searches.** Every reported line is a line of the file (or the empty text after a final
newline) with a match of the pattern inside it, under its number. For patterns without `\A`, lines without encoded
surrogates (or patterns that ask for valid code points only), and programs whose rune instructions are compiled correctly
(`RuneOK`, C17). -/
theorem search_only_matching_partial (hf : AsciiFolds orbit) (hc : CompiledFrom grow orbit re p c)
    (hok : ∀ i ∈ p.inst, RuneOK orbit i) (hb : NoBeginText p)
    (hix : ServesFiles ix files answers) (hcomp : compile (fullPattern quoteMeta pat opt) = some c)
    {r : SearchResponse} (hr : search compile quoteMeta ix pat opt = .ok r) {fm : FileMatch} (hfm : fm ∈ r.matches_)
    {m : LineMatch} (hm : m ∈ fm.matches_) :
    ∃ content, (fm.filename, content) ∈ indexedFiles files answers ∧
      ∃ s e, LineAt content s e ∧ m.lineno = (content.take s).count NL + 1 ∧ m.line = slice content s e ∧
        (NoSurrogate m.line ∨ OnlyValid orbit p → MatchWithin orbit re content s e) := by
  have h3 : ThreeByte c.query := by rw [hc.query]; exact regexpQuery_threeByte
  have hne : NoEmptyAnd c.query := by rw [hc.query]; exact regexpQuery_noEmptyAnd
  obtain ⟨hcand, _⟩ := serves_candidates hix h3 hne
  obtain ⟨c', fre, ex, st, hc1, _, _, hst, rfl⟩ := search_unfold hr
  rw [hcomp] at hc1
  cases hc1
  rcases searchLoop_sound _ _ _ _ _ _ _ _ hst fm hfm with h0 | ⟨i, hi, hn, _, _, _, buf, hbuf, hp⟩
  · simp at h0
  obtain ⟨f, hfi, hf1, hf2⟩ := hcand i hi
  have hbufc : buf = f.2 := by
    rw [hn] at hbuf; rw [hbuf] at hf2; exact Option.some.inj hf2
  subst hbufc
  refine ⟨f.2, ?_, ?_⟩
  · rw [hn, hf1]; exact hfi
  obtain ⟨q, hq, hql, hmt⟩ := hc.matcher
  have hqok := progOK_bytes hf hc.progOK hok hq hql
  have hlm := matcherOf_line hqok hmt
  obtain ⟨l1, l2, hl⟩ := List.append_of_mem (hp.subset hm)
  have facts := grepAll_facts hlm opt.linesOfContext f.2 l1 m l2 hl
  obtain ⟨s, e, k1, k2, k3, k4⟩ := piece_is_line facts.line
  have hlt := facts.lt
  refine ⟨s, e, k1, by omega, k2.symm, fun hsur => ?_⟩
  have ha : Accepts q (decide (m.lineno = (l1.getLast?.map (·.lineno)).getD 0 + 1))
      (decide (m.lineno = (pieces f.2).length)) m.line :=
    @of_decide_eq_true _ (Classical.propDecidable _) facts.accepted
  have hnl : NL ∉ m.line := by rw [← k2]; exact k1.2.2.1
  have hra := hsur.elim (fun hsur => (toByteProg_exact_partial hf hc.progOK hok hq hnl hsur).mp ha)
    (fun hv => (toByteProg_exact_valid hf hc.progOK hok hq hnl hv).mp ha)
  have heot : decide (m.lineno = (pieces f.2).length) = (e == f.2.length) := by
    rw [Bool.eq_iff_iff]
    simp only [decide_eq_true_eq, beq_iff_eq, ← k4]
    omega
  rw [heot] at hra
  have := runeAccepts_noBot hb (b' := s == 0) hra
  rw [← k2] at this
  exact (compiles_faithful hc.compiles f.2 s e k1).mp this

end

/-! ## The counterexample, and a case in which everything is met -/

theorem exists_matcherOf {q : Prog} (hq : ProgOK q) : ∃ mt, MatcherOf q mt := by
  obtain ⟨M, hM, htot⟩ := matcher_total hq
  refine ⟨fun buf => ((M.run q buf true true).map (·.2)).join, M, hM, fun buf => ?_⟩
  obtain ⟨M', h1, h2⟩ := htot []
  have : M' = M := by simpa [Matcher.calls] using h1.symm
  subst this
  obtain ⟨M'', r, h3⟩ := h2 buf true true
  exact ⟨[], M', M'', h1, by simp [h3]⟩

/-- An index over one readable file. -/
theorem exists_serves (name content : Bytes) (h0 : (0 : UInt8) ∉ name) (hans : addAnswer ⟨[content], false⟩ = none)
    (hne : content ≠ []) (hlen : name.length + 5 + 20 * content.length + 73 < 2 ^ 32) :
    ∃ ix answers, ServesFiles ix [(name, ⟨[content], false⟩)] answers ∧
      indexedFiles [(name, ⟨[content], false⟩)] answers = [(name, content)] := by
  obtain ⟨answers, data, hb⟩ := buildIndex_succeeds (cfg := goConfig) (by decide) (paths := [])
    (files := [(name, ⟨[content], false⟩)]) (by simpa using h0)
    (by simp [Reader.content] at hlen ⊢; omega)
  obtain ⟨rix, ho, _⟩ := index_names (by decide) hb
  have hix : indexedFiles [(name, ⟨[content], false⟩)] answers = [(name, content)] := by
    obtain ⟨_, _, _, h4, _⟩ := buildIndex_some (by decide) hb
    subst h4
    simp [indexedFiles, hans, Reader.Ok, Reader.content, hne]
  refine ⟨⟨fun q => (rix.postingQuery q none).getD [], fun i => (rix.name i).getD [], fun _ => some content, [], []⟩,
    answers, ⟨goConfig, [], data, rix, by decide, hb, ho, fun _ => rfl, fun _ => rfl, ?_⟩, hix⟩
  intro f hf
  rw [hix, List.mem_singleton] at hf
  rw [hf]

/-- The program of `xx([abc]|d.*e)`. -/
def badProg : Prog :=
  { inst := [.fail, .rune1 120 2, .rune1 120 3, .alt 4 5, .rune [97, 99] false 9, .rune1 100 6, .alt 7 8,
      .runeAnyNotNL 6, .rune1 101 9, .accept]
    start := 1 }

theorem rune1_has {orbit : Rune → List Rune} {r x : Rune} {out : Nat} :
    InstHas orbit (.rune1 r out) x ↔ FoldsTo orbit false r x := by
  simp [InstHas, FoldsTo]

theorem badProg_compiles {orbit : Rune → List Rune} : Compiles orbit badRe badProg := by
  refine ⟨9, ?_, rfl⟩
  refine .concatCons (m := 3) (.litCons (i := .rune1 120 2) rfl rfl (fun _ => rune1_has)
    (.litCons (i := .rune1 120 3) rfl rfl (fun _ => rune1_has) .litNil)) ?_
  refine .concatCons (m := 9) (.capture ?_) .concatNil
  refine .altCons (i := .alt 4 5) rfl (.inl rfl)
    (.charClass (i := .rune [97, 99] false 9) rfl rfl (fun x => by simp [InstHas, rangePairs])) (.altOne ?_)
  refine .concatCons (m := 6) (.litCons (i := .rune1 100 6) rfl rfl (fun _ => rune1_has) .litNil) ?_
  refine .concatCons (m := 8) (.star (i := .alt 7 8) rfl (.inl rfl)
    (.anyCharNotNL (i := .runeAnyNotNL 6) rfl rfl (fun _ => Iff.rfl))) ?_
  exact .concatCons (m := 9) (.litCons (i := .rune1 101 9) rfl rfl (fun _ => rune1_has) .litNil) .concatNil

theorem badProg_ok : ProgOK badProg where
  start := by decide
  len := by decide
  targets := by
    intro i hi t ht
    simp only [badProg, List.mem_cons, List.not_mem_nil, or_false] at hi
    rcases hi with rfl | rfl | rfl | rfl | rfl | rfl | rfl | rfl | rfl | rfl <;> simp at ht <;>
      simp [badProg] <;> omega

theorem badProg_runes : ∀ i ∈ badProg.inst, RuneOK exOrbit i := by
  intro i hi
  simp only [badProg, List.mem_cons, List.not_mem_nil, or_false] at hi
  rcases hi with rfl | rfl | rfl | rfl | rfl | rfl | rfl | rfl | rfl | rfl <;> simp only [RuneOK]
  · decide
  · decide
  · refine ⟨trivial, ?_, ?_⟩
    · intro p hp
      simp [rangePairs] at hp
      subst hp
      simp [ClearRange]
    · intro a b h; simp at h
  · decide
  · decide

/-- The compiled pattern `xx([abc]|d.*e)`. -/
theorem bad_compiled : ∃ c, CompiledFrom goGrow exOrbit badRe badProg c := by
  obtain ⟨q, h1, h2, _⟩ := toByteProg_succeeds exOrbit_ascii badProg_ok badProg_runes
  have hlen : q.inst.length < 2 ^ 32 := by
    have : (toByteProg exOrbit badProg).map (fun q => decide (q.inst.length < 2 ^ 32)) = some true := by decide +kernel
    rw [h1] at this
    simpa using this
  obtain ⟨mt, hmt⟩ := exists_matcherOf (h2 hlen)
  exact ⟨⟨mt, _⟩, badProg_compiles, badProg_ok, ⟨q, h1, hlen, hmt⟩, rfl⟩

theorem badRe_within {orbit : Rune → List Rune} : MatchWithin orbit badRe b!"xxd-e" 0 5 := by
  refine ⟨0, 5, by decide, by decide, by decide, ?_⟩
  simp only [badRe, MatchAt, ConcatAt, AlternateAt, LitAt]
  refine ⟨2, ⟨120, 1, Or.inl rfl, (by unfold RuneAt; decide), 120, 2, Or.inl rfl, (by unfold RuneAt; decide), rfl⟩,
    5, Or.inr (Or.inl ⟨3, ⟨100, 3, Or.inl rfl, (by unfold RuneAt; decide), rfl⟩, 4,
      ⟨1, 4, ⟨45, by decide, (by unfold RuneAt; decide)⟩, rfl⟩, 5,
      ⟨101, 5, Or.inl rfl, (by unfold RuneAt; decide), rfl⟩, rfl⟩), rfl⟩

/-- C01 does not hold: the search for `xx([abc]|d.*e)` in an index over a file with the single line `xxd-e` reports
nothing. -/
theorem not_searchCompleteFull : ¬ SearchCompleteFull := by
  intro hfull
  obtain ⟨c, hc⟩ := bad_compiled
  obtain ⟨ix, answers, hix, hfiles⟩ := exists_serves b!"f" b!"xxd-e" (by decide) (by decide +kernel) (by decide) (by decide)
  have hrep := hfull exOrbit exOrbit_ascii badRe badProg c hc ix _ answers hix (fun _ => some c) id [] {} rfl
    ⟨rfl, rfl, by decide, by decide, by decide⟩ b!"f" b!"xxd-e" 0 5 (by rw [hfiles]; simp)
    ⟨by decide, by decide, by decide, .inl rfl, .inl rfl⟩ (by decide) badRe_within
  have hq : c.query = .mk .or [[120, 120, 97], [120, 120, 98], [120, 120, 99], [120, 120, 101]] [] := by
    rw [hc.query, badRe_query]
  have h3 : ThreeByte c.query := by rw [hq]; simp [ThreeByte, ThreeByteL]
  have hne : NoEmptyAnd c.query := by rw [hq]; simp [NoEmptyAnd, NoEmptyAndL]
  obtain ⟨r, hr, hrm⟩ := plain_search (compile := fun _ => some c) (quoteMeta := id) (pat := []) (opt := {}) hix h3 hne rfl
    ⟨rfl, rfl, by decide, by decide, by decide⟩
  obtain ⟨r', hr', fm, hfm, _⟩ := hrep
  rw [hr] at hr'
  cases hr'
  rw [hrm] at hfm
  obtain ⟨i, hi, _⟩ := List.mem_filterMap.mp hfm
  obtain ⟨cfg, paths, data, rix, hcf, hb, ho, hpq, _, _⟩ := hix
  obtain ⟨l, hl, _, hmem⟩ := postingQuery_partial hcf hb ho h3 hne
  rw [hpq, hl] at hi
  obtain ⟨name, content, hi', hs⟩ := (hmem i).mp hi
  have := List.mem_of_getElem? hi'
  rw [hfiles, List.mem_singleton] at this
  cases this
  rw [hq] at hs
  exact absurd ((satB_iff _).2 hs) (by decide)

end Hound
