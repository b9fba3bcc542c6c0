import Verif.Spec.Answered
import Verif.Proofs.ParseTotal
import Verif.Proofs.ByteTotal
import Verif.Props.GoCompile
import Verif.Props.Complete
import Verif.Props.FileByFile
import Verif.Props.Pattern
import Verif.Props.Api

/-!
# C94: every search is answered

For any text as pattern, any options, and any index: nothing panics and the parser does not run on for ever.
-/

namespace Hound.GoRe
open Hound Hound.Spec Hound.Spec.Pat

variable {T : Tables} {uni : Bytes → Option (Rune → Prop)} {orbit : Rune → List Rune}

theorem instBounded_inner : Inner InstBounded where
  set a v i h := by
    cases i with
    | alt o x => cases a <;> simp [setSlot, InstBounded]
    | altMatch o x => cases a <;> simp [setSlot, InstBounded]
    | _ => simpa [setSlot, InstBounded] using h
  nop := trivial
  capture := trivial
  alt _ _ := trivial

theorem instBounded_runes {rs : List Rune} {f : Bool} (h : rs.length = 1 ∨ rs.length % 2 = 0) (h' : ∀ r ∈ rs, r ≤ 0x10FFFF) :
    InstBounded (runeInstOf orbit rs f) := by
  unfold runeInstOf
  split
  · split
    · exact ⟨.inl rfl, h'⟩
    · exact h' _ (by simp)
  · split
    · exact h' _ (by simp)
    · split
      · trivial
      · exact ⟨.inr (by simp), h'⟩
  · split
    · trivial
    · exact ⟨.inr (by simp), h'⟩
  · exact ⟨h, h'⟩

theorem flatRanges_even : ∀ r : Ranges, (flatRanges r).length % 2 = 0
  | [] => rfl
  | _ :: r => by
    have := flatRanges_even r
    simp only [flatRanges, List.length_cons]
    omega

theorem flatRanges_bounded : ∀ {r : Ranges}, ROk r → ∀ x ∈ flatRanges r, x ≤ 0x10FFFF
  | [], _, x, hx => by simp [flatRanges] at hx
  | (a, b) :: r, h, x, hx => by
    obtain ⟨h1, h2⟩ := ROk_cons.1 h
    simp only [flatRanges, List.mem_cons] at hx
    rcases hx with rfl | rfl | hx
    · exact Nat.le_trans h1.1 h1.2
    · exact h1.2
    · exact flatRanges_bounded h2 x hx

mutual
theorem coded_leaves : ∀ s : Syn, Coded s → ∀ i ∈ leaves orbit s, InstBounded i
  | .noMatch, _, i, hi | .emptyMatch, _, i, hi => by simp [leaves] at hi
  | .anyCharNotNL, _, i, hi | .anyChar, _, i, hi | .beginLine, _, i, hi | .endLine, _, i, hi | .beginText, _, i, hi
  | .endText _, _, i, hi | .wordBoundary, _, i, hi | .noWordBoundary, _, i, hi => by
    simp only [leaves, List.mem_singleton] at hi; subst hi; trivial
  | .literal rs fold, h, i, hi => by
    simp only [Coded, Made] at h
    simp only [leaves, List.mem_map] at hi
    obtain ⟨r, hr, rfl⟩ := hi
    refine instBounded_runes (.inl rfl) ?_
    intro x hx
    rw [List.mem_singleton] at hx
    subst hx
    exact (h x hr).1
  | .charClass ranges, h, i, hi => by
    simp only [Coded, Made] at h
    simp only [leaves, List.mem_singleton] at hi; subst hi
    exact instBounded_runes (.inr (flatRanges_even _)) (flatRanges_bounded h.1)
  | .capture _ _ r, h, i, hi | .star _ r, h, i, hi | .plus _ r, h, i, hi | .quest _ r, h, i, hi => by
    simp only [Coded, Made] at h
    simp only [leaves] at hi
    exact coded_leaves r h i hi
  | .rep _ r _ _, h, i, hi => by
    simp only [Coded, Made] at h
    simp only [leaves] at hi
    exact coded_leaves r h.2 i hi
  | .concat rs, h, i, hi | .alternate rs, h, i, hi => by
    simp only [Coded, Made] at h
    simp only [leaves] at hi
    exact coded_leavesL rs h i hi
theorem coded_leavesL : ∀ rs : List Syn, MadeAll True anyL anyC rs → ∀ i ∈ leavesL orbit rs, InstBounded i
  | [], _, i, hi => by simp [leavesL] at hi
  | r :: rs, h, i, hi => by
    simp only [MadeAll] at h
    simp only [leavesL, List.mem_append] at hi
    exact hi.elim (coded_leaves r h.1 i) (coded_leavesL rs h.2 i)
end

theorem orbit_bounded (hc : FoldCycles orbit) (c : Nat) (_ : c ≤ 0x10FFFF) (f : Rune) (hf : f ∈ orbit c) : f ≤ 0x10FFFF :=
  Nat.le_trans (hc.bounds c f hf).2.2 (by decide)

/-- Every tree the parser makes is compiled, and turned into a program of byte ranges whose instructions lead to instructions. -/
theorem coded_compiles (hc : FoldCycles T.orbit) {t : Syn} (h : Coded t) :
    ∃ p q, compileProg T.orbit (simplify t) = some p ∧ toByteProg T.orbit p = some q ∧ p.inst.length ≤ q.inst.length ∧
      (q.inst.length < 2 ^ 32 → ProgOK q) := by
  obtain ⟨p, h1, h2, h3, h4⟩ := compileProg_inv (orbit := T.orbit) instBounded_inner trivial trivial t (coded_leaves t h)
  have hcl : Hound.Closed p.inst := by
    intro i hi x hx
    refine h4 i hi x ?_
    cases i <;> simpa [nextsOf] using hx
  obtain ⟨q, q1, q2, q3, q4⟩ := toByteProg_total (orbit_bounded hc) hcl h2
  exact ⟨p, q, h1, q1, q4, fun hl => ⟨by rw [q2]; omega, hl, q3⟩⟩

/-- **C94** Every text is a pattern for which there is a program, or it is refused, with one of the errors the parser has for such texts:
the parser comes to its end, and neither `syntax.Compile` nor `toByteProg` panics. -/
theorem pattern_read_or_refused (hc : FoldCycles T.orbit) (hn : NamesOnly T uni) (hd : Describes T uni) (text : Bytes) :
    (Refused T text ∧ ∀ q, ¬ ByteProgramOf T text q) ∨ (¬ Refused T text ∧ ∃ q, ByteProgramOf T text q) := by
  have h := parse_sound hc hn hd text
  cases e : parse T text with
  | error x =>
    refine .inl ⟨⟨x, e, h.1 x e⟩, ?_⟩
    rintro q ⟨t, p, h1, -⟩
    rw [e] at h1
    cases h1
  | ok t =>
    obtain ⟨p, q, h1, h2, -⟩ := coded_compiles hc (h.2 t e)
    refine .inr ⟨?_, q, t, p, e, h1, h2⟩
    rintro ⟨x, h3, -⟩
    rw [e] at h3
    cases h3

/-- **C94** The matcher of every pattern whose program has fewer than 2^32 instructions answers every call, after any calls. -/
theorem match_calls_return (hc : FoldCycles T.orbit) (hn : NamesOnly T uni) (hd : Describes T uni) {text : Bytes} {q : Prog}
    (h : ByteProgramOf T text q) (hl : q.inst.length < 2 ^ 32) :
    ∃ M, Matcher.init q = some M ∧ ∀ history, ∃ M', M.calls q history = some M' ∧
      ∀ b bt et, ∃ M'' r, M'.run q b bt et = some (M'', r) := by
  obtain ⟨t, p, h1, h2, h3⟩ := h
  obtain ⟨p', q', k1, k2, -, k4⟩ := coded_compiles hc ((parse_sound hc hn hd text).2 t h1)
  rw [h2] at k1
  cases k1
  rw [h3] at k2
  cases k2
  exact matcher_total (k4 hl)

open Classical in
/-- There is such a `Compile`. -/
theorem exists_compilesAll (hc : FoldCycles T.orbit) (hn : NamesOnly T uni) (hd : Describes T uni) (grow : Nat → Nat → Nat) :
    ∃ compile, CompilesAll T grow compile := by
  have key : ∀ text t, parse T text = .ok t → ∃ c : Compiled Query, c.query = (HInfo.regexpQuery grow T.orbit t.re).1 ∧
      (Fits T text → CompiledTree grow T.orbit t c) := by
    intro text t e
    obtain ⟨p, q, k1, k2, k3, k4⟩ := coded_compiles hc ((parse_sound hc hn hd text).2 t e)
    by_cases hf : Fits T text
    · have hl := hf q ⟨t, p, e, k1, k2⟩
      obtain ⟨mt, hmt⟩ := exists_matcherOf (k4 hl)
      exact ⟨⟨mt, _⟩, rfl, fun _ => ⟨⟨p, q, k1, by omega, k2, hl, hmt⟩, rfl⟩⟩
    · exact ⟨⟨fun _ => none, _⟩, rfl, fun h => absurd h hf⟩
  refine ⟨fun text => if h : ∃ t, parse T text = .ok t then some (Classical.choose (key text h.choose h.choose_spec)) else none, ?_, ?_⟩
  · intro text e he
    rw [dif_neg]
    rintro ⟨t, ht⟩
    rw [he] at ht
    cases ht
  · intro text t ht
    have hex : ∃ t, parse T text = .ok t := ⟨t, ht⟩
    refine ⟨_, dif_pos hex, ?_⟩
    have hs := Classical.choose_spec (key text hex.choose hex.choose_spec)
    have e : hex.choose = t := by
      have := hex.choose_spec.symm.trans ht
      injection this
    generalize Classical.choose (key text hex.choose hex.choose_spec) = c at hs ⊢
    rwa [e] at hs

variable {grow : Nat → Nat → Nat} {compile : Bytes → Option (Compiled Query)} {quoteMeta : Bytes → Bytes} {ix : IndexView Query}
  {files : List (Bytes × Reader)} {answers : List (Option SkipReason)} {pat : Bytes} {opt : SearchOptions}

theorem CompilesAll.queries (h : CompilesAll T grow compile) : QueriesOfPatterns compile := by
  intro pat c hc
  cases e : parse T pat with
  | error x => rw [h.refuses pat x e] at hc; cases hc
  | ok t =>
    obtain ⟨c', h1, h2, -⟩ := h.accepts pat t e
    rw [hc] at h1
    cases h1
    exact ⟨_, _, _, h2⟩

theorem compile_none_iff (hc : FoldCycles T.orbit) (hn : NamesOnly T uni) (hd : Describes T uni) (h : CompilesAll T grow compile) (text : Bytes) :
    compile text = none ↔ Refused T text := by
  cases e : parse T text with
  | error x => exact ⟨fun _ => ⟨x, e, (parse_sound hc hn hd text).1 x e⟩, fun _ => h.refuses text x e⟩
  | ok t =>
    obtain ⟨c, h1, -⟩ := h.accepts text t e
    constructor
    · intro h2; rw [h1] at h2; cases h2
    · rintro ⟨x, h2, -⟩; rw [e] at h2; cases h2

theorem searchFile_ok {re : Compiled Query} {fre ex : Option (Compiled Query)} {st : SearchState} {f : Nat}
    (hr : nameRejected fre ex (ix.name f) = false → (ix.raw (ix.name f)).isSome) :
    ∃ st', searchFile opt re fre ex ix st f = .ok st' := by
  unfold searchFile
  simp only
  split
  · exact ⟨_, rfl⟩
  · rename_i hn
    split
    · exact ⟨_, rfl⟩
    · obtain ⟨buf, hb⟩ := Option.isSome_iff_exists.1 (hr (by simpa using hn))
      rw [hb]
      simp only
      split
      · exact ⟨_, rfl⟩
      · split <;> exact ⟨_, rfl⟩

theorem searchLoop_answers {re : Compiled Query} {fre ex : Option (Compiled Query)} : ∀ (fs : List Nat) (st : SearchState),
    Readable fre ex ix fs → ∃ st', searchLoop opt re fre ex ix fs st = .ok st'
  | [], st, _ => ⟨st, rfl⟩
  | f :: fs, st, h => by
    obtain ⟨st', h1⟩ := searchFile_ok (opt := opt) (re := re) (st := st) (h f (by simp))
    rw [searchLoop, h1]
    exact searchLoop_answers fs st' (fun g hg => h g (List.mem_cons_of_mem _ hg))

theorem compileOpt_cases (hc : FoldCycles T.orbit) (hn : NamesOnly T uni) (hd : Describes T uni) (h : CompilesAll T grow compile) (text : Bytes) :
    ((text ≠ [] ∧ Refused T text) ∧ compileOpt compile text = .error .badPattern) ∨
      (¬ (text ≠ [] ∧ Refused T text) ∧ ∃ c, compileOpt compile text = .ok c) := by
  unfold compileOpt
  split
  · rename_i e
    exact .inr ⟨fun h => h.1 e, _, rfl⟩
  · rename_i hne
    cases e : compile text with
    | none => exact .inl ⟨⟨hne, (compile_none_iff hc hn hd h text).1 e⟩, rfl⟩
    | some c =>
      refine .inr ⟨fun h' => ?_, _, rfl⟩
      rw [(compile_none_iff hc hn hd h text).2 h'.2] at e
      cases e

/-- **C94** Every search in an index is answered: with an answer if all its patterns are accepted, and with an error that says that a pattern
is bad if one of them is refused. -/
theorem search_answered (hc : FoldCycles T.orbit) (hn : NamesOnly T uni) (hd : Describes T uni) (h : CompilesAll T grow compile)
    (hix : ServesFiles ix files answers) (quoteMeta : Bytes → Bytes) (pat : Bytes) (opt : SearchOptions) :
    ((∃ text, PatternOf pat quoteMeta opt text ∧ Refused T text) ∧ search compile quoteMeta ix pat opt = .error .badPattern) ∨
      ((∀ text, PatternOf pat quoteMeta opt text → ¬ Refused T text) ∧ ∃ r, search compile quoteMeta ix pat opt = .ok r) := by
  have hfull : getRegexpPattern (if opt.literalSearch then quoteMeta pat else pat) opt.ignoreCase = fullPattern quoteMeta pat opt := by
    unfold getRegexpPattern fullPattern
    cases opt.ignoreCase <;> simp
  unfold search
  simp only [hfull]
  cases e : compile (fullPattern quoteMeta pat opt) with
  | none => exact .inl ⟨⟨_, .inl rfl, (compile_none_iff hc hn hd h _).1 e⟩, rfl⟩
  | some re =>
    simp only
    rcases compileOpt_cases hc hn hd h opt.fileRegexp with ⟨h1, h2⟩ | ⟨h1, fre, h2⟩
    · exact .inl ⟨⟨_, .inr (.inl ⟨rfl, h1.1⟩), h1.2⟩, by rw [h2]⟩
    rw [h2]
    simp only
    rcases compileOpt_cases hc hn hd h opt.excludeFileRegexp with ⟨h3, h4⟩ | ⟨h3, ex, h4⟩
    · exact .inl ⟨⟨_, .inr (.inr ⟨rfl, h3.1⟩), h3.2⟩, by rw [h4]⟩
    rw [h4]
    simp only
    obtain ⟨q1, q2⟩ := queries_ok h.queries e
    obtain ⟨st, h5⟩ := searchLoop_answers (opt := opt) (re := re) (ix.postingQuery re.query) {} (serves_readable hix q1 q2 fre ex)
    rw [h5]
    refine .inr ⟨?_, _, rfl⟩
    rintro text (rfl | ⟨rfl, hne⟩ | ⟨rfl, hne⟩) hr
    · have : compile (fullPattern quoteMeta pat opt) = none := (compile_none_iff hc hn hd h _).2 hr
      rw [e] at this
      cases this
    · exact h1 ⟨hne, hr⟩
    · exact h3 ⟨hne, hr⟩

/-- **C94** Looking up the candidates of a pattern in an index that was built returns, and so does looking up their names: neither panics. -/
theorem lookups_return (h : CompilesAll T grow compile) {cfg : IWConfig} {paths : List Bytes} {data : Bytes} {rix : RIndex} {text : Bytes}
    {c : Compiled Query} (hp : 0 < cfg.npost) (hb : buildIndex cfg paths files = some (answers, data)) (ho : RIndex.open data = some rix)
    (hc : compile text = some c) :
    ∃ l, rix.postingQuery c.query none = some l ∧ ∀ i ∈ l, ∃ name, rix.name i = some name := by
  obtain ⟨q1, q2⟩ := queries_ok h.queries hc
  obtain ⟨l, h1, -, h2⟩ := postingQuery_partial hp hb ho q1 q2
  obtain ⟨rix', h3, -, h4, -⟩ := index_names hp hb
  rw [ho] at h3
  cases h3
  refine ⟨l, h1, fun i hi => ?_⟩
  obtain ⟨name, content, h5, -⟩ := (h2 i).1 hi
  exact ⟨name, h4 i name content h5⟩

/-- **C94** Every search request of the API is answered, whatever its parameters are and whichever index each repository has when it is
searched: with the error for a bad pattern exactly if one of its patterns is refused and a repository is searched, with results otherwise. -/
theorem request_answered (hc : FoldCycles T.orbit) (hn : NamesOnly T uni) (hd : Describes T uni) (h : CompilesAll T grow compile)
    {searched : Bytes → Except SearchErr SearchResponse → Prop} {form : Bytes → Bytes} {dflt : Int} {repos : List Bytes}
    {out : Except SearchErr Api.AllFound}
    (hs : ∀ n r, searched n r → ∃ ix files answers, ServesFiles ix files answers ∧
      r = search compile quoteMeta ix (form b!"q") (Api.searchOptions form dflt))
    (hr : Api.SearchAllRun searched repos out) :
    ((repos ≠ [] ∧ ∃ text, PatternOf (form b!"q") quoteMeta (Api.searchOptions form dflt) text ∧ Refused T text) ∧ out = .error .badPattern) ∨
      ((repos = [] ∨ ∀ text, PatternOf (form b!"q") quoteMeta (Api.searchOptions form dflt) text → ¬ Refused T text) ∧ ∃ o, out = .ok o) := by
  cases out with
  | error e =>
    obtain ⟨n, hin, hse⟩ := Api.searchAll_error hr
    obtain ⟨ix, files, answers, hix, he⟩ := hs n _ hse
    rcases search_answered hc hn hd h hix quoteMeta (form b!"q") (Api.searchOptions form dflt) with ⟨h1, h2⟩ | ⟨-, r, h2⟩
    · rw [h2] at he
      exact .inl ⟨⟨List.ne_nil_of_mem hin, h1⟩, by injection he with he; rw [he]⟩
    · rw [h2] at he
      cases he
  | ok o =>
    refine .inr ⟨?_, o, rfl⟩
    cases repos with
    | nil => exact .inl rfl
    | cons n rest =>
      refine .inr ?_
      have hok : ∃ r, searched n (.ok r) := by
        obtain ⟨h1, h2⟩ := Api.searchAll_ok hr
        cases ho : o.results n with
        | some r => exact ⟨r, (h1 n r ho).2.1⟩
        | none =>
          rcases h2 n ho with h3 | ⟨r, h3, -⟩
          · exact absurd (List.mem_cons_self ..) h3
          · exact ⟨r, h3⟩
      obtain ⟨r, hok⟩ := hok
      obtain ⟨ix, files, answers, hix, he⟩ := hs n _ hok
      rcases search_answered hc hn hd h hix quoteMeta (form b!"q") (Api.searchOptions form dflt) with ⟨-, h2⟩ | ⟨h1, -⟩
      · rw [h2] at he
        cases he
      · exact h1

/-! ## Cases -/

/-- Has the parser an error for the text? -/
def refusedText (T : Tables) (text : Bytes) : Bool := match parse T text with
  | .error .internal => false
  | .error _ => true
  | .ok _ => false

theorem refused_iff (T : Tables) (text : Bytes) : Refused T text ↔ refusedText T text = true := by
  unfold refusedText Refused
  cases parse T text with
  | ok t => simp
  | error e => cases e <;> simp

/-- A text with half of a surrogate pair and one with repetitions of repetitions have programs; a text with a bracket too few and one with
a class of Unicode there is not are refused. -/
example : (∃ q, ByteProgramOf (exTables false) b!"\\x{D800}+" q) ∧
    (∃ q, ByteProgramOf (exTables false) b!"(?i)((k{2,3})*|[^\\p{Nd}]$)+?" q) ∧
    Refused (exTables false) b!"a(b" ∧ Refused (exTables false) b!"\\p{Nothing}" := by
  have h := fun text => pattern_read_or_refused exOrbit_cycles (exNamesOnly false) (exDescribes false) (T := exTables false) text
  refine ⟨?_, ?_, ?_, ?_⟩
  · exact ((h _).resolve_left fun k => absurd ((refused_iff _ _).1 k.1) (by decide +kernel)).2
  · exact ((h _).resolve_left fun k => absurd ((refused_iff _ _).1 k.1) (by decide +kernel)).2
  · exact (refused_iff _ _).2 (by decide +kernel)
  · exact (refused_iff _ _).2 (by decide +kernel)

/-- In an index of one file: a search for a text with a bracket too few gets an error, as does a search with such a pattern for file names, and
a search for half of a surrogate pair gets an answer. -/
example : ∃ (compile : Bytes → Option (Compiled Query)) (ix : IndexView Query) (answers : List (Option SkipReason)),
    CompilesAll (exTables false) goGrow compile ∧ ServesFiles ix [(b!"a.go", ⟨[b!"ad\nwAqbb\n"], false⟩)] answers ∧
    search compile id ix b!"a(b" {} = .error .badPattern ∧
    search compile id ix b!"a" { fileRegexp := b!"*.go" } = .error .badPattern ∧
    ∃ r, search compile id ix b!"\\x{D800}+" { ignoreCase := true, excludeFileRegexp := b!"\\.go$" } = .ok r := by
  obtain ⟨compile, hcomp⟩ := exists_compilesAll exOrbit_cycles (exNamesOnly false) (exDescribes false) (T := exTables false) goGrow
  obtain ⟨ix, answers, hix, -⟩ := exists_serves b!"a.go" b!"ad\nwAqbb\n" (by decide) (by decide +kernel) (by decide) (by decide)
  have h := search_answered exOrbit_cycles (exNamesOnly false) (exDescribes false) hcomp hix id
  refine ⟨compile, ix, answers, hcomp, hix, ?_, ?_, ?_⟩
  · exact ((h _ _).resolve_right fun k => k.1 _ (.inl rfl) ((refused_iff _ _).2 (by decide +kernel))).2
  · exact ((h _ _).resolve_right fun k => k.1 b!"*.go" (.inr (.inl ⟨rfl, by decide⟩)) ((refused_iff _ _).2 (by decide +kernel))).2
  · refine ((h _ _).resolve_left ?_).2
    rintro ⟨⟨text, ht, hr⟩, -⟩
    rw [refused_iff] at hr
    rcases ht with rfl | ⟨rfl, hne⟩ | ⟨rfl, hne⟩
    · exact absurd hr (by decide +kernel)
    · exact hne rfl
    · exact absurd hr (by decide +kernel)

/-- Searches of fixed answers end. -/
theorem exists_run (answer : Bytes → Except SearchErr SearchResponse) (repos : List Bytes) :
    ∃ out, Api.SearchAllRun (fun n r => r = answer n) repos out := by
  refine ⟨_, repos.map fun n => (n, answer n), _, ?_, ?_, .refl _, rfl⟩
  · simp [Function.comp_def]
  · intro a ha
    obtain ⟨n, -, rfl⟩ := List.mem_map.1 ha
    rfl

/-- The parameters of a request with a bad pattern for the files to leave out. -/
def badForm (k : Bytes) : Bytes := if k = b!"q" then b!"wAq" else if k = b!"excludeFiles" then b!"(" else []

/-- The request, to two repositories with such an index. -/
example : ∃ (compile : Bytes → Option (Compiled Query)) (ix : IndexView Query) (out : Except SearchErr Api.AllFound),
    Api.SearchAllRun (fun _ r => r = search compile id ix (badForm b!"q") (Api.searchOptions badForm 5000)) [b!"one", b!"two"] out ∧
    out = .error .badPattern := by
  obtain ⟨compile, hcomp⟩ := exists_compilesAll exOrbit_cycles (exNamesOnly false) (exDescribes false) (T := exTables false) goGrow
  obtain ⟨ix, answers, hix, -⟩ := exists_serves b!"a.go" b!"ad\nwAqbb\n" (by decide) (by decide +kernel) (by decide) (by decide)
  obtain ⟨out, hout⟩ := exists_run (fun _ => search compile id ix (badForm b!"q") (Api.searchOptions badForm 5000)) [b!"one", b!"two"]
  refine ⟨compile, ix, out, hout, ((request_answered exOrbit_cycles (exNamesOnly false) (exDescribes false) hcomp (quoteMeta := id)
    (form := badForm) (dflt := 5000) (fun n r hr => ⟨ix, _, answers, hix, hr⟩) hout).resolve_right ?_).2⟩
  rintro ⟨h | h, -⟩
  · cases h
  · exact h b!"(" (.inr (.inr ⟨by decide, by decide⟩)) ((refused_iff _ _).2 (by decide +kernel))

end Hound.GoRe
