import Verif.Props.Pattern
import Verif.Spec.FileFilter

/-!
# C84: searches in the files chosen by name
-/

namespace Hound
open Spec Spec.Pat GoRe

/-- A pattern for file names that is understood: it is properly written and parsed to what is written (C80), and its tree is one that is compiled
correctly (C17). -/
structure NamePattern (T : Tables) (uni : Bytes → Option (Rune → Prop)) (p : Alts) : Prop where
  proper : p.Ok uni []
  copies : p.copies ≤ 1000
  settled : p.Settled T.orbit uni noFlags
  tree : ∀ t, parse T p.text = .ok t → RunesOK T.orbit t

/-- Nothing but properties of the written pattern is asked of patterns without alternatives. -/
theorem namePattern_noBar {T : Tables} {uni : Bytes → Option (Rune → Prop)} {p : Alts} (hf : AsciiFolds T.orbit) (hcy : FoldCycles T.orbit)
    (hv : ValidFolds T.orbit) (hd : Describes T uni) (hok : p.Ok uni []) (hk : p.copies ≤ 1000) (hn : ¬ p.Forks)
    (hp : p.All T.orbit uni (PlainChar T.orbit) (PlainSet T.orbit) noFlags) : NamePattern T uni p := by
  refine ⟨hok, hk, noBar_alts p _ hn, fun t h => ?_⟩
  obtain ⟨t', h1, h2, -⟩ := parse_neat hcy hf hv hd hok hk hn hp
  cases h1.symm.trans h
  exact neat_runes t h2

/-- The filter of a search is this pattern, or there is none. -/
structure FilterIs (T : Tables) (uni : Bytes → Option (Rune → Prop)) (grow : Nat → Nat → Nat) (compile : Bytes → Option (Compiled Query))
    (text : Bytes) (p : Option Alts) : Prop where
  text : text = (p.map Alts.text).getD []
  pattern : ∀ q, p = some q → q.text ≠ [] ∧ NamePattern T uni q
  compiles : ∀ q, p = some q → ∃ c, compile q.text = some c ∧ CompiledText T grow q.text c

section
variable {T : Tables} {uni : Bytes → Option (Rune → Prop)} {grow : Nat → Nat → Nat} {compile : Bytes → Option (Compiled Query)}

/-- A compiled pattern finds something in a file name exactly if the pattern has a match in it. -/
theorem nameMatcher (hf : AsciiFolds T.orbit) (hcy : FoldCycles T.orbit) (hd : Describes T uni) {p : Alts} (hp : NamePattern T uni p)
    {c : Compiled Query} (hc : CompiledText T grow p.text c) {name : Bytes} (hn : OrdinaryName name) :
    (c.mt name = some name.length ∧ NameHas T.orbit uni p name) ∨ (c.mt name = none ∧ ¬ NameHas T.orbit uni p name) := by
  obtain ⟨t, h1, ⟨pr, q, k1, k2, k3, k4, k5⟩, -⟩ := hc
  obtain ⟨s, g1, g2, g3⟩ := parse_settled (B := True) hcy hd hp.proper hp.copies hp.settled fun _ => trivial
  cases g1.symm.trans h1
  have hr := hp.tree _ g1
  have hpk := compile_progOK k1 k2
  have hok := compile_runeOK k1 hr
  have hlm := matcherOf_line (progOK_bytes hf hpk hok k3 k4) k5
  have hm := hlm name hn.1
  rw [pieces_of_nlfree hn.2.1] at hm
  have hsl : slice name 0 name.length = name := by simp [slice]
  have hline : LineAt name 0 name.length := ⟨Nat.zero_le _, Nat.le_refl _, by rw [hsl]; exact hn.2.1, .inl rfl, .inl rfl⟩
  have hacc : Accepts q true true name ↔ NameHas T.orbit uni p name := by
    have e := compile_faithful (made_bounded _ g2) k1 name 0 name.length hline
    rw [hsl] at e
    rw [toByteProg_exact_partial hf hpk hok k3 hn.2.1 hn.2.2]
    simp only [beq_self_eq_true] at e
    rw [e]
    constructor
    · rintro ⟨i, j, -, a1, a2, a3⟩
      exact ⟨i, j, a1, a2, (g3 _ _ _).1 a3⟩
    · rintro ⟨i, j, a1, a2, a3⟩
      exact ⟨i, j, Nat.zero_le _, a1, a2, (g3 _ _ _).2 a3⟩
  by_cases h : NameHas T.orbit uni p name
  · refine .inl ⟨?_, h⟩
    rw [hm]; simp [firstEnd, hacc.2 h]
  · refine .inr ⟨?_, h⟩
    have h' : ¬ Accepts q true true name := fun k => h (hacc.1 k)
    rw [hm]; simp [firstEnd, h']

/-- The filters compile, and let the files through that are chosen. -/
theorem filters_choose (hf : AsciiFolds T.orbit) (hcy : FoldCycles T.orbit) (hd : Describes T uni) {t1 t2 : Bytes} {only except : Option Alts}
    (h1 : FilterIs T uni grow compile t1 only) (h2 : FilterIs T uni grow compile t2 except) :
    ∃ fre ex, compileOpt compile t1 = .ok fre ∧ compileOpt compile t2 = .ok ex ∧
      ∀ name, Judged only except name → (nameRejected fre ex name = false ↔ Chosen T.orbit uni only except name) := by
  have one : ∀ {t : Bytes} {o : Option Alts}, FilterIs T uni grow compile t o → ∃ fre, compileOpt compile t = .ok fre ∧
      (o = none → fre = none) ∧ ∀ q, o = some q → ∃ c, fre = some c ∧ ∀ name, OrdinaryName name →
        (c.mt name = some name.length ∧ NameHas T.orbit uni q name) ∨ (c.mt name = none ∧ ¬ NameHas T.orbit uni q name) := by
    intro t o h
    cases o with
    | none =>
      have ht : t = [] := h.text
      exact ⟨none, by rw [compileOpt, if_pos ht], fun _ => rfl, fun q hq => by cases hq⟩
    | some q =>
      obtain ⟨c, hc, hct⟩ := h.compiles q rfl
      have ht : t = q.text := h.text
      obtain ⟨hne, hnp⟩ := h.pattern q rfl
      refine ⟨some c, by rw [compileOpt, ht, if_neg hne, hc], fun hq => by (cases hq), fun q' hq => ?_⟩
      cases hq
      exact ⟨c, rfl, fun name hn => nameMatcher hf hcy hd hnp hct hn⟩
  obtain ⟨fre, a1, a2, a3⟩ := one h1
  obtain ⟨ex, b1, b2, b3⟩ := one h2
  refine ⟨fre, ex, a1, b1, fun name hn => ?_⟩
  have inc : OrdinaryName name ∨ only = none → (includeRejects fre name = false ↔ ∀ p, only = some p → NameHas T.orbit uni p name) := by
    intro hn
    cases only with
    | none => rw [a2 rfl]; simp [includeRejects]
    | some q =>
      obtain ⟨c, rfl, hc⟩ := a3 q rfl
      rcases hc name (hn.resolve_right (by simp)) with ⟨k1, k2⟩ | ⟨k1, k2⟩ <;> simp [includeRejects, k1, k2]
  have exc : OrdinaryName name ∨ except = none → (excludeRejects ex name = false ↔ ∀ p, except = some p → ¬ NameHas T.orbit uni p name) := by
    intro hn
    cases except with
    | none => rw [b2 rfl]; simp [excludeRejects]
    | some q =>
      obtain ⟨c, rfl, hc⟩ := b3 q rfl
      have hn := hn.resolve_right (by simp)
      have hpos : 0 < name.length := List.length_pos_iff.2 hn.1
      rcases hc name hn with ⟨k1, k2⟩ | ⟨k1, k2⟩ <;> simp [excludeRejects, k1, k2, hpos]
  rw [nameRejected, Bool.or_eq_false_iff, inc (hn.imp id And.left), exc (hn.imp id And.right), Chosen]

end

section
variable {T : Tables} {uni : Bytes → Option (Rune → Prop)} {grow : Nat → Nat → Nat} {p : Alts} {c : Compiled Query} {only except : Option Alts}
  {ix : IndexView Query} {files : List (Bytes × Reader)} {answers : List (Option SkipReason)}
  {compile : Bytes → Option (Compiled Query)} {quoteMeta : Bytes → Bytes} {opt : SearchOptions}

theorem fileHits_filtered {Q : Type} {ctx : Nat} {re : Compiled Q} {fre ex : Option (Compiled Q)} {ix : IndexView Q} {files : List Nat} {fm : FileMatch} :
    fm ∈ fileHits ctx re fre ex ix files ↔ fm ∈ fileHits ctx re none none ix files ∧ nameRejected fre ex fm.filename = false := by
  unfold fileHits
  simp only [List.mem_filterMap]
  have e0 : ∀ n, nameRejected (none : Option (Compiled Q)) none n = false := fun _ => rfl
  constructor
  · rintro ⟨f, hf, h⟩
    split at h
    · cases h
    · rename_i hr
      split at h
      · cases h
      · rename_i buf hb
        split at h
        · cases h
        · rename_i hg
          cases h
          exact ⟨⟨f, hf, by simp [e0, hb, hg]⟩, by simpa using hr⟩
  · rintro ⟨⟨f, hf, h⟩, hr⟩
    simp only [e0] at h
    split at h
    · rename_i hx; simp at hx
    · split at h
      · cases h
      · rename_i buf hb
        split at h
        · cases h
        · rename_i hg
          cases h
          exact ⟨f, hf, by simp only at hr; simp [hr, hb, hg]⟩

/-- **C84**: of the files chosen by name, every line in which the pattern has a match is reported. -/
theorem search_complete_filtered_partial (hf : AsciiFolds T.orbit) (hcy : FoldCycles T.orbit) (hd : Describes T uni) (hok : p.Ok uni [])
    (hk : p.copies ≤ 1000) (hl : opt.literalSearch = false) (hs : p.Settled T.orbit uni (searchMode opt))
    (hc : CompiledText T grow (fullPattern quoteMeta p.text opt) c) (ht : TreeOK T grow (fullPattern quoteMeta p.text opt))
    (hix : ServesFiles ix files answers) (hcomp : compile (fullPattern quoteMeta p.text opt) = some c)
    (h1 : FilterIs T uni grow compile opt.fileRegexp only) (h2 : FilterIs T uni grow compile opt.excludeFileRegexp except)
    (ho : opt.maxResults ≤ 0 ∧ opt.offset ≤ 0 ∧ opt.limit ≤ 0) :
    ∃ r, search compile quoteMeta ix p.text opt = .ok r ∧ ∀ {name content : Bytes} {s e : Nat}, (name, content) ∈ indexedFiles files answers →
      Judged only except name → Chosen T.orbit uni only except name →
      LineAt content s e → s < content.length → PatternWithin T.orbit uni (searchMode opt) p content s e →
      ∃ fm ∈ r.matches_, fm.filename = name ∧ ∃ m ∈ fm.matches_, m.lineno = (content.take s).count NL + 1 ∧ m.line = slice content s e := by
  obtain ⟨fre, ex, k1, k2, k3⟩ := filters_choose hf hcy hd h1 h2
  obtain ⟨t, htt, hct⟩ := hc
  have hq : c.query = (HInfo.regexpQuery grow T.orbit t.re).1 := hct.2
  have h3b : ThreeByte c.query := by rw [hq]; exact regexpQuery_threeByte
  have hne : NoEmptyAnd c.query := by rw [hq]; exact regexpQuery_noEmptyAnd
  obtain ⟨opt0, hopt0⟩ : ∃ o, o = { opt with fileRegexp := [], excludeFileRegexp := [] } := ⟨_, rfl⟩
  have hpl : Spec.Plain opt0 := by subst hopt0; exact ⟨rfl, rfl, ho.2.1, ho.2.2, ho.1⟩
  have hfull : fullPattern quoteMeta p.text opt0 = fullPattern quoteMeta p.text opt := by subst hopt0; rfl
  obtain ⟨r0, hr0, hm0⟩ := plain_search hix h3b hne (by rw [hfull]; exact hcomp) hpl
  have hread : Readable fre ex ix (ix.postingQuery c.query) := by
    intro i hi _
    obtain ⟨f, _, _, hr⟩ := (serves_candidates hix h3b hne).1 i hi
    rw [hr]; rfl
  obtain ⟨st, g1, g2, -⟩ := searchLoop_uncapped opt c fre ex ix (by omega) _ {} hread
  refine ⟨_, search_fold hcomp k1 k2 g1, fun {name content s e} hfile hn hch hline hse hm => ?_⟩
  obtain ⟨r', hr', fm, hfm, hname, h⟩ := search_complete_pattern_partial (opt := opt0) hf hcy hd hok hk (by subst hopt0; exact hl)
    (by subst hopt0; exact hs) ⟨t, by rw [hfull]; exact htt, hct⟩ (by rw [hfull]; exact ht) hix (by rw [hfull]; exact hcomp) hpl hfile hline hse
    (by subst hopt0; exact hm)
  cases hr0.symm.trans hr'
  refine ⟨fm, ?_, hname, h⟩
  have e1 : opt.offset.toNat = 0 := by omega
  have e2 : ¬ opt.limit > 0 := by omega
  have e3 : restPage opt ({} : SearchState).filesFound ({} : SearchState).filesCollected (fileHits opt.linesOfContext c fre ex ix (ix.postingQuery c.query)) =
      fileHits opt.linesOfContext c fre ex ix (ix.postingQuery c.query) := by simp [restPage, e1, e2]
  simp only [g2, e3, List.nil_append]
  have hctx : opt0.linesOfContext = opt.linesOfContext := by subst hopt0; rfl
  rw [hm0, hctx] at hfm
  exact fileHits_filtered.2 ⟨hfm, by rw [hname]; exact (k3 name hn).2 hch⟩

/-- **C84**: only files chosen by name are reported. -/
theorem search_only_chosen_partial (hf : AsciiFolds T.orbit) (hcy : FoldCycles T.orbit) (hd : Describes T uni)
    (h1 : FilterIs T uni grow compile opt.fileRegexp only) (h2 : FilterIs T uni grow compile opt.excludeFileRegexp except) {pat : Bytes}
    {r : SearchResponse} (hr : search compile quoteMeta ix pat opt = .ok r) {fm : FileMatch} (hfm : fm ∈ r.matches_)
    (hn : Judged only except fm.filename) : Chosen T.orbit uni only except fm.filename := by
  obtain ⟨fre, ex, k1, k2, k3⟩ := filters_choose hf hcy hd h1 h2
  obtain ⟨re, fre', ex', st, -, hfre, hex, hst, rfl⟩ := search_unfold hr
  cases hfre.symm.trans k1
  cases hex.symm.trans k2
  rcases searchLoop_sound _ _ _ _ _ _ _ _ hst fm hfm with h0 | ⟨_, _, _, hrej, _⟩
  · simp at h0
  · exact (k3 _ hn).1 hrej

end

/-! ## An example -/

/-- Compiled patterns for the examples. -/
theorem exists_compiled {t : Syn} (hr : RunesOK exOrbit t)
    (h : (compileProg exOrbit (simplify t)).map (fun p => decide (p.inst.length < 2 ^ 32)) = some true ∧
      ((compileProg exOrbit (simplify t)).bind (toByteProg exOrbit)).map (fun q => decide (q.inst.length < 2 ^ 32)) = some true) :
    ∃ c, CompiledTree goGrow exOrbit t c := by
  obtain ⟨p, hp⟩ := compile_total (orbit := exOrbit) t
  obtain ⟨h1, h2⟩ := h
  have hl : p.inst.length < 2 ^ 32 := by
    rw [hp] at h1
    simpa using h1
  obtain ⟨q, hq, hqok, _⟩ := toByteProg_succeeds exOrbit_ascii (compile_progOK hp hl) (compile_runeOK hp hr)
  have hlen : q.inst.length < 2 ^ 32 := by
    rw [hp, Option.bind_some, hq] at h2
    simpa using h2
  obtain ⟨mt, hmt⟩ := exists_matcherOf (hqok hlen)
  exact ⟨⟨mt, _⟩, ⟨p, q, hp, hl, hq, hlen, hmt⟩, rfl⟩

/-- `\.go$`. -/
def exOnly : Alts :=
  .one (.cons (.once (.char (.punct 46))) (.cons (.once (exLetter 103)) (.cons (.once (exLetter 111)) (.cons (.once .dollar) .nil))))

/-- `^[xy]`. -/
def exExcept : Alts := .one (.cons (.once .caret) (.cons (.once (.set false [.one (.plain 120), .one (.plain 121)])) .nil))

example : exOnly.text = b!"\\.go$" ∧ exExcept.text = b!"^[xy]" := ⟨rfl, rfl⟩

theorem exOnly_tree : parse (exTables false) exOnly.text = .ok (.concat [.literal [46, 103, 111] false, .endText true]) := rfl
theorem exExcept_tree : parse (exTables false) exExcept.text = .ok (.concat [.beginText, .charClass [(120, 121)]]) := rfl

theorem exOnly_name : NamePattern (exTables false) exUni exOnly := by
  refine namePattern_noBar exOrbit_ascii exOrbit_cycles exOrbit_valid (exDescribes false) ?_ (by decide) ?_ ?_
  · simp [exOnly, exLetter, Alts.Ok, Seq.Ok, Piece.Ok, Atom.Ok, Written.Ok, special, validRune]
    decide
  · simp [exOnly, exLetter, Alts.Forks, Seq.Forks, Piece.Forks, Atom.Forks]
  · simp [exOnly, exLetter, Alts.All, Seq.All, Piece.All, Atom.All, PlainChar, Written.rune, noFlags, Piece.after]
    decide

theorem exExcept_name : NamePattern (exTables false) exUni exExcept := by
  refine namePattern_noBar exOrbit_ascii exOrbit_cycles exOrbit_valid (exDescribes false) ?_ (by decide) ?_ ?_
  · simp [exExcept, Alts.Ok, Seq.Ok, Piece.Ok, Atom.Ok, Written.Ok, MembersOk, Member.Ok, special, validRune, membersText, Member.text, Written.text,
      encodeRaw, Seq.text]
  · simp [exExcept, Alts.Forks, Seq.Forks, Piece.Forks, Atom.Forks]
  · simp only [exExcept, Alts.All, Seq.All, Piece.All, Atom.All, PlainSet, true_and, and_true]
    refine ⟨.inl fun x h => ?_, fun a c ha _ h => ?_⟩
    · simp [Sign, Member.Has, WithCase, noFlags, Piece.after, Written.rune] at h
      rcases h with rfl | rfl <;> decide
    · have h5 := (h 120).1 (by simp [Sign, Member.Has, WithCase, Written.rune])
      have h6 := (h 121).1 (by simp [Sign, Member.Has, WithCase, Written.rune])
      omega

/-- The compiler of the examples: the three patterns. -/
theorem exCompiler : ∃ compile : Bytes → Option (Compiled Query), (∃ c, compile (fullPattern id exLine.text {}) = some c ∧
      CompiledText (exTables false) goGrow (fullPattern id exLine.text {}) c) ∧
    FilterIs (exTables false) exUni goGrow compile exOnly.text (some exOnly) ∧
    FilterIs (exTables false) exUni goGrow compile exExcept.text (some exExcept) ∧
    FilterIs (exTables false) exUni goGrow compile [] none := by
  obtain ⟨c, hc⟩ := exLine_compiled
  obtain ⟨c1, hc1⟩ := exists_compiled (exOnly_name.tree _ exOnly_tree) (by decide +kernel)
  obtain ⟨c2, hc2⟩ := exists_compiled (exExcept_name.tree _ exExcept_tree) (by decide +kernel)
  refine ⟨fun e => if e = exOnly.text then some c1 else if e = exExcept.text then some c2 else some c, ⟨c, rfl, _, exLine_tree, hc⟩,
    ⟨rfl, fun q h => ?_, fun q h => ?_⟩, ⟨rfl, fun q h => ?_, fun q h => ?_⟩, rfl, fun q h => (by cases h), fun q h => (by cases h)⟩
  all_goals cases h
  · exact ⟨by decide, exOnly_name⟩
  · exact ⟨c1, rfl, _, exOnly_tree, hc1⟩
  · exact ⟨by decide, exExcept_name⟩
  · exact ⟨c2, rfl, _, exExcept_tree, hc2⟩

theorem noSurrogate_ascii {l : Bytes} (h : ∀ c ∈ l, c < 128) : NoSurrogate l := by
  intro r h1 h2 i hp
  have hb : ∃ b ∈ encodeRaw r, ¬ b < 128 := by
    refine ⟨UInt8.ofNat (0x80 + r % 64), ?_, ?_⟩
    · rw [encodeRaw_nat, if_neg (by omega), if_neg (by omega), if_pos (by omega)]
      simp
    · rw [UInt8.lt_iff_toNat_lt, UInt8.toNat_ofNat']
      show ¬ _ < 128
      omega
  obtain ⟨b, hb, hn⟩ := hb
  exact hn (h b (List.mem_of_mem_drop (hp.subset hb)))

theorem exNames : OrdinaryName b!"a.go" ∧ Chosen exOrbit exUni (some exOnly) (some exExcept) b!"a.go" ∧
    OrdinaryName b!"y.go" ∧ ¬ Chosen exOrbit exUni (some exOnly) (some exExcept) b!"y.go" := by
  refine ⟨⟨by decide, by decide, ?_⟩, ⟨fun p hp => ?_, fun p hp => ?_⟩, ⟨by decide, by decide, ?_⟩, fun h => h.2 _ rfl ?_⟩
  · exact noSurrogate_ascii (by decide)
  · cases hp
    refine ⟨1, 4, by decide, by decide, ?_⟩
    simp only [exOnly, exLetter, Alts.Means, Seq.Means, Piece.Means, Atom.Means, OneOf, WithCase, Written.rune]
    refine ⟨2, ⟨46, .inl rfl, by unfold RuneAt; decide⟩, 3, ⟨103, .inl rfl, by unfold RuneAt; decide⟩, 4, ⟨111, .inl rfl, by unfold RuneAt; decide⟩,
      4, ?_, rfl⟩
    simp [Piece.after]
  · cases hp
    rintro ⟨i, j, h1, h2, h⟩
    simp only [exExcept, Alts.Means, Seq.Means, Piece.Means, Atom.Means, OneOf, WithCase, Written.rune] at h
    obtain ⟨k, ⟨rfl, h3⟩, k', ⟨r, h4, h5⟩, -⟩ := h
    simp [Sign, Member.Has, WithCase, Written.rune, Piece.after] at h3 h4
    subst h3
    revert h5
    rcases h4 with rfl | rfl <;> (unfold RuneAt; rintro ⟨-, rfl, -, h⟩; revert h; decide)
  · exact noSurrogate_ascii (by decide)
  · refine ⟨0, 1, by decide, by decide, ?_⟩
    simp only [exExcept, Alts.Means, Seq.Means, Piece.Means, Atom.Means, OneOf, WithCase, Written.rune]
    refine ⟨0, by simp, 1, ⟨121, ?_, by unfold RuneAt; decide⟩, rfl⟩
    simp [Sign, Member.Has, WithCase, Written.rune]

/-- The search of the example above in the files chosen by `\.go$` and not `^[xy]`: it reports the line of `a.go`, and none of `y.go`. -/
example : ∃ (compile : Bytes → Option (Compiled Query)) (opt : SearchOptions), opt.fileRegexp = b!"\\.go$" ∧ opt.excludeFileRegexp = b!"^[xy]" ∧
    ∃ ix answers, ServesFiles ix [(b!"a.go", ⟨[b!"ad\nwAqbb\n"], false⟩)] answers ∧
      Reports (search compile id ix exLine.text opt) b!"a.go" 2 b!"wAqbb" ∧
    ∃ ix' answers', ServesFiles ix' [(b!"y.go", ⟨[b!"ad\nwAqbb\n"], false⟩)] answers' ∧
      ∀ r, search compile id ix' exLine.text opt = .ok r → r.matches_ = [] := by
  obtain ⟨compile, ⟨c, hc, hct⟩, h1, h2, -⟩ := exCompiler
  obtain ⟨n1, n2, n3, n4⟩ := exNames
  obtain ⟨ix, answers, hix, hfiles⟩ := exists_serves b!"a.go" b!"ad\nwAqbb\n" (by decide) (by decide +kernel) (by decide) (by decide)
  obtain ⟨ix', answers', hix', hfiles'⟩ := exists_serves b!"y.go" b!"ad\nwAqbb\n" (by decide) (by decide +kernel) (by decide) (by decide)
  have htree := treeOK_noBar (T := exTables false) (uni := exUni) (grow := goGrow) (quoteMeta := id) (opt := {}) exOrbit_ascii exOrbit_cycles exOrbit_valid (exDescribes false)
    exLine_ok.1 exLine_ok.2.1 rfl exLine_ok.2.2.1 exLine_ok.2.2.2.2
  refine ⟨compile, { fileRegexp := exOnly.text, excludeFileRegexp := exExcept.text }, rfl, rfl, ix, answers, hix, ?_, ix', answers', hix', fun r hr => ?_⟩
  · obtain ⟨r, hr, hall⟩ := search_complete_filtered_partial (T := exTables false) (uni := exUni) (grow := goGrow) (p := exLine) (c := c)
      (opt := { fileRegexp := exOnly.text, excludeFileRegexp := exExcept.text }) exOrbit_ascii exOrbit_cycles (exDescribes false) exLine_ok.1 exLine_ok.2.1 rfl
      (noBar_alts _ _ exLine_ok.2.2.1) hct htree hix hc h1 h2 ⟨by decide, by decide, by decide⟩
    exact ⟨r, hr, hall (content := b!"ad\nwAqbb\n") (s := 3) (e := 8) (by rw [hfiles]; simp) (.inl n1) n2
      ⟨by decide, by decide, by decide, .inr (by decide), .inr (by decide)⟩ (by decide) exLine_within⟩
  · rw [List.eq_nil_iff_forall_not_mem]
    intro fm hfm
    obtain ⟨re, fre, ex, st, hre, -, -, hst, rfl⟩ := search_unfold hr
    cases hc.symm.trans hre
    obtain ⟨t, g1, g2⟩ := hct
    have hq : c.query = (HInfo.regexpQuery goGrow exOrbit t.re).1 := g2.2
    rcases searchLoop_sound _ _ _ _ _ _ _ _ hst fm hfm with h0 | ⟨f, hf, hname, _⟩
    · simp at h0
    obtain ⟨g, hg, hgn, -⟩ := (serves_candidates hix' (by rw [hq]; exact regexpQuery_threeByte) (by rw [hq]; exact regexpQuery_noEmptyAnd)).1 f hf
    rw [hfiles'] at hg
    simp only [List.mem_singleton] at hg
    have hn : fm.filename = b!"y.go" := by rw [hname, hgn, hg]
    have := search_only_chosen_partial (T := exTables false) (uni := exUni) (grow := goGrow) exOrbit_ascii exOrbit_cycles (exDescribes false) h1 h2 hr hfm
      (.inl (by rw [hn]; exact n3))
    rw [hn] at this
    exact n4 this

end Hound
