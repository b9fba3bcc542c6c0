import Verif.Props.OnPage
import Verif.Spec.LiteralPage

/-!
# C89: a literal search on the page shows the lines with the text
-/

namespace Hound.Ui
open Spec Spec.Pat GoRe Api

/-- A quoted text asks for no surrogates. -/
theorem quotedSyn_noSurrogates {T : Tables} (hv : ValidFolds T.orbit) (fold : Bool) {rs : List Rune} (h : ∀ r ∈ rs, validRune r = true) :
    NoSurrogates T.orbit (quotedSyn T fold rs) := by
  unfold quotedSyn
  split
  · trivial
  · have hmin : ∀ r : Rune, validRune r = true → validRune (minFoldRune T.orbit r) = true := by
      intro r hr
      rcases minFoldRune_mem T.orbit r with h | h
      · rw [h]; exact hr
      · exact hv r _ h
    rw [NoSurrogates]
    intro r hr x hx
    have hr' : validRune r = true := by
      cases fold with
      | false => exact h r hr
      | true =>
        obtain ⟨y, hy, rfl⟩ := List.mem_map.1 hr
        exact hmin y (h y hy)
    rcases hx with rfl | ⟨-, hx⟩
    · exact hr'
    · exact hv r x hx

theorem alike_caseless {orbit : Rune → List Rune} : ∀ {rs xs : List Rune}, Alike orbit true rs xs ↔ SameButCase orbit rs xs
  | [], [] => Iff.rfl
  | [], _ :: _ => Iff.rfl
  | _ :: _, [] => Iff.rfl
  | r :: rs, x :: xs => by
    rw [Alike, SameButCase, alike_caseless]
    unfold FoldsTo
    simp

/-- The quoted text matches in the lines that have the text. -/
theorem hasText_within {orbit : Rune → List Rune} {uni : Bytes → Option (Rune → Prop)} {m : Mode} {rs : List Rune} (hv : ∀ r ∈ rs, validRune r = true)
    {w : Bytes} {s e : Nat} (hse : s ≤ e) (he : e ≤ w.length) :
    PatternWithin orbit uni m (quotedAlts rs) w s e ↔ HasText orbit m.caseless rs (slice w s e) := by
  rw [quotedAlts_within hse he]
  unfold HasText
  cases m.caseless with
  | false =>
    simp only [Bool.false_eq_true, if_false, alike_exact]
    exact ⟨fun ⟨xs, h1, _, h2⟩ => h1 ▸ h2, fun h => ⟨rs, rfl, hv, h⟩⟩
  | true =>
    simp only [if_true, alike_caseless]
    exact ⟨fun ⟨xs, h1, h2, h3⟩ => ⟨_, xs, ⟨h2, rfl⟩, h1, h3⟩, fun ⟨_, xs, ⟨h2, e⟩, h1, h3⟩ => ⟨xs, h1, h2, e ▸ h3⟩⟩

theorem hasText_empty {orbit : Rune → List Rune} {caseless : Bool} {rs : List Rune} (hn : rs ≠ []) : ¬ HasText orbit caseless rs [] := by
  unfold HasText
  have key : ∀ {l : List Rune}, l ≠ [] → ¬ l.flatMap encodeRaw <:+: ([] : Bytes) := by
    intro l hl h
    cases l with
    | nil => exact hl rfl
    | cons r t =>
      have h2 := List.infix_nil.1 h
      rw [List.flatMap_cons, List.append_eq_nil_iff] at h2
      obtain ⟨b, t', hb⟩ : ∃ b t', encodeRaw r = b :: t' := by
        unfold encodeRaw
        (repeat' split) <;> exact ⟨_, _, rfl⟩
      rw [hb] at h2
      cases h2.1
  cases caseless with
  | false => exact key hn
  | true =>
    rintro ⟨text, xs, ⟨-, rfl⟩, h1, h2⟩
    refine key ?_ h2
    rintro rfl
    cases rs with
    | nil => exact hn rfl
    | cons => exact h1

section
variable {T : Tables} {uni : Bytes → Option (Rune → Prop)} {grow : Nat → Nat → Nat} {rs : List Rune} {only except : Option Alts} {c : Compiled Query}
  {ix : IndexView Query} {files : List (Bytes × Reader)} {answers : List (Option SkipReason)} {srv : Server Query} {params : Params} {repo : Bytes}

/-- What is assumed of a literal search from the page, in one repository: the query is this text, in UTF-8, and the box of literal searches is
ticked; if case is ignored, the text has no letters above U+1044F. The rest is as for a search for a pattern. -/
structure LiteralSearch (T : Tables) (uni : Bytes → Option (Rune → Prop)) (grow : Nat → Nat → Nat) (srv : Server Query) (params : Params) (repo : Bytes)
    (rs : List Rune) (only except : Option Alts) (c : Compiled Query) (ix : IndexView Query) (files : List (Bytes × Reader))
    (answers : List (Option SkipReason)) : Prop where
  query : EncodedAs (firstForm params b!"q") rs
  literal : parseAsBool (firstForm params b!"literal") = true
  letters : parseAsBool (firstForm params b!"i") = true → ∀ r ∈ rs, r ≤ 0x1044f ∨ T.orbit r = []
  quote : srv.quoteMeta = goQuoteMeta
  filter : FilterIs T uni grow srv.compile (firstForm params b!"files") only
  exclude : FilterIs T uni grow srv.compile (firstForm params b!"excludeFiles") except
  range : params b!"rng" = none
  plain : PlainName repo
  index : srv.idx.lookup repo = some ix
  compile : srv.compile (fullPattern goQuoteMeta (firstForm params b!"q") (pageOptions srv params)) = some c
  compiled : CompiledText T grow (fullPattern goQuoteMeta (firstForm params b!"q") (pageOptions srv params)) c
  serves : ServesFiles ix files answers
  few : files.length < 2 ^ 63

/-- It is a search for the quoted text. -/
theorem LiteralSearch.page (hf : AsciiFolds T.orbit) (hcy : FoldCycles T.orbit) (hvf : ValidFolds T.orbit) (hd : Describes T uni)
    (h : LiteralSearch T uni grow srv params repo rs only except c ix files answers) :
    PageSearch T uni grow srv params repo (quotedAlts rs) only except c ix files answers := by
  have hq : patternText srv.quoteMeta (firstForm params b!"q") (pageOptions srv params) = (quotedAlts rs).text := by
    unfold patternText
    rw [if_pos (show (pageOptions srv params).literalSearch = true from h.literal), h.quote, quotedAlts_text h.query.1, h.query.2]
  have hfull : fullPattern srv.quoteMeta (quotedAlts rs).text (pageMode srv params) = fullPattern goQuoteMeta (firstForm params b!"q") (pageOptions srv params) := by
    rw [← hq, ← h.quote]
    exact fullPattern_asPattern _ _ _
  refine ⟨hq, ?_, h.filter, h.exclude, h.range, h.plain, h.index, by rw [hfull]; exact h.compile, by rw [hfull]; exact h.compiled, h.serves, h.few⟩
  have hp : PlainPattern T uni (pageMode srv params) (quotedAlts rs) :=
    quotedSeq_all (searchMode (pageMode srv params)) (rs := rs) fun r hr => ⟨h.query.1 r hr, fun hi => h.letters hi r hr⟩
  exact Cmd.understood_noBar hf hcy hvf hd (quotedAlts_ok h.query.1) (by
    show (quotedSeq rs).copies ≤ 1000
    rw [quotedSeq_copies]; decide) rfl (quotedSeq_forks rs) hp

/-- **C89**: at any time, and whatever the limit of results, a line marked as a match has the text in it. -/
theorem literal_page_only (hf : AsciiFolds T.orbit) (hcy : FoldCycles T.orbit) (hvf : ValidFolds T.orbit) (hd : Describes T uni)
    (h : LiteralSearch T uni grow srv params repo rs only except c ix files answers)
    (hj : ∀ f ∈ indexedFiles files answers, Judged only except f.1) {page : Page} (hr : Reach srv true params page) {s : Shown}
    (hs : page.byRepo repo = some s) {name : Bytes} {k : Nat} {line : Bytes} (hon : OnPage s name k line) :
    LineWithText T.orbit uni (parseAsBool (firstForm params b!"i")) rs only except (indexedFiles files answers) name k line := by
  have hp := h.page hf hcy hvf hd
  obtain ⟨-, h3⟩ := page_exact_partial hf hcy hd hp hr hs
  obtain ⟨content, a, e, k1, k2, k3, k4, k5, k6⟩ := h3 (quotedSeq_starts _ rs) name k line hon
  refine ⟨content, a, e, k1, k2 (hj _ k1), k3, k4, k5, ?_⟩
  rw [k5]
  refine (hasText_within h.query.1 k3.1 k3.2.1).1 (k6 (.inr fun t ht => ?_))
  have hx := parse_quoted T (pageOptions srv params) h.query.1 h.literal
  have e1 : fullPattern srv.quoteMeta (quotedAlts rs).text (pageMode srv params) = fullPattern goQuoteMeta (rs.flatMap encodeRaw) (pageOptions srv params) := by
    rw [← hp.full, h.quote, h.query.2]
  rw [e1, hx] at ht
  cases ht
  exact quotedSyn_noSurrogates hvf _ h.query.1

/-- **C89**: a literal search on the page, from the files of a repository to the lines shown. Once the button that loads more is gone, and if the
matches in the repository are below the limit of results, the lines marked as matches are just those lines, of the files chosen, that have the text in
them, each under the name of its file and with its number.

Partial: a search that ignores case is for texts without letters above U+1044F, and the filters for ordinary file names. -/
theorem literal_page_partial (hf : AsciiFolds T.orbit) (hcy : FoldCycles T.orbit) (hvf : ValidFolds T.orbit) (hd : Describes T uni)
    (h : LiteralSearch T uni grow srv params repo rs only except c ix files answers) (hne : rs ≠ [])
    (hj : ∀ f ∈ indexedFiles files answers, Judged only except f.1) {page : Page} (hr : Reach srv true params page) {s : Shown}
    (hs : page.byRepo repo = some s) :
    ∃ full, FullResult srv params ix full ∧ (¬ s.button → capOf srv params ≤ 0 ∨ (countMatches full.matches_ : Int) < capOf srv params →
      ∀ name k line, OnPage s name k line ↔
        LineWithText T.orbit uni (parseAsBool (firstForm params b!"i")) rs only except (indexedFiles files answers) name k line) := by
  have hp := h.page hf hcy hvf hd
  obtain ⟨⟨full, h1, h2⟩, -⟩ := page_exact_partial hf hcy hd hp hr hs
  refine ⟨full, h1, fun hb hcap name k line => ⟨fun hon => ?_, ?_⟩⟩
  · exact literal_page_only hf hcy hvf hd h hj hr hs hon
  · rintro ⟨content, a, e, k1, k2, k3, rfl, rfl, k6⟩
    refine h2 hb hcap name content a e k1 (hj _ k1) k2 k3 ?_ ((hasText_within h.query.1 k3.1 k3.2.1).2 k6)
    have hle := k3.1
    have hle2 := k3.2.1
    rcases Nat.lt_or_ge a content.length with hlt | hge
    · exact hlt
    · exfalso
      have : Spec.slice content a e = [] := by
        unfold Spec.slice
        simp only [List.take_eq_nil_iff, List.drop_eq_nil_iff]
        first | exact .inr hge | exact .inl (by omega) | omega
      rw [this] at k6
      exact hasText_empty hne k6

/-- **C89**: if the repository was asked for and is not on the page after the first answer, no line of the files chosen has the text in it. -/
theorem literal_absent_partial (hf : AsciiFolds T.orbit) (hcy : FoldCycles T.orbit) (hvf : ValidFolds T.orbit) (hd : Describes T uni)
    (h : LiteralSearch T uni grow srv params repo rs only except c ix files answers) (hne : rs ≠ [])
    (hj : ∀ f ∈ indexedFiles files answers, Judged only except f.1) {all : AllFound} (hs : Served srv (firstForm params) (.ok all))
    (hin : repo ∈ parseAsRepoList (firstForm params b!"repos") srv.idx) (hn : firstResults all repo = none) {name : Bytes} {k : Nat} {line : Bytes} :
    ¬ LineWithText T.orbit uni (parseAsBool (firstForm params b!"i")) rs only except (indexedFiles files answers) name k line := by
  rintro ⟨content, a, e, k1, k2, k3, rfl, rfl, k6⟩
  have hle := k3.1
  have hle2 := k3.2.1
  have ha : a < content.length := by
    rcases Nat.lt_or_ge a content.length with hlt | hge
    · exact hlt
    · exfalso
      have : Spec.slice content a e = [] := by
        unfold Spec.slice
        simp only [List.take_eq_nil_iff, List.drop_eq_nil_iff]
        first | exact .inr hge | exact .inl (by omega) | omega
      rw [this] at k6
      exact hasText_empty hne k6
  exact page_absent_partial hf hcy hd (h.page hf hcy hvf hd) hs hin hn k1 (hj _ k1) k2 k3 ha ((hasText_within h.query.1 hle hle2).2 k6)

end

/-- A literal search for `a.`, without regard to case. -/
def exLiteralParams : Params := fun k => if k = b!"q" then some b!"a." else if k = b!"literal" then some b!"true" else if k = b!"i" then some b!"fosho" else none

/-- Whoever searches for it, in a repository with a file `f` with the lines `xaB` and `xA.b`, finds the second of them on the page, and not the first. -/
example : ∃ (srv : Server Query) (page : Page) (s : Shown), Reach srv true exLiteralParams page ∧ page.byRepo b!"r" = some s ∧ ¬ s.button ∧
    OnPage s b!"f" 2 b!"xA.b" ∧ ¬ OnPage s b!"f" 1 b!"xaB" := by
  have hv : ∀ r ∈ ([97, 46] : List Rune), validRune r = true := by decide
  have hu : Cmd.Understood (exTables false) exUni goGrow goQuoteMeta { ignoreCase := true } (quotedAlts [97, 46]) := by
    refine Cmd.understood_noBar exOrbit_ascii exOrbit_cycles exOrbit_valid (exDescribes false) (quotedAlts_ok hv) (by decide) rfl (quotedSeq_forks _) ?_
    exact quotedSeq_all (searchMode _) (rs := [97, 46]) fun r hr => ⟨hv r hr, fun _ => (by decide : ∀ r ∈ ([97, 46] : List Rune), r ≤ 0x1044f ∨ exOrbit r = []) r hr⟩
  have hparse : parse (exTables false) (fullPattern goQuoteMeta b!"a." { ignoreCase := true, literalSearch := true }) = .ok (quotedSyn (exTables false) true [97, 46]) :=
    parse_quoted (exTables false) { ignoreCase := true, literalSearch := true } hv rfl
  obtain ⟨c, hc⟩ := exists_compiled (hu.tree _ hparse).1 (by decide +kernel)
  obtain ⟨ix, answers, hix, hfiles⟩ := exists_serves b!"f" b!"xaB\nxA.b\n" (by decide) (by decide +kernel) (by decide) (by decide)
  obtain ⟨srv, hsrv⟩ : ∃ srv : Server Query, srv = ⟨fun _ => some c, goQuoteMeta, [(b!"r", ix)], 0⟩ := ⟨_, rfl⟩
  have h : LiteralSearch (exTables false) exUni goGrow srv exLiteralParams b!"r" [97, 46] none none c ix [(b!"f", ⟨[b!"xaB\nxA.b\n"], false⟩)] answers := {
    query := ⟨hv, by decide⟩
    literal := by decide
    letters := fun _ => by decide
    quote := by rw [hsrv]
    filter := ⟨rfl, fun q h => (by cases h), fun q h => (by cases h)⟩
    exclude := ⟨rfl, fun q h => (by cases h), fun q h => (by cases h)⟩
    range := rfl
    plain := by unfold PlainName; decide
    index := by rw [hsrv]; rfl
    compile := by rw [hsrv]
    compiled := ⟨_, hparse, hc⟩
    serves := hix
    few := by simp }
  have hj : ∀ f ∈ indexedFiles [(b!"f", ⟨[b!"xaB\nxA.b\n"], false⟩)] answers, Judged none none f.1 := fun _ _ => .inr ⟨rfl, rfl⟩
  have hasked : b!"r" ∈ parseAsRepoList (firstForm exLiteralParams b!"repos") srv.idx := by rw [hsrv]; exact List.mem_cons_self
  have hline : LineAt b!"xaB\nxA.b\n" 4 8 := ⟨by decide, by decide, by decide, .inr (by decide), .inr (by decide)⟩
  have hwith : LineWithText exOrbit exUni (parseAsBool (firstForm exLiteralParams b!"i")) [97, 46] none none
      (indexedFiles [(b!"f", ⟨[b!"xaB\nxA.b\n"], false⟩)] answers) b!"f" 2 b!"xA.b" := by
    refine ⟨b!"xaB\nxA.b\n", 4, 8, by rw [hfiles]; simp, ⟨fun p h => (by cases h), fun p h => (by cases h)⟩, hline, by decide, by decide, ?_⟩
    exact ⟨b!"A.", [65, 46], ⟨by decide, by decide⟩, ⟨.inr (by decide), .inl rfl, trivial⟩, b!"x", b!"b", by decide⟩
  have hwithout : ¬ LineWithText exOrbit exUni (parseAsBool (firstForm exLiteralParams b!"i")) [97, 46] none none
      (indexedFiles [(b!"f", ⟨[b!"xaB\nxA.b\n"], false⟩)] answers) b!"f" 1 b!"xaB" := by
    rintro ⟨-, -, -, -, -, -, -, -, text, xs, ⟨-, rfl⟩, h1, h2⟩
    obtain ⟨y, rfl⟩ : ∃ y, xs = [y, 46] := by
      cases xs with
      | nil => exact h1.elim
      | cons y xs =>
        cases xs with
        | nil => exact h1.2.elim
        | cons z xs =>
          cases xs with
          | nil =>
            have : z = 46 := h1.2.1.elim id fun h => by cases h
            exact ⟨y, by rw [this]⟩
          | cons w xs => exact h1.2.2.elim
    have : (46 : UInt8) ∈ b!"xaB" := h2.subset (by simp [show encodeRaw 46 = [46] from rfl])
    revert this; decide
  obtain ⟨out, hout⟩ := Cmd.served_exists srv (firstForm exLiteralParams)
  have hp := h.page exOrbit_ascii exOrbit_cycles exOrbit_valid (exDescribes false)
  obtain ⟨full, hset, hlen, -⟩ := hp.setting exOrbit_ascii exOrbit_cycles (exDescribes false)
  cases out with
  | error e =>
    obtain ⟨n, hn, ix', h1, h2⟩ := searchAll_error hout
    obtain ⟨-, r, hr, -⟩ := search_page hset.readable hset.result
    have hx : ix' = ix := by
      rw [hsrv] at h1
      simp only [List.lookup_cons] at h1
      split at h1
      · exact (Option.some.inj h1).symm
      · cases h1
    rw [hx, hr] at h2
    cases h2
  | ok all =>
    have hreach : Reach srv true exLiteralParams _ := .searched hout
    cases hb : firstResults all b!"r" with
    | none => exact absurd hwith (literal_absent_partial exOrbit_ascii exOrbit_cycles exOrbit_valid (exDescribes false) h (by decide) hj hout hasked hb)
    | some s =>
      obtain ⟨full', hfull, hshow⟩ := literal_page_partial exOrbit_ascii exOrbit_cycles exOrbit_valid (exDescribes false) h (by decide) hj hreach (s := s) hb
      have hcap : capOf srv exLiteralParams ≤ 0 := by rw [hsrv]; exact Int.le_refl 0
      have hbut : ¬ s.button := by
        intro hbut
        have := ((webPaging_partial hset hreach hb).2.1 (.inl hcap)).1.1 hbut
        simp only [List.length_singleton] at hlen
        have hz : s.matches_ = [] := List.eq_nil_of_length_eq_zero (by omega)
        obtain ⟨r, hr, rfl⟩ := Option.map_eq_some_iff.1 hb
        exact ((searchAll_ok hout).1 _ r hr).2.2 hz
      exact ⟨srv, _, s, hreach, hb, hbut, (hshow hbut (.inl hcap) _ _ _).2 hwith, fun hon => hwithout ((hshow hbut (.inl hcap) _ _ _).1 hon)⟩

end Hound.Ui
