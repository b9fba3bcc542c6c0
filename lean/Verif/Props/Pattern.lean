import Verif.Proofs.ParseNeat
import Verif.Proofs.ParseAccept
import Verif.Props.GoCompile

/-!
# C80: a pattern means what is written
-/

namespace Hound
open Spec Spec.Pat GoRe

/-! ## The parser -/

/-- The flags before anything is said of them. -/
def noFlags : Mode := ⟨false, false, false⟩

/-- The full property: every properly written pattern is parsed to a tree that matches where the pattern does. -/
def ParseFaithful (T : Tables) : Prop :=
  ∀ (uni : Bytes → Option (Rune → Prop)), FoldCycles T.orbit → Describes T uni → ∀ p : Alts, p.Ok uni [] → p.copies ≤ 1000 →
    ∃ t, parse T p.text = .ok t ∧ ∀ w i j, MatchAt T.orbit w t.re i j ↔ p.Means T.orbit uni w noFlags i j

/-- The full property for the parser as it is. -/
def ParseFaithfulFull : Prop := ∀ T : Tables, T.equalFold = false → ParseFaithful T

/-- **C80, were literals told apart**: if comparing two literals took the flag for folding into account, every properly written pattern
would be parsed to a tree that matches where the pattern does. -/
theorem parse_faithful_if_folds_told_apart (T : Tables) (he : T.equalFold = true) : ParseFaithful T := by
  intro uni hc hd p h hk
  obtain ⟨s, h1, -, h3⟩ := parse_equalFold (B := True) he hc hd h hk fun _ => trivial
  exact ⟨s, h1, h3⟩

/-- **C80**: a properly written pattern is parsed to a tree that matches where the pattern does. Proviso: wherever there are alternatives,
case matters in none of them, or it matters in all, no character is written in them in two cases, and no set is just the two cases of
a letter. -/
theorem parse_faithful_partial (T : Tables) {uni : Bytes → Option (Rune → Prop)} (hc : FoldCycles T.orbit) (hd : Describes T uni) (p : Alts)
    (h : p.Ok uni []) (hk : p.copies ≤ 1000) (hs : p.Settled T.orbit uni noFlags) :
    ∃ t, parse T p.text = .ok t ∧ ∀ w i j, MatchAt T.orbit w t.re i j ↔ p.Means T.orbit uni w noFlags i j := by
  obtain ⟨s, h1, -, h3⟩ := parse_settled (B := True) hc hd h hk hs fun _ => trivial
  exact ⟨s, h1, h3⟩

/-! ## Behind the flags of a search -/

/-- Flags in front. -/
def flagsFirst (fs : List Bytes) (s : Seq) : Seq := fs.foldr (fun f s => .cons (.flags ⟨f, none⟩) s) s

/-- Flags in front of the first alternative. -/
def behindFlags (fs : List Bytes) : Alts → Alts
  | .one s => .one (flagsFirst fs s)
  | .or s more => .or (flagsFirst fs s) more

/-- The flags after them. -/
def flagsMode (fs : List Bytes) (m : Mode) : Mode := fs.foldl (fun m f => (Flags.mode ⟨f, none⟩ m)) m

/-- How they are written. -/
def flagsText (fs : List Bytes) : Bytes := fs.flatMap fun f => [40, 63] ++ f ++ [41]

section
variable {orbit : Rune → List Rune} {uni : Bytes → Option (Rune → Prop)}

theorem flagsFirst_text : ∀ (fs : List Bytes) (s : Seq), (flagsFirst fs s).text = flagsText fs ++ s.text
  | [], s => rfl
  | f :: fs, s => by
    have := flagsFirst_text fs s
    simp only [flagsFirst, List.foldr_cons, flagsText, List.flatMap_cons, Seq.text, Piece.text, Flags.text, List.append_nil] at this ⊢
    rw [this]
    simp

theorem flagsFirst_ok {next : Bytes} : ∀ (fs : List Bytes) {s : Seq}, (∀ f ∈ fs, ∀ c ∈ f, c ∈ b!"imsU") → s.Ok uni next → (flagsFirst fs s).Ok uni next
  | [], _, _, h => h
  | f :: fs, s, hf, h => by
    simp only [flagsFirst, List.foldr_cons, Seq.Ok, Piece.Ok]
    exact ⟨⟨hf f (by simp), by simp⟩, flagsFirst_ok fs (fun g hg => hf g (List.mem_cons_of_mem _ hg)) h⟩

theorem flagsFirst_after : ∀ (fs : List Bytes) (s : Seq) (m : Mode), (flagsFirst fs s).after m = s.after (flagsMode fs m)
  | [], s, m => rfl
  | f :: fs, s, m => by
    simp only [flagsFirst, List.foldr_cons, Seq.after, Piece.after]
    exact flagsFirst_after fs s _

theorem flagsFirst_means {w : Bytes} : ∀ (fs : List Bytes) (s : Seq) (m : Mode) (i j : Nat),
    (flagsFirst fs s).Means orbit uni w m i j ↔ s.Means orbit uni w (flagsMode fs m) i j
  | [], s, m, i, j => Iff.rfl
  | f :: fs, s, m, i, j => by
    simp only [flagsFirst, List.foldr_cons, Seq.Means, Piece.Means, Piece.after, exists_eq_left']
    exact flagsFirst_means fs s _ i j

theorem flagsFirst_all {okChar : Bool → Rune → Prop} {okSet : Bool → (Rune → Prop) → Prop} : ∀ (fs : List Bytes) (s : Seq) (m : Mode),
    (flagsFirst fs s).All orbit uni okChar okSet m ↔ s.All orbit uni okChar okSet (flagsMode fs m)
  | [], s, m => Iff.rfl
  | f :: fs, s, m => by
    simp only [flagsFirst, List.foldr_cons, Seq.All, Piece.All, Piece.after, true_and]
    exact flagsFirst_all fs s _

theorem flagsFirst_forks : ∀ (fs : List Bytes) (s : Seq), (flagsFirst fs s).Forks ↔ s.Forks
  | [], s => Iff.rfl
  | f :: fs, s => by
    simp only [flagsFirst, List.foldr_cons, Seq.Forks, Piece.Forks, false_or]
    exact flagsFirst_forks fs s

theorem flagsFirst_starts : ∀ (fs : List Bytes) (s : Seq) (m : Mode), (flagsFirst fs s).Starts m ↔ s.Starts (flagsMode fs m)
  | [], s, m => Iff.rfl
  | f :: fs, s, m => by
    simp only [flagsFirst, List.foldr_cons, Seq.Starts, Piece.Starts, Piece.after, false_or]
    exact flagsFirst_starts fs s _

theorem flagsFirst_settled : ∀ (fs : List Bytes) (s : Seq) (m : Mode),
    (flagsFirst fs s).Settled orbit uni m ↔ s.Settled orbit uni (flagsMode fs m)
  | [], s, m => Iff.rfl
  | f :: fs, s, m => by
    simp only [flagsFirst, List.foldr_cons, Seq.Settled, Piece.Settled, Piece.after, true_and]
    exact flagsFirst_settled fs s _

theorem flagsFirst_copies (fs : List Bytes) (s : Seq) : (flagsFirst fs s).copies ≤ max 1 s.copies := by
  induction fs with
  | nil => exact Nat.le_max_right _ _
  | cons f fs ih =>
    simp only [flagsFirst, List.foldr_cons, Seq.copies, Piece.copies] at ih ⊢
    exact Nat.max_le.2 ⟨Nat.le_max_left _ _, ih⟩

theorem behindFlags_text (fs : List Bytes) (p : Alts) : (behindFlags fs p).text = flagsText fs ++ p.text := by
  cases p with
  | one s => simp only [behindFlags, Alts.text, flagsFirst_text]
  | or s more => simp only [behindFlags, Alts.text, flagsFirst_text, List.append_assoc]

theorem behindFlags_ok {fs : List Bytes} {p : Alts} {next : Bytes} (hf : ∀ f ∈ fs, ∀ c ∈ f, c ∈ b!"imsU") (h : p.Ok uni next) :
    (behindFlags fs p).Ok uni next := by
  cases p with
  | one s =>
    simp only [behindFlags, Alts.Ok] at h ⊢
    exact flagsFirst_ok fs hf h
  | or s more =>
    simp only [behindFlags, Alts.Ok] at h ⊢
    exact ⟨flagsFirst_ok fs hf h.1, h.2⟩

theorem behindFlags_means {fs : List Bytes} {p : Alts} {m : Mode} {w : Bytes} {i j : Nat} :
    (behindFlags fs p).Means orbit uni w m i j ↔ p.Means orbit uni w (flagsMode fs m) i j := by
  cases p with
  | one s => simp only [behindFlags, Alts.Means, flagsFirst_means]
  | or s more => simp only [behindFlags, Alts.Means, flagsFirst_means, flagsFirst_after]

theorem behindFlags_all {okChar : Bool → Rune → Prop} {okSet : Bool → (Rune → Prop) → Prop} {fs : List Bytes} {p : Alts} {m : Mode} :
    (behindFlags fs p).All orbit uni okChar okSet m ↔ p.All orbit uni okChar okSet (flagsMode fs m) := by
  cases p with
  | one s => simp only [behindFlags, Alts.All, flagsFirst_all]
  | or s more => simp only [behindFlags, Alts.All, flagsFirst_all, flagsFirst_after]

theorem behindFlags_forks {fs : List Bytes} {p : Alts} : (behindFlags fs p).Forks ↔ p.Forks := by
  cases p with
  | one s => simp only [behindFlags, Alts.Forks, flagsFirst_forks]
  | or s more => simp only [behindFlags, Alts.Forks]

theorem behindFlags_starts {fs : List Bytes} {p : Alts} {m : Mode} : (behindFlags fs p).Starts m ↔ p.Starts (flagsMode fs m) := by
  cases p with
  | one s => simp only [behindFlags, Alts.Starts, flagsFirst_starts]
  | or s more => simp only [behindFlags, Alts.Starts, flagsFirst_starts, flagsFirst_after]

theorem behindFlags_settled {fs : List Bytes} {p : Alts} {m : Mode} (h : p.Settled orbit uni (flagsMode fs m)) :
    (behindFlags fs p).Settled orbit uni m := by
  cases p with
  | one s =>
    simp only [behindFlags, Alts.Settled] at h ⊢
    exact (flagsFirst_settled fs s m).2 h
  | or s more =>
    simp only [behindFlags, Alts.Settled] at h ⊢
    exact h.imp (fun h => behindFlags_all (p := .or s more).2 h) fun ⟨L, h1, h2⟩ => ⟨L, h1, behindFlags_all (p := .or s more).2 h2⟩

theorem behindFlags_copies {fs : List Bytes} {p : Alts} (h : p.copies ≤ 1000) : (behindFlags fs p).copies ≤ 1000 := by
  cases p with
  | one s =>
    simp only [behindFlags, Alts.copies] at h ⊢
    exact Nat.le_trans (flagsFirst_copies fs s) (Nat.max_le.2 ⟨by decide, h⟩)
  | or s more =>
    simp only [behindFlags, Alts.copies] at h ⊢
    have := Nat.max_le.1 h
    exact Nat.max_le.2 ⟨Nat.le_trans (flagsFirst_copies fs s) (Nat.max_le.2 ⟨by decide, this.1⟩), this.2⟩

/-- The flags of a search. -/
def searchFlags (opt : SearchOptions) : List Bytes := (if opt.ignoreCase then [b!"i"] else []) ++ [b!"m"]

theorem searchFlags_text (opt : SearchOptions) (quoteMeta : Bytes → Bytes) (pat : Bytes) (hl : opt.literalSearch = false) :
    flagsText (searchFlags opt) ++ pat = fullPattern quoteMeta pat opt := by
  rw [fullPattern, hl]
  cases h : opt.ignoreCase <;> simp [searchFlags, h, flagsText]

theorem searchFlags_mode (opt : SearchOptions) : flagsMode (searchFlags opt) noFlags = searchMode opt := by
  cases h : opt.ignoreCase <;> simp [searchFlags, h, flagsMode, searchMode, Flags.mode, Flags.set, noFlags]

theorem searchFlags_ok (opt : SearchOptions) : ∀ f ∈ searchFlags opt, ∀ c ∈ f, c ∈ b!"imsU" := by
  cases h : opt.ignoreCase <;> simp [searchFlags, h]

end

/-- **C80 for the pattern of a search**: what is compiled is the pattern, behind the flags hound puts in front of it. It matches where the
pattern does, `^` and `$` matching at line ends, and case not mattering if the search says so. Proviso as above. -/
theorem search_pattern_partial (T : Tables) {uni : Bytes → Option (Rune → Prop)} (hc : FoldCycles T.orbit) (hd : Describes T uni) (p : Alts)
    (h : p.Ok uni []) (hk : p.copies ≤ 1000) (quoteMeta : Bytes → Bytes) (opt : SearchOptions) (hl : opt.literalSearch = false)
    (hs : p.Settled T.orbit uni (searchMode opt)) :
    ∃ t, parse T (fullPattern quoteMeta p.text opt) = .ok t ∧ Bounded t ∧ (¬ p.Starts (searchMode opt) → NoBeginTextTree t) ∧
      ∀ w i j, MatchAt T.orbit w t.re i j ↔ p.Means T.orbit uni w (searchMode opt) i j := by
  rw [← searchFlags_mode] at hs
  obtain ⟨t, h1, h2, h3⟩ := parse_settled (B := p.Starts (searchMode opt)) hc hd (behindFlags_ok (searchFlags_ok opt) h) (behindFlags_copies hk)
    (behindFlags_settled hs) (fun h => by rw [← searchFlags_mode]; exact behindFlags_starts.1 h)
  rw [behindFlags_text, searchFlags_text opt quoteMeta _ hl] at h1
  refine ⟨t, h1, made_bounded t h2, fun hb => made_noBegin t (by rwa [← eq_false hb]), fun w i j => (h3 w i j).trans ?_⟩
  rw [behindFlags_means, ← searchFlags_mode]
  rfl

/-! ## From the pattern to the lines -/

section
variable {T : Tables} {uni : Bytes → Option (Rune → Prop)} {grow : Nat → Nat → Nat} {p : Alts} {c : Compiled Query}
  {ix : IndexView Query} {files : List (Bytes × Reader)} {answers : List (Option SkipReason)}
  {compile : Bytes → Option (Compiled Query)} {quoteMeta : Bytes → Bytes} {opt : SearchOptions}

/-- What is asked of the tree of a pattern: its characters and classes are those of C17, the trigram query is computed without an in-place
append in `alternate` (C09). -/
def TreeOK (T : Tables) (grow : Nat → Nat → Nat) (expr : Bytes) : Prop :=
  ∀ t, parse T expr = .ok t → RunesOK T.orbit t ∧ (HInfo.regexpQuery grow T.orbit t.re).2 = false

/-- A match of the pattern lies between the positions `s` and `e` of the text. -/
def PatternWithin (orbit : Rune → List Rune) (uni : Bytes → Option (Rune → Prop)) (m : Mode) (p : Alts) (w : Bytes) (s e : Nat) : Prop :=
  ∃ i j, s ≤ i ∧ i ≤ j ∧ j ≤ e ∧ p.Means orbit uni w m i j

/-- **C01 from the text of the pattern.** The pattern is parsed, simplified, compiled and turned into a byte program as the code does
it, and every line in which the pattern, as it is written, has a match is reported. -/
theorem search_complete_pattern_partial (hf : AsciiFolds T.orbit) (hcy : FoldCycles T.orbit) (hd : Describes T uni) (hok : p.Ok uni [])
    (hk : p.copies ≤ 1000) (hl : opt.literalSearch = false) (hs : p.Settled T.orbit uni (searchMode opt))
    (hc : CompiledText T grow (fullPattern quoteMeta p.text opt) c) (ht : TreeOK T grow (fullPattern quoteMeta p.text opt))
    (hix : ServesFiles ix files answers) (hcomp : compile (fullPattern quoteMeta p.text opt) = some c) (ho : Plain opt)
    {name content : Bytes} {s e : Nat} (hfile : (name, content) ∈ indexedFiles files answers)
    (hline : LineAt content s e) (hse : s < content.length) (hm : PatternWithin T.orbit uni (searchMode opt) p content s e) :
    Reports (search compile quoteMeta ix p.text opt) name ((content.take s).count NL + 1) (slice content s e) := by
  obtain ⟨t, h1, h2, h0, h3⟩ := search_pattern_partial T hcy hd p hok hk quoteMeta opt hl hs
  obtain ⟨t', g1, g2⟩ := hc
  cases h1.symm.trans g1
  obtain ⟨i, j, k1, k2, k3, k4⟩ := hm
  exact search_complete_tree_partial hf g2 h2 (ht _ h1).1 (ht _ h1).2 hix hcomp ho hfile hline hse ⟨i, j, k1, k2, k3, (h3 _ _ _).2 k4⟩

/-- **C02 from the text of the pattern**: only lines in which the pattern, as it is written, has a match are reported, for patterns
without `\A`, and lines without encoded surrogates or patterns that cannot match any. -/
theorem search_only_matching_pattern_partial (hf : AsciiFolds T.orbit) (hcy : FoldCycles T.orbit) (hd : Describes T uni) (hok : p.Ok uni [])
    (hk : p.copies ≤ 1000) (hl : opt.literalSearch = false) (hs : p.Settled T.orbit uni (searchMode opt))
    (hc : CompiledText T grow (fullPattern quoteMeta p.text opt) c)
    (ht : ∀ t, parse T (fullPattern quoteMeta p.text opt) = .ok t → RunesOK T.orbit t) (hb : ¬ p.Starts (searchMode opt))
    (hix : ServesFiles ix files answers) (hcomp : compile (fullPattern quoteMeta p.text opt) = some c)
    {r : SearchResponse} (hr : search compile quoteMeta ix p.text opt = .ok r) {fm : FileMatch} (hfm : fm ∈ r.matches_)
    {m : LineMatch} (hm : m ∈ fm.matches_) :
    ∃ content, (fm.filename, content) ∈ indexedFiles files answers ∧
      ∃ s e, LineAt content s e ∧ m.lineno = (content.take s).count NL + 1 ∧ m.line = slice content s e ∧
        (NoSurrogate m.line ∨ (∀ t, parse T (fullPattern quoteMeta p.text opt) = .ok t → NoSurrogates T.orbit t) →
          PatternWithin T.orbit uni (searchMode opt) p content s e) := by
  obtain ⟨t, h1, h2, h0, h3⟩ := search_pattern_partial T hcy hd p hok hk quoteMeta opt hl hs
  obtain ⟨t', g1, g2⟩ := hc
  cases h1.symm.trans g1
  obtain ⟨content, q1, s, e, q2, q3, q4, q5⟩ :=
    search_only_matching_tree_partial hf g2 h2 (ht _ h1) (h0 hb) hix hcomp hr hfm hm
  refine ⟨content, q1, s, e, q2, q3, q4, fun hns => ?_⟩
  obtain ⟨i, j, k1, k2, k3, k4⟩ := q5 (hns.imp id fun h => h _ h1)
  exact ⟨i, j, k1, k2, k3, (h3 _ _ _).1 k4⟩

end

/-! ## Patterns without alternatives -/

mutual
theorem noBar_atom {orbit : Rune → List Rune} {uni : Bytes → Option (Rune → Prop)} : ∀ (a : Atom) (m : Mode), ¬ a.Forks → a.Settled orbit uni m
  | .group o body, m, h => by
    rw [Atom.Forks] at h
    rw [Atom.Settled]
    exact noBar_alts body _ h
  | .char _, _, _ | .dot, _, _ | .caret, _, _ | .dollar, _, _ | .textStart, _, _ | .textEnd, _, _ | .edge, _, _ | .noEdge, _, _ | .named _, _, _
  | .set _ _, _, _ => by simp [Atom.Settled]
theorem noBar_piece {orbit : Rune → List Rune} {uni : Bytes → Option (Rune → Prop)} : ∀ (p : Piece) (m : Mode), ¬ p.Forks → p.Settled orbit uni m
  | .once a, m, h | .times a _ _, m, h => by
    rw [Piece.Forks] at h
    rw [Piece.Settled]
    exact noBar_atom a m h
  | .flags _, _, _ | .quoted _ _, _, _ => by simp [Piece.Settled]
theorem noBar_seq {orbit : Rune → List Rune} {uni : Bytes → Option (Rune → Prop)} : ∀ (s : Seq) (m : Mode), ¬ s.Forks → s.Settled orbit uni m
  | .nil, _, _ => by simp [Seq.Settled]
  | .cons p s, m, h => by
    rw [Seq.Forks] at h
    rw [Seq.Settled]
    exact ⟨noBar_piece p m fun k => h (.inl k), noBar_seq s _ fun k => h (.inr k)⟩
theorem noBar_alts {orbit : Rune → List Rune} {uni : Bytes → Option (Rune → Prop)} : ∀ (a : Alts) (m : Mode), ¬ a.Forks → a.Settled orbit uni m
  | .one s, m, h => by
    rw [Alts.Forks] at h
    rw [Alts.Settled]
    exact noBar_seq s m h
  | .or s more, _, h => by
    rw [Alts.Forks] at h
    exact absurd trivial h
end

section
variable {T : Tables} {uni : Bytes → Option (Rune → Prop)} {grow : Nat → Nat → Nat} {p : Alts} {c : Compiled Query}
  {ix : IndexView Query} {files : List (Bytes × Reader)} {answers : List (Option SkipReason)}
  {compile : Bytes → Option (Compiled Query)} {quoteMeta : Bytes → Bytes} {opt : SearchOptions}

/-- The characters and sets of the pattern, in a search, are compiled correctly (C17). -/
def PlainPattern (T : Tables) (uni : Bytes → Option (Rune → Prop)) (opt : SearchOptions) (p : Alts) : Prop :=
  p.All T.orbit uni (PlainChar T.orbit) (PlainSet T.orbit) (searchMode opt)

/-- **C80 for patterns without alternatives**: the flags may change within them. -/
theorem search_pattern_noBar (hc : FoldCycles T.orbit) (hd : Describes T uni) (p : Alts)
    (h : p.Ok uni []) (hk : p.copies ≤ 1000) (quoteMeta : Bytes → Bytes) (opt : SearchOptions) (hl : opt.literalSearch = false) (hn : ¬ p.Forks) :
    ∃ t, parse T (fullPattern quoteMeta p.text opt) = .ok t ∧ Bounded t ∧ (¬ p.Starts (searchMode opt) → NoBeginTextTree t) ∧
      ∀ w i j, MatchAt T.orbit w t.re i j ↔ p.Means T.orbit uni w (searchMode opt) i j :=
  search_pattern_partial T hc hd p h hk quoteMeta opt hl (noBar_alts p _ hn)

theorem treeOK_noBar (hf : AsciiFolds T.orbit) (hcy : FoldCycles T.orbit) (hv : ValidFolds T.orbit) (hd : Describes T uni) (hok : p.Ok uni [])
    (hk : p.copies ≤ 1000) (hl : opt.literalSearch = false) (hn : ¬ p.Forks) (hp : PlainPattern T uni opt p) :
    TreeOK T grow (fullPattern quoteMeta p.text opt) := by
  rw [PlainPattern, ← searchFlags_mode] at hp
  obtain ⟨t, h1, h2, -⟩ := parse_neat hcy hf hv hd (behindFlags_ok (searchFlags_ok opt) hok) (behindFlags_copies hk)
    (fun h => hn (behindFlags_forks.1 h)) (behindFlags_all.2 hp)
  rw [behindFlags_text, searchFlags_text opt quoteMeta _ hl] at h1
  intro t' h'
  cases h1.symm.trans h'
  refine ⟨neat_runes t h2, ?_⟩
  rw [regexpQuery_noalt (neat_noAlternate t h2)]

/-- **C01 for patterns without alternatives**: every line in which the pattern has a match is reported. Nothing is asked of what
the pattern is turned into. -/
theorem search_complete_noBar_partial (hf : AsciiFolds T.orbit) (hcy : FoldCycles T.orbit) (hv : ValidFolds T.orbit) (hd : Describes T uni)
    (hok : p.Ok uni []) (hk : p.copies ≤ 1000) (hl : opt.literalSearch = false) (hn : ¬ p.Forks) (hp : PlainPattern T uni opt p)
    (hc : CompiledText T grow (fullPattern quoteMeta p.text opt) c)
    (hix : ServesFiles ix files answers) (hcomp : compile (fullPattern quoteMeta p.text opt) = some c) (ho : Plain opt)
    {name content : Bytes} {s e : Nat} (hfile : (name, content) ∈ indexedFiles files answers)
    (hline : LineAt content s e) (hse : s < content.length) (hm : PatternWithin T.orbit uni (searchMode opt) p content s e) :
    Reports (search compile quoteMeta ix p.text opt) name ((content.take s).count NL + 1) (slice content s e) :=
  search_complete_pattern_partial hf hcy hd hok hk hl (noBar_alts p _ hn) hc (treeOK_noBar hf hcy hv hd hok hk hl hn hp) hix hcomp ho hfile hline hse hm

/-- **C02 for patterns without alternatives** and without `\A`: only lines in which the pattern has a match are reported. -/
theorem search_only_matching_noBar_partial (hf : AsciiFolds T.orbit) (hcy : FoldCycles T.orbit) (hv : ValidFolds T.orbit) (hd : Describes T uni)
    (hok : p.Ok uni []) (hk : p.copies ≤ 1000) (hl : opt.literalSearch = false) (hn : ¬ p.Forks) (hp : PlainPattern T uni opt p)
    (hc : CompiledText T grow (fullPattern quoteMeta p.text opt) c) (hb : ¬ p.Starts (searchMode opt))
    (hix : ServesFiles ix files answers) (hcomp : compile (fullPattern quoteMeta p.text opt) = some c)
    {r : SearchResponse} (hr : search compile quoteMeta ix p.text opt = .ok r) {fm : FileMatch} (hfm : fm ∈ r.matches_)
    {m : LineMatch} (hm : m ∈ fm.matches_) :
    ∃ content, (fm.filename, content) ∈ indexedFiles files answers ∧
      ∃ s e, LineAt content s e ∧ m.lineno = (content.take s).count NL + 1 ∧ m.line = slice content s e ∧
        (NoSurrogate m.line ∨ (∀ t, parse T (fullPattern quoteMeta p.text opt) = .ok t → NoSurrogates T.orbit t) →
          PatternWithin T.orbit uni (searchMode opt) p content s e) :=
  search_only_matching_pattern_partial hf hcy hd hok hk hl (noBar_alts p _ hn) hc (fun t h => (treeOK_noBar (grow := grow) hf hcy hv hd hok hk hl hn hp t h).1) hb hix hcomp hr hfm hm

end

/-! ## What is refused -/

section
variable {T : Tables} {uni : Bytes → Option (Rune → Prop)} {grow : Nat → Nat → Nat} {quoteMeta : Bytes → Bytes} {opt : SearchOptions}

/-- **C81**: what is accepted as a pattern is properly written, or has a repetition right behind `(?flags)` or `\Qtext\E`. -/
theorem accepted_is_written (hn : NamesOnly T uni) {expr : Bytes} {t : Syn} (h : parse T expr = .ok t) :
    ProperlyWritten uni expr ∨ LooseRepeat expr := (parse_back hn h).symm

/-- **C81**: anything else is refused. -/
theorem bad_pattern_refused (hn : NamesOnly T uni) {expr : Bytes} (h1 : ¬ ProperlyWritten uni expr) (h2 : ¬ LooseRepeat expr) :
    ∃ e, parse T expr = .error e := by
  cases h : parse T expr with
  | error e => exact ⟨e, rfl⟩
  | ok t => exact absurd (accepted_is_written hn h) (by simp [h1, h2])

/-- What is behind the flags of a search is what the user wrote: the flags do not make up for anything. -/
theorem accepted_search_is_written (hn : NamesOnly T uni) (hl : opt.literalSearch = false) {pat : Bytes} {t : Syn}
    (h : parse T (fullPattern quoteMeta pat opt) = .ok t) : ProperlyWritten uni pat ∨ LooseRepeat pat := by
  rw [← searchFlags_text opt quoteMeta pat hl] at h
  exact (parse_flags_back hn (searchFlags_ok opt) h).symm

/-- **C81 for a search**: a search for a text that is not a pattern gives an error. (`compile` is any function that compiles as the code
does: what it returns it has parsed.) -/
theorem bad_search_refused (hn : NamesOnly T uni) (hl : opt.literalSearch = false) {compile : Bytes → Option (Compiled Query)}
    (hcomp : ∀ expr c, compile expr = some c → CompiledText T grow expr c) (ix : IndexView Query) {pat : Bytes}
    (h1 : ¬ ProperlyWritten uni pat) (h2 : ¬ LooseRepeat pat) : search compile quoteMeta ix pat opt = .error .badPattern := by
  have hc : compile (fullPattern quoteMeta pat opt) = none := by
    cases h : compile (fullPattern quoteMeta pat opt) with
    | none => rfl
    | some c =>
      obtain ⟨t, ht, -⟩ := hcomp _ c h
      exact absurd (accepted_search_is_written hn hl ht) (by simp [h1, h2])
  have e : getRegexpPattern (if opt.literalSearch = true then quoteMeta pat else pat) opt.ignoreCase = fullPattern quoteMeta pat opt := by
    cases h1 : opt.ignoreCase <;> cases h2 : opt.literalSearch <;> simp [getRegexpPattern, fullPattern, h1, h2]
  rw [search]
  simp only [e, hc]

/-- **C81 for the file filters**: the same holds of the two patterns for file names, which get no flags. -/
theorem bad_filter_refused (hn : NamesOnly T uni) {compile : Bytes → Option (Compiled Query)}
    (hcomp : ∀ expr c, compile expr = some c → CompiledText T grow expr c) (ix : IndexView Query) {pat filter : Bytes}
    (hf : filter = opt.fileRegexp ∨ filter = opt.excludeFileRegexp) (h0 : filter ≠ []) (h1 : ¬ ProperlyWritten uni filter)
    (h2 : ¬ LooseRepeat filter) : search compile quoteMeta ix pat opt = .error .badPattern := by
  have hc : compileOpt compile filter = .error .badPattern := by
    rw [compileOpt, if_neg h0]
    cases h : compile filter with
    | none => rfl
    | some c =>
      obtain ⟨t, ht, -⟩ := hcomp _ c h
      exact absurd (accepted_is_written hn ht) (by simp [h1, h2])
  rw [search]
  cases compile (getRegexpPattern (if opt.literalSearch = true then quoteMeta pat else pat) opt.ignoreCase) with
  | none => rfl
  | some re =>
    simp only
    rcases hf with rfl | rfl
    · simp only [hc]
    · cases hfre : compileOpt compile opt.fileRegexp with
      | error e =>
        rw [compileOpt] at hfre
        split at hfre
        · simp at hfre
        · split at hfre
          · simpa using hfre.symm
          · simp at hfre
      | ok fre => simp only [hc]

end

/-! ## Tables for the examples -/

/-- The case folding of the examples, one Unicode class. -/
def exTables (equalFold : Bool) : Tables := ⟨exOrbit, fun n => if n = b!"Nd" then some ([(48, 57), (0x660, 0x669)], none) else none, equalFold⟩

/-- The class. -/
def exUni (n : Bytes) : Option (Rune → Prop) := if n = b!"Nd" then some fun x => InR [(48, 57), (0x660, 0x669)] x else none

theorem exOrbit_support (r x : Rune) (hx : x ∈ exOrbit r) : r ∈ List.range 128 ++ [0x212A, 0x17F, 0xC0, 0xE0, 0x1E900, 0x1E922] := by
  unfold exOrbit at hx
  split at hx
  · rename_i h
    exact List.mem_append_left _ (List.mem_range.mpr h)
  · refine List.mem_append_right _ ?_
    repeat' (split at hx; · rename_i h; subst h; decide)
    cases hx

theorem exOrbit_cycles : FoldCycles exOrbit := by
  have key : ∀ r ∈ List.range 128 ++ [0x212A, 0x17F, 0xC0, 0xE0, 0x1E900, 0x1E922],
      (match exOrbit r with | [] => true | x :: t => exOrbit x == t ++ [r]) = true ∧ ∀ x ∈ exOrbit r,
        x ≠ r ∧ (0x41 ≤ r ∧ r ≤ 0x1e943) ∧ 0x41 ≤ x ∧ x ≤ 0x1e943 := by decide +kernel
  refine ⟨fun r x t h => ?_, fun r h => ?_, fun r x h => ?_⟩
  · have := (key r (exOrbit_support r x (by rw [h]; simp))).1
    rw [h] at this
    simpa using this
  · exact ((key r (exOrbit_support r r h)).2 r h).1 rfl
  · exact ((key r (exOrbit_support r x h)).2 x h).2

theorem exDescribes (b : Bool) : Describes (exTables b) exUni := by
  intro name S h
  unfold exUni at h
  split at h
  · rename_i hn
    cases h
    refine ⟨_, none, by simp only [exTables, hn, if_true], ?_, ?_, fun x => Iff.rfl, by simp, fun _ x => ?_⟩
    · intro p hp
      simp only [List.mem_cons, List.not_mem_nil, or_false] at hp
      rcases hp with rfl | rfl <;> decide
    · simp [RSorted]
    · refine ⟨fun h => ?_, .inl⟩
      rcases h with h | ⟨-, y, hy, hx⟩
      · exact h
      · exfalso
        have hs := exOrbit_support y x hx
        have key : ∀ r ∈ List.range 128 ++ [0x212A, 0x17F, 0xC0, 0xE0, 0x1E900, 0x1E922], (48 ≤ r ∧ r ≤ 57) ∨ (0x660 ≤ r ∧ r ≤ 0x669) →
            exOrbit r = [] := by decide +kernel
        rw [InR_cons, InR_cons] at hy
        simp only [InR_nil, or_false] at hy
        have := key y hs hy
        rw [show (exTables b).orbit = exOrbit from rfl, this] at hx
        cases hx
  · cases h

/-! ## The full property fails -/

/-- A letter. -/
def exLetter (c : UInt8) : Atom := .char (.plain c.toNat)

/-- `(?i:a)b*|Ac*`. -/
def exMixed : Alts :=
  .or (.cons (.once (.group (.flags ⟨b!"i", none⟩) (.one (.cons (.once (exLetter 97)) .nil)))) (.cons (.times (exLetter 98) .star false) .nil))
    (.one (.cons (.once (exLetter 65)) (.cons (.times (exLetter 99) .star false) .nil)))

example : exMixed.text = b!"(?i:a)b*|Ac*" := rfl

theorem exMixed_parse : parse (exTables false) exMixed.text =
    .ok (.concat [.literal [65] true, .alternate [.star false (.literal [98] false), .star false (.literal [99] false)]]) := rfl

theorem exMixed_ok : exMixed.Ok exUni [] ∧ exMixed.copies = 1 := by
  refine ⟨?_, rfl⟩
  simp [exMixed, exLetter, Alts.Ok, Seq.Ok, Piece.Ok, Atom.Ok, Opening.Ok, Flags.Ok, Times.Ok, Written.Ok, special, validRune]

/-- **C80 fails in general**: `(?i:a)b*|Ac*` is parsed as `(?i:a)(?:b*|c*)`, which matches all of `ac`; the pattern does not. The two letters
are compared without the flag for folding. -/
theorem not_parseFaithfulFull : ¬ ParseFaithfulFull := by
  intro hall
  obtain ⟨t, h1, h2⟩ := hall (exTables false) rfl exUni exOrbit_cycles (exDescribes false) exMixed exMixed_ok.1 (by rw [exMixed_ok.2]; decide)
  cases h1.symm.trans exMixed_parse
  have hm := (h2 b!"ac" 0 2).1 (by
    simp only [Syn.re, Syn.res, MatchAt, ConcatAt, AlternateAt, LitAt]
    exact ⟨1, ⟨97, 1, .inr ⟨rfl, by decide⟩, by unfold RuneAt; decide, rfl⟩, 2,
      .inr (.inl ⟨1, 2, ⟨99, 2, .inl rfl, by unfold RuneAt; decide, rfl⟩, rfl⟩), rfl⟩)
  have no : ∀ {r : Rune} {i j : Nat} (c : UInt8), r = c.toNat → (encodeRaw c.toNat).length = 1 → slice b!"ac" i (i + 1) ≠ encodeRaw c.toNat →
      ¬ RuneAt b!"ac" r i j := by
    rintro r i j c rfl hl hn ⟨-, hj, -, hs⟩
    rw [hl] at hj
    rw [hj] at hs
    exact hn hs
  simp only [exMixed, exLetter, Alts.Means, Seq.Means, Piece.Means, Atom.Means, OneOf, WithCase, Piece.after, Written.rune] at hm
  rcases hm with ⟨k, ⟨k0, ⟨r, hr, ha⟩, rfl⟩, k', ⟨n, -, -, hit⟩, rfl⟩ | ⟨k, ⟨r, hr, ha⟩, -⟩
  · rcases hr with rfl | ⟨-, y, rfl, hy⟩
    · have hk : k0 = 1 := ha.2.1
      subst hk
      cases n with
      | zero => exact absurd (show (1 : Nat) = 2 from hit) (by decide)
      | succ n =>
        obtain ⟨l, ⟨r, hr, hb⟩, -⟩ := hit
        rcases hr with rfl | ⟨h, -⟩
        · exact no 98 rfl rfl (by decide) hb
        · exact absurd h (by decide)
    · have hy' : r = 65 := by
        have : (exTables false).orbit (UInt8.toNat 97) = [65] := by decide
        rw [this] at hy
        exact List.mem_singleton.1 hy
      exact no 65 hy' rfl (by decide) ha
  · rcases hr with rfl | ⟨h, -⟩
    · exact no 65 rfl rfl (by decide) ha
    · exact absurd h (by decide)

/-! ## Cases in which everything is met -/

/-- `a(b|c)*d{2,3}$`. -/
def exPattern : Alts :=
  .one (.cons (.once (exLetter 97)) (.cons (.times (.group .capture (.or (.cons (.once (exLetter 98)) .nil) (.one (.cons (.once (exLetter 99)) .nil)))) .star false)
    (.cons (.times (exLetter 100) (.between b!"2" b!"3") false) (.cons (.once .dollar) .nil))))

example : exPattern.text = b!"a(b|c)*d{2,3}$" := rfl

theorem exPattern_ok : exPattern.Ok exUni [] ∧ exPattern.copies ≤ 1000 ∧ ∀ m, exPattern.Settled exOrbit exUni m := by
  refine ⟨?_, by decide, fun m => ?_⟩
  · simp [exPattern, exLetter, Alts.Ok, Seq.Ok, Piece.Ok, Atom.Ok, Opening.Ok, Times.Ok, Written.Ok, special, validRune, Decimal, isDigit, numeral, digitVal, membersText]
  · simp only [exPattern, exLetter, Alts.Settled, Seq.Settled, Piece.Settled, Atom.Settled, true_and, and_true, Piece.after]
    cases h : m.caseless with
    | true => exact .inl (by simp [Alts.All, Seq.All, Piece.All, Atom.All, Opening.mode, Seq.after, Piece.after, h])
    | false =>
      refine .inr ⟨fun x => x = 98 ∨ x = 99, ?_, by simp [Alts.All, Seq.All, Piece.All, Atom.All, Opening.mode, Seq.after, Piece.after, h, Written.rune]⟩
      rintro x y (rfl | rfl) (rfl | rfl) <;> decide

theorem exPattern_tree : parse (exTables false) (fullPattern id exPattern.text {}) = .ok sampleTreeRe := rfl

/-- A search for `a(b|c)*d{2,3}$` reports the line `xacbdd`. -/
example : ∃ ix answers, ServesFiles ix [(b!"f", ⟨[b!"ad\nxacbdd\n"], false⟩)] answers ∧ ∃ c : Compiled Query,
    Reports (search (fun _ => some c) id ix exPattern.text {}) b!"f" 2 b!"xacbdd" := by
  obtain ⟨h1, h2, _⟩ := sampleTreeRe_ok
  obtain ⟨c, hc⟩ := sampleTreeRe_compiled
  obtain ⟨ix, answers, hix, hfiles⟩ := exists_serves b!"f" b!"ad\nxacbdd\n" (by decide) (by decide +kernel) (by decide) (by decide)
  refine ⟨ix, answers, hix, c, ?_⟩
  refine search_complete_pattern_partial (T := exTables false) (uni := exUni) (grow := goGrow) (p := exPattern) (opt := {}) (c := c) exOrbit_ascii exOrbit_cycles
    (exDescribes false) exPattern_ok.1 exPattern_ok.2.1 rfl (exPattern_ok.2.2 _) ⟨_, exPattern_tree, hc⟩ ?_ hix rfl
    ⟨rfl, rfl, by decide, by decide, by decide⟩ (content := b!"ad\nxacbdd\n") (s := 3) (e := 9) (by rw [hfiles]; simp)
    ⟨by decide, by decide, by decide, .inr (by decide), .inr (by decide)⟩ (by decide) ?_
  · intro t ht
    cases exPattern_tree.symm.trans ht
    exact ⟨h2, by decide +kernel⟩
  refine ⟨4, 9, by decide, by decide, by decide, ?_⟩
  simp only [exPattern, exLetter, Alts.Means, Seq.Means, Piece.Means, Atom.Means, OneOf, WithCase, Written.rune]
  refine ⟨5, ⟨97, .inl rfl, by unfold RuneAt; decide⟩, 7, ⟨2, by decide, by simp [Times.most], 6, .inr ⟨6, ⟨99, .inl rfl, by unfold RuneAt; decide⟩, rfl⟩,
    7, .inl ⟨7, ⟨98, .inl rfl, by unfold RuneAt; decide⟩, rfl⟩, rfl⟩, 9, ⟨2, by decide, by simp [Times.most]; decide, 8, ⟨100, .inl rfl, by unfold RuneAt; decide⟩,
    9, ⟨100, .inl rfl, by unfold RuneAt; decide⟩, rfl⟩, 9, ?_, rfl⟩
  simp [searchMode, Piece.after]
  try decide

/-- `(?i)[^\pNx-\x{7a}[:space:]]+?\Q.*\E|(?P<n>\bK\d{3,})`: the parts are put together as they are written. -/
def exMany : Alts :=
  .or (.cons (.flags ⟨b!"i", none⟩) (.cons (.times (.set true [.named (.word false false b!"Nd"), .range (.plain 120) (.longHex b!"7a"), .posix false b!"space"]) .plus true)
      (.cons (.quoted [46, 42] true) .nil)))
    (.one (.cons (.once (.group (.name b!"n") (.one (.cons (.once .edge) (.cons (.once (exLetter 75)) (.cons (.times (.named (.perl 100)) (.atLeast b!"3") false) .nil))))))
      .nil))

example : exMany.text = b!"(?i)[^\\p{Nd}x-\\x{7a}[:space:]]+?\\Q.*\\E|(?P<n>\\bK\\d{3,})" := rfl

example : exMany.Ok exUni [] ∧ exMany.copies = 3 ∧ exMany.Settled exOrbit exUni noFlags := by
  refine ⟨?_, by decide, .inl ?_⟩
  · simp only [exMany, exLetter, Alts.Ok, Seq.Ok, Piece.Ok, Atom.Ok, Opening.Ok, Times.Ok, Written.Ok, MembersOk, Member.Ok, Named.Ok, Flags.Ok]
    refine ⟨⟨⟨by decide, by simp⟩, ⟨⟨by simp, ⟨⟨by decide, by decide, rfl⟩, ⟨by decide, by decide, by simp, by simp, by decide⟩, by decide, trivial⟩, by simp⟩,
      trivial⟩, ⟨by decide, by decide, by simp⟩, trivial⟩, ⟨⟨by decide, by decide⟩, trivial, ⟨by decide, by simp [special]⟩, ⟨by decide, ⟨by decide, by decide, by decide⟩, by decide⟩,
      trivial⟩, trivial⟩
  · simp [exLetter, Alts.All, Seq.All, Piece.All, Atom.All, Opening.mode, Seq.after, Piece.after, noFlags, Flags.mode, Flags.set]

theorem exOrbit_valid : ValidFolds exOrbit := by
  have key : ∀ r ∈ List.range 128 ++ [0x212A, 0x17F, 0xC0, 0xE0, 0x1E900, 0x1E922], ∀ x ∈ exOrbit r, validRune x = true := by decide +kernel
  exact fun r x h => key r (exOrbit_support r x h) x h

/-- `(?i:a)[^x]b{2,3}$`. -/
def exLine : Alts :=
  .one (.cons (.once (.group (.flags ⟨b!"i", none⟩) (.one (.cons (.once (exLetter 97)) .nil)))) (.cons (.once (.set true [.one (.plain 120)]))
    (.cons (.times (exLetter 98) (.between b!"2" b!"3") false) (.cons (.once .dollar) .nil))))

example : exLine.text = b!"(?i:a)[^x]b{2,3}$" := rfl

theorem exLine_ok : exLine.Ok exUni [] ∧ exLine.copies ≤ 1000 ∧ ¬ exLine.Forks ∧ ¬ exLine.Starts (searchMode {}) ∧ PlainPattern (exTables false) exUni {} exLine := by
  refine ⟨?_, by decide, ?_, ?_, ?_⟩
  · simp [exLine, exLetter, Alts.Ok, Seq.Ok, Piece.Ok, Atom.Ok, Opening.Ok, Times.Ok, Written.Ok, MembersOk, Member.Ok, Flags.Ok, special, validRune, Decimal, isDigit,
      numeral, digitVal, membersText]
  · simp [exLine, exLetter, Alts.Forks, Seq.Forks, Piece.Forks, Atom.Forks]
  · simp [exLine, exLetter, Alts.Starts, Seq.Starts, Piece.Starts, Atom.Starts]
  · simp only [PlainPattern, exLine, exLetter, Alts.All, Seq.All, Piece.All, Atom.All, PlainChar, PlainSet, true_and, and_true]
    refine ⟨by decide, ⟨.inr fun x h1 h2 => ?_, fun a c _ hc h => ?_⟩, by decide⟩
    · simp [Sign, Member.Has, WithCase, searchMode, Piece.after, Written.rune]
      rintro rfl; exact absurd h1 (by decide)
    · have h5 := (h 53).1 (by simp [Sign, Member.Has, WithCase, searchMode, Piece.after, Written.rune])
      have h6 := (h 54).1 (by simp [Sign, Member.Has, WithCase, searchMode, Piece.after, Written.rune])
      have h7 := (h 55).1 (by simp [Sign, Member.Has, WithCase, searchMode, Piece.after, Written.rune])
      omega

/-- What it is parsed to. -/
def exLineTree : Syn :=
  .concat [.literal [65] true, .charClass [(0, 119), (121, 0x10FFFF)], .rep false (.literal [98] false) 2 (some 3), .endLine]

theorem exLine_tree : parse (exTables false) (fullPattern id exLine.text {}) = .ok exLineTree := rfl

theorem exLine_compiled : ∃ c, CompiledTree goGrow exOrbit exLineTree c := by
  obtain ⟨p, hp⟩ := compile_total (orbit := exOrbit) exLineTree
  have hr : RunesOK exOrbit exLineTree := (treeOK_noBar (T := exTables false) (grow := goGrow) (quoteMeta := id) exOrbit_ascii exOrbit_cycles exOrbit_valid (exDescribes false)
    exLine_ok.1 exLine_ok.2.1 rfl exLine_ok.2.2.1 exLine_ok.2.2.2.2 _ exLine_tree).1
  have hl : p.inst.length < 2 ^ 32 := by
    have : (compileProg exOrbit (simplify exLineTree)).map (fun p => decide (p.inst.length < 2 ^ 32)) = some true := by decide +kernel
    rw [hp] at this
    simpa using this
  obtain ⟨q, hq, hqok, _⟩ := toByteProg_succeeds exOrbit_ascii (compile_progOK hp hl) (compile_runeOK hp hr)
  have hlen : q.inst.length < 2 ^ 32 := by
    have : ((compileProg exOrbit (simplify exLineTree)).bind (toByteProg exOrbit)).map (fun q => decide (q.inst.length < 2 ^ 32)) =
        some true := by decide +kernel
    rw [hp, Option.bind_some, hq] at this
    simpa using this
  obtain ⟨mt, hmt⟩ := exists_matcherOf (hqok hlen)
  exact ⟨⟨mt, _⟩, ⟨p, q, hp, hl, hq, hlen, hmt⟩, rfl⟩

theorem exLine_within : PatternWithin exOrbit exUni (searchMode {}) exLine b!"ad\nwAqbb\n" 3 8 := by
  refine ⟨4, 8, by decide, by decide, by decide, ?_⟩
  simp only [exLine, exLetter, Alts.Means, Seq.Means, Piece.Means, Atom.Means, OneOf, WithCase, Written.rune]
  refine ⟨5, ⟨5, ⟨65, .inr ⟨rfl, 97, rfl, by decide⟩, by unfold RuneAt; decide⟩, rfl⟩, 6, ⟨113, ?_, by unfold RuneAt; decide⟩, 8,
    ⟨2, by decide, by simp [Times.most]; decide, 7, ⟨98, .inl rfl, by unfold RuneAt; decide⟩, 8, ⟨98, .inl rfl, by unfold RuneAt; decide⟩, rfl⟩, 8, ?_, rfl⟩
  · simp [Sign, Member.Has, WithCase, searchMode, Piece.after, Written.rune]
  · simp [searchMode, Piece.after]
    try decide

/-- A search for `(?i:a)[^x]b{2,3}$` reports the line `wAqbb`, and only lines it has a match in. -/
example : ∃ ix answers, ServesFiles ix [(b!"f", ⟨[b!"ad\nwAqbb\n"], false⟩)] answers ∧ ∃ c : Compiled Query,
    Reports (search (fun _ => some c) id ix exLine.text {}) b!"f" 2 b!"wAqbb" ∧
    ∀ r, search (fun _ => some c) id ix exLine.text {} = .ok r → ∀ fm ∈ r.matches_, ∀ m ∈ fm.matches_,
      ∃ content, (fm.filename, content) ∈ indexedFiles [(b!"f", ⟨[b!"ad\nwAqbb\n"], false⟩)] answers ∧
        ∃ s e, LineAt content s e ∧ m.lineno = (content.take s).count NL + 1 ∧ m.line = slice content s e ∧
          (NoSurrogate m.line → PatternWithin exOrbit exUni (searchMode {}) exLine content s e) := by
  obtain ⟨c, hc⟩ := exLine_compiled
  obtain ⟨ix, answers, hix, hfiles⟩ := exists_serves b!"f" b!"ad\nwAqbb\n" (by decide) (by decide +kernel) (by decide) (by decide)
  refine ⟨ix, answers, hix, c, ?_, fun r hr fm hfm m hm => ?_⟩
  · refine search_complete_noBar_partial (T := exTables false) (uni := exUni) (grow := goGrow) (p := exLine) (opt := {}) (c := c) exOrbit_ascii exOrbit_cycles exOrbit_valid
      (exDescribes false) exLine_ok.1 exLine_ok.2.1 rfl exLine_ok.2.2.1 exLine_ok.2.2.2.2 ⟨_, exLine_tree, hc⟩ hix rfl
      ⟨rfl, rfl, by decide, by decide, by decide⟩ (content := b!"ad\nwAqbb\n") (s := 3) (e := 8) (by rw [hfiles]; simp)
      ⟨by decide, by decide, by decide, .inr (by decide), .inr (by decide)⟩ (by decide) exLine_within
  · obtain ⟨content, h1, s, e, h2, h3, h4, h5⟩ := search_only_matching_noBar_partial (T := exTables false) (uni := exUni) (grow := goGrow) (p := exLine) (opt := {}) (c := c) exOrbit_ascii exOrbit_cycles exOrbit_valid
      (exDescribes false) exLine_ok.1 exLine_ok.2.1 rfl exLine_ok.2.2.1 exLine_ok.2.2.2.2 ⟨_, exLine_tree, hc⟩ exLine_ok.2.2.2.1 hix rfl hr hfm hm
    exact ⟨content, h1, s, e, h2, h3, h4, fun hn => h5 (.inl hn)⟩

/-! ## Refused -/

mutual
theorem Atom_plain_copies : ∀ a : Atom, 123 ∉ a.text → a.copies = 1
  | .group o body, h => by
    simp only [Atom.text, List.mem_append, not_or] at h
    exact Alts_plain_copies body h.1.2
  | .char _, _ | .dot, _ | .caret, _ | .dollar, _ | .textStart, _ | .textEnd, _ | .edge, _ | .noEdge, _ | .named _, _ | .set _ _, _ => rfl
theorem Piece_plain_copies : ∀ p : Piece, 123 ∉ p.text → p.copies = 1
  | .once a, h => Atom_plain_copies a h
  | .times a t lazy, h => by
    simp only [Piece.text, List.mem_append, not_or] at h
    have ht : t.copies = 1 := by
      have := h.1.2
      cases t <;> simp_all [Times.text, Times.copies]
    rw [Piece.copies, ht, Atom_plain_copies a h.1.1]
  | .flags _, _ | .quoted _ _, _ => rfl
theorem Seq_plain_copies : ∀ s : Seq, 123 ∉ s.text → s.copies = 1
  | .nil, _ => rfl
  | .cons p s, h => by
    simp only [Seq.text, List.mem_append, not_or] at h
    rw [Seq.copies, Piece_plain_copies p h.1, Seq_plain_copies s h.2]
    rfl
theorem Alts_plain_copies : ∀ p : Alts, 123 ∉ p.text → p.copies = 1
  | .one s, h => Seq_plain_copies s h
  | .or s more, h => by
    simp only [Alts.text, List.mem_append, List.mem_cons, not_or] at h
    rw [Alts.copies, Seq_plain_copies s h.1, Alts_plain_copies more h.2.2]
    rfl
end

/-- Without `{`, what is refused is not properly written. -/
theorem refused_not_written {T : Tables} {uni : Bytes → Option (Rune → Prop)} (he : T.equalFold = true) (hc : FoldCycles T.orbit)
    (hd : Describes T uni) {expr : Bytes} (hb : 123 ∉ expr) {e : PErr} (h : parse T expr = .error e) : ¬ ProperlyWritten uni expr := by
  rintro ⟨p, hp, rfl⟩
  obtain ⟨t, h1, -⟩ := parse_faithful_if_folds_told_apart T he uni hc hd p hp (by rw [Alts_plain_copies p hb]; decide)
  rw [h1] at h
  cases h

/-- Without `?` and `\\` there is no repetition behind `(?flags)` or `\Qtext\E`. -/
theorem not_looseRepeat {expr : Bytes} (h1 : 63 ∉ expr) (h2 : 92 ∉ expr) : ¬ LooseRepeat expr := by
  rintro ⟨u, v, p, t, hp, -, rfl⟩
  cases p with
  | flags f => exact h1 (by simp [Piece.text])
  | quoted rs c => exact h2 (by simp [Piece.text])
  | once a => exact hp
  | times a t l => exact hp

theorem exNamesOnly (b : Bool) : NamesOnly (exTables b) exUni := by
  intro name x h
  have hn : name = b!"Nd" := by
    rcases Classical.em (name = b!"Nd") with hn | hn
    · exact hn
    · simp [exTables, hn] at h
  subst hn
  exact ⟨rfl, by decide, by decide⟩

/-- No parenthesis is left open or closed twice, there is something to repeat, ranges and repetitions go upwards, escapes are known. -/
example : parse (exTables false) b!"a(b" = .error .missingParen ∧ parse (exTables false) b!"a)b" = .error .unexpectedParen ∧
    parse (exTables false) b!"*a" = .error .missingRepeatArgument ∧ parse (exTables false) b!"a**" = .error .invalidRepeatOp ∧
    parse (exTables false) b!"[z-a]" = .error .invalidCharRange ∧ parse (exTables false) b!"[a" = .error .missingBracket ∧
    parse (exTables false) b!"x{2,1}" = .error .invalidRepeatSize ∧ parse (exTables false) b!"\\y" = .error .invalidEscape ∧
    parse (exTables false) b!"\\p{No}" = .error .invalidCharRange ∧ parse (exTables false) b!"(?q)" = .error .invalidPerlOp ∧
    parse (exTables false) b!"(?P<n-m>a)" = .error .invalidNamedCapture ∧ parse (exTables false) b!"a\\" = .error .trailingBackslash :=
  ⟨rfl, rfl, rfl, rfl, rfl, rfl, rfl, rfl, rfl, rfl, rfl, rfl⟩

/-- A search for `a(b` gives an error. -/
example (ix : IndexView Query) (compile : Bytes → Option (Compiled Query))
    (hcomp : ∀ expr c, compile expr = some c → CompiledText (exTables false) goGrow expr c) :
    search compile id ix b!"a(b" {} = .error .badPattern :=
  bad_search_refused (exNamesOnly false) rfl hcomp ix
    (refused_not_written (T := exTables true) (e := .missingParen) rfl exOrbit_cycles (exDescribes true) (by decide) rfl)
    (not_looseRepeat (by decide) (by decide))

/-- The exception: `a(?i)*` is accepted, as `a*`. -/
example : parse (exTables false) b!"a(?i)*" = .ok (.star false (.literal [97] false)) ∧ LooseRepeat b!"a(?i)*" :=
  ⟨rfl, b!"a", [], .flags ⟨b!"i", none⟩, .star, ⟨by decide, by simp⟩, trivial, rfl⟩

end Hound
