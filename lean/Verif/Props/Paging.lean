import Verif.Proofs.Paging

/-!
# C47: the web page's "load more"
-/

namespace Hound.Ui
open Spec Api

theorem countMatches_eq (l : List FileMatch) : (allMatches l).length = countMatches l := by
  induction l with
  | nil => rfl
  | cons a l ih => simp only [allMatches, countMatches] at ih ⊢; simp [ih]

/-! ### The range parameter -/

theorem parseRangeInt_digits {n : Nat} (h : n < 2 ^ 63) : parseRangeInt (Client.natDigits n) = n :=
  (parseRangeInt_part _).1 n (Client.natDigits_numeral n) h

theorem range_of {a : Nat} (ha : a < 2 ^ 63) (e : Bytes) :
    parseRangeValue (Client.natDigits a ++ b!":" ++ e) = ((a : Int), parseRangeInt e) := by
  have hn : (58 : UInt8) ∉ Client.natDigits a := fun hm => by
    have := ((Client.natDigits_numeral a).2.1 58 hm).2
    exact absurd this (by decide)
  unfold parseRangeValue
  rw [List.append_assoc, List.singleton_append, indexByte_append hn]
  have e' : (Client.natDigits a ++ 58 :: e).drop ((Client.natDigits a).length + 1) = e := by
    have : Client.natDigits a ++ 58 :: e = (Client.natDigits a ++ [58]) ++ e := by simp
    rw [this, List.drop_left' (by simp)]
  simp only
  rw [List.take_left, e', parseRangeInt_digits ha]

/-- The page of the full result that the request for more asks for. -/
theorem moreRange_page {α : Type} (full : List α) {n : Nat} (hn : n < full.length)
    (hlen : full.length < 2 ^ 63) :
    (parseRangeValue (moreRange n full.length)).1 = n ∧
    page (parseRangeValue (moreRange n full.length)).1 (parseRangeValue (moreRange n full.length)).2 full =
      (full.drop n).take 2000 := by
  unfold moreRange
  simp only
  rw [range_of (by omega)]
  refine ⟨rfl, ?_⟩
  unfold page
  by_cases h : full.length - n = min 2000 (full.length - n)
  · rw [if_pos h]
    have : parseRangeInt [] = 0 := by decide
    rw [this, if_neg (by omega), Int.toNat_natCast, List.take_of_length_le]
    rw [List.length_drop]; omega
  · rw [if_neg h, parseRangeInt_digits (by omega)]
    simp only
    rw [if_pos (by omega), Int.toNat_natCast, Int.toNat_natCast]
    congr 1; omega

/-! ### The requests -/

/-- A name that the parameter `repos` can carry: no comma, no blank at either end, not `*`. -/
def PlainName (repo : Bytes) : Prop :=
  (44 : UInt8) ∉ repo ∧ repo ≠ b!"*" ∧ ∀ w ∈ spaces, ¬ w <+: repo ∧ ¬ w <:+ repo

theorem allSpace_prefix {ws : List Bytes} {s : Bytes} (h : AllSpace ws s) :
    s = [] ∨ ∃ w ∈ ws, w <+: s := by
  cases h with
  | nil => exact .inl rfl
  | cons hw _ => exact .inr ⟨_, hw, List.prefix_append _ _⟩

theorem allSpace_suffix {ws : List Bytes} {s : Bytes} (h : AllSpace ws s) :
    s = [] ∨ ∃ w ∈ ws, w <:+ s := by
  induction h with
  | nil => exact .inl rfl
  | @cons w t hw _ ih =>
    rcases ih with rfl | ⟨w', hw', h⟩
    · exact .inr ⟨w, hw, by simp⟩
    · exact .inr ⟨w', hw', h.trans (List.suffix_append _ _)⟩

theorem repoList_plain {α : Type} {repo : Bytes} (hp : PlainName repo) {idx : List (Bytes × α)} {a : α}
    (hl : idx.lookup repo = some a) : parseAsRepoList repo idx = [repo] := by
  obtain ⟨h1, h2, h3⟩ := hp
  obtain ⟨l, r, hsl, hsr, he, -⟩ := trimSpace_spec repo
  have ht : trimSpace repo = repo := by
    have el : l = [] := by
      rcases allSpace_prefix hsl with h | ⟨w, hw, h⟩
      · exact h
      · refine absurd ?_ (h3 w hw).1
        rw [he, List.append_assoc]
        exact h.trans (List.prefix_append _ _)
    have er : r = [] := by
      rcases allSpace_suffix hsr with h | ⟨w, hw, h⟩
      · exact h
      · refine absurd ?_ (h3 w hw).2
        rw [he]
        exact h.trans (List.suffix_append _ _)
    rw [el, er] at he
    simpa using he.symm
  unfold parseAsRepoList
  simp only [ht, if_neg h2]
  have := splitByte_join [repo] (by simp) (by simpa using h1)
  simp only [joinComma] at this
  rw [this]
  simp [hl]

section
variable {Q : Type} {srv : Server Q} {params : Params} {repo : Bytes} {ix : IndexView Q}
  {full : SearchResponse}

/-- The form of the first request. -/
def firstForm (params : Params) : Bytes → Bytes := formOf (searchParams params)

/-- The full result of the search in one repository: every matching file with all its matches. -/
def FullResult (srv : Server Q) (params : Params) (ix : IndexView Q) (full : SearchResponse) : Prop :=
  search srv.compile srv.quoteMeta ix (firstForm params b!"q")
    { searchOptions (firstForm params) srv.resultLimit with offset := 0, limit := 0, maxResults := 0 }
    = .ok full

/-- The cap on matched lines in force for the search: the parameter `limit`, or the configured one. -/
def capOf (srv : Server Q) (params : Params) : Int :=
  (searchOptions (firstForm params) srv.resultLimit).maxResults

/-- What is assumed: the parameters do not set a range of their own, the repository has a plain name
and an index whose candidate files can be read. -/
structure Setting (srv : Server Q) (params : Params) (repo : Bytes) (ix : IndexView Q)
    (full : SearchResponse) : Prop where
  rng : params b!"rng" = none
  plain : PlainName repo
  index : srv.idx.lookup repo = some ix
  readable : ∀ re, srv.compile (fullPattern srv.quoteMeta (firstForm params b!"q")
    (searchOptions (firstForm params) srv.resultLimit)) = some re →
    ∀ f ∈ ix.postingQuery re.query, (ix.raw (ix.name f)).isSome
  result : FullResult srv params ix full
  small : full.matches_.length < 2 ^ 63

theorem firstForm_rng (h : params b!"rng" = none) : firstForm params b!"rng" = b!":20" := by
  unfold firstForm formOf searchParams merge
  simp only [h]
  rfl

theorem more_form (ps : Params) (r : Bytes) (s : Shown) (k : Bytes) (h1 : k ≠ b!"rng") (h2 : k ≠ b!"repos") :
    formOf (moreParams ps r s) k = formOf ps k := by
  unfold formOf moreParams merge
  simp only
  rw [if_neg h1, if_neg h2]; rfl

theorem more_rng (ps : Params) (r : Bytes) (s : Shown) :
    formOf (moreParams ps r s) b!"rng" = moreRange s.matches_.length s.filesWithMatch := by
  unfold formOf moreParams merge
  simp only
  rw [if_pos (by decide)]; rfl

theorem more_repos (ps : Params) (r : Bytes) (s : Shown) : formOf (moreParams ps r s) b!"repos" = r := by
  unfold formOf moreParams merge
  simp only
  rw [if_neg (by decide), if_pos (by decide)]; rfl

/-- The options of a request for more differ from the first ones only in the range. -/
theorem more_options (ps : Params) (r : Bytes) (s : Shown) (d : Int) :
    searchOptions (formOf (moreParams ps r s)) d = { searchOptions (formOf ps) d with
      offset := (parseRangeValue (moreRange s.matches_.length s.filesWithMatch)).1
      limit := (parseRangeValue (moreRange s.matches_.length s.filesWithMatch)).2 } := by
  unfold searchOptions
  simp only [more_rng]
  rw [more_form ps r s b!"files" (by decide) (by decide),
    more_form ps r s b!"excludeFiles" (by decide) (by decide), more_form ps r s b!"i" (by decide) (by decide),
    more_form ps r s b!"literal" (by decide) (by decide), more_form ps r s b!"limit" (by decide) (by decide),
    more_form ps r s b!"ctx" (by decide) (by decide)]

/-- The first answer for a repository. -/
theorem first_answer (h : Setting srv params repo ix full) {all : AllFound}
    (hs : Served srv (firstForm params) (.ok all)) :
    (∀ r, all.results repo = some r →
      (∃ m, m ≤ 20 ∧ m ≤ full.matches_.length ∧ Each PartOf r.matches_ (full.matches_.take m)) ∧
      (capOf srv params ≤ 0 ∨ (countMatches (full.matches_.take 20) : Int) ≤ capOf srv params →
        r.matches_ = full.matches_.take 20) ∧
      (capOf srv params ≤ 0 ∨ (countMatches (full.matches_.take 20) : Int) < capOf srv params →
        r.filesWithMatch = full.matches_.length) ∧
      (0 < capOf srv params → capOf srv params ≤ (countMatches (full.matches_.take 20) : Int) →
        r.filesWithMatch = r.matches_.length)) ∧
    (all.results repo = none → repo ∈ parseAsRepoList (firstForm params b!"repos") srv.idx →
      full.matches_ = []) := by
  have hopt : parseRangeValue (firstForm params b!"rng") = (0, 20) := by
    rw [firstForm_rng h.rng]; decide +kernel
  have hpage : page (searchOptions (firstForm params) srv.resultLimit).offset
      (searchOptions (firstForm params) srv.resultLimit).limit full.matches_ = full.matches_.take 20 := by
    unfold searchOptions
    simp only [hopt, page]
    rfl
  obtain ⟨-, r, hr, ⟨m, hm1, hm2, hm3⟩, h1, h2, h3⟩ := search_page h.readable h.result
  rw [hpage] at hm1 hm2 hm3 h1 h2 h3
  simp only [countMatches_eq] at h1 h2 h3
  obtain ⟨ha, hb⟩ := searchAll_ok hs
  constructor
  · intro r' hr'
    obtain ⟨-, ⟨ix', hix, hsr⟩, -⟩ := ha repo r' hr'
    rw [h.index] at hix
    obtain rfl := Option.some.inj hix
    rw [hr] at hsr
    obtain rfl := Except.ok.inj hsr
    refine ⟨⟨m, ?_, ?_, ?_⟩, h1, h2, fun hc hle => h3 ?_ hc hle⟩
    · rw [List.length_take] at hm1; omega
    · rw [List.length_take] at hm1; omega
    · rw [List.take_take] at hm2
      rw [List.length_take] at hm1
      rw [show min m 20 = m by omega] at hm2
      exact hm2
    · unfold searchOptions; simp [hopt]
  · intro hn hin
    rcases hb repo hn with h' | ⟨r', ⟨ix', hix, hsr⟩, hr'⟩
    · exact absurd hin h'
    · rw [h.index] at hix
      obtain rfl := Option.some.inj hix
      rw [hr] at hsr
      obtain rfl := Except.ok.inj hsr
      rw [hr'] at hm2
      have := each_length hm2
      simp only [List.length_nil, List.length_take] at this hm1
      by_cases he : full.matches_ = []
      · exact he
      · have hp := List.length_pos_iff.2 he
        have := hm3 (by
          intro hh
          have := congrArg List.length hh
          simp only [List.length_take, List.length_nil] at this
          omega)
        omega

/-- The answer to a request for more. -/
theorem more_answer (h : Setting srv params repo ix full) {s : Shown}
    (hF : s.filesWithMatch = full.matches_.length) (hb : s.button) {out : Except SearchErr AllFound}
    (hs : Served srv (formOf (moreParams (searchParams params) repo s)) out) :
    ∃ all r, out = .ok all ∧ all.results repo = some r ∧
      (∃ m, 0 < m ∧ m ≤ 2000 ∧ m ≤ full.matches_.length - s.matches_.length ∧
        Each PartOf r.matches_ ((full.matches_.drop s.matches_.length).take m)) ∧
      (capOf srv params ≤ 0 ∨
        (countMatches ((full.matches_.drop s.matches_.length).take 2000) : Int) ≤ capOf srv params →
        r.matches_ = (full.matches_.drop s.matches_.length).take 2000) := by
  unfold Shown.button at hb
  rw [hF] at hb
  obtain ⟨-, hp⟩ := moreRange_page full.matches_ hb h.small
  have hq : formOf (moreParams (searchParams params) repo s) b!"q" = firstForm params b!"q" :=
    more_form _ _ _ _ (by decide) (by decide)
  have hread : CandidatesReadable srv.compile srv.quoteMeta ix (firstForm params b!"q")
      (searchOptions (formOf (moreParams (searchParams params) repo s)) srv.resultLimit) := by
    rw [more_options]; exact h.readable
  have h0 : search srv.compile srv.quoteMeta ix (firstForm params b!"q")
      { searchOptions (formOf (moreParams (searchParams params) repo s)) srv.resultLimit with
        offset := 0, limit := 0, maxResults := 0 } = .ok full := by
    rw [more_options]; exact h.result
  obtain ⟨-, r, hr, ⟨m, hm1, hm2, hm3⟩, h1, -⟩ := search_page hread h0
  have hpage : page (searchOptions (formOf (moreParams (searchParams params) repo s)) srv.resultLimit).offset
      (searchOptions (formOf (moreParams (searchParams params) repo s)) srv.resultLimit).limit full.matches_
      = (full.matches_.drop s.matches_.length).take 2000 := by
    rw [more_options]; simp only [hF]; exact hp
  have hcap : (searchOptions (formOf (moreParams (searchParams params) repo s)) srv.resultLimit).maxResults
      = capOf srv params := by rw [more_options]; rfl
  rw [hpage] at hm1 hm2 hm3 h1
  simp only [countMatches_eq, hcap] at h1
  have hl : parseAsRepoList (formOf (moreParams (searchParams params) repo s) b!"repos") srv.idx = [repo] := by
    rw [more_repos]; exact repoList_plain h.plain h.index
  unfold Served at hs
  rw [hl, hq] at hs
  have hlen : ((full.matches_.drop s.matches_.length).take 2000).length =
      min 2000 (full.matches_.length - s.matches_.length) := by
    rw [List.length_take, List.length_drop]
  have hpos : 0 < m := hm3 (by
    intro hh
    have := congrArg List.length hh
    rw [hlen, List.length_nil] at this
    omega)
  have hrne : r.matches_ ≠ [] := by
    intro hh
    rw [hh] at hm2
    have := each_length hm2
    rw [List.length_take, hlen, List.length_nil] at this
    omega
  cases out with
  | error e =>
    obtain ⟨n, hn, ix', hix, hsr⟩ := searchAll_error hs
    simp only [List.mem_singleton] at hn
    subst hn
    rw [h.index] at hix
    obtain rfl := Option.some.inj hix
    rw [hr] at hsr
    exact absurd hsr (by simp)
  | ok all =>
    obtain ⟨ha, hb'⟩ := searchAll_ok hs
    cases hres : all.results repo with
    | none =>
      rcases hb' repo hres with h' | ⟨r', ⟨ix', hix, hsr⟩, hr'⟩
      · simp at h'
      · rw [h.index] at hix
        obtain rfl := Option.some.inj hix
        rw [hr] at hsr
        obtain rfl := Except.ok.inj hsr
        exact absurd hr' hrne
    | some r' =>
      obtain ⟨-, ⟨ix', hix, hsr⟩, -⟩ := ha repo r' hres
      rw [h.index] at hix
      obtain rfl := Option.some.inj hix
      rw [hr] at hsr
      obtain rfl := Except.ok.inj hsr
      refine ⟨all, r', rfl, hres, ⟨m, hpos, ?_, ?_, ?_⟩, h1⟩
      · rw [hlen] at hm1; omega
      · rw [hlen] at hm1; omega
      · rw [List.take_take] at hm2
        rw [hlen] at hm1
        rw [show min m 2000 = m by omega] at hm2
        exact hm2

/-- The invariant of the page for a patient user. -/
structure PInv (srv : Server Q) (params : Params) (repo : Bytes) (full : SearchResponse) (p : Page) : Prop where
  pars : p.params = searchParams params
  nodup : (p.pending.map (·.1)).Nodup
  pend : ∀ ps, (repo, ps) ∈ p.pending → ∃ s, p.byRepo repo = some s ∧ s.button ∧
    ps = moreParams (searchParams params) repo s
  first : ∀ s, p.byRepo repo = some s → Each PartOf s.matches_ (full.matches_.take s.matches_.length) ∧
    s.matches_.length ≤ full.matches_.length
  total : ∀ s, p.byRepo repo = some s →
    (capOf srv params ≤ 0 ∨ (countMatches (full.matches_.take 20) : Int) < capOf srv params) →
    s.filesWithMatch = full.matches_.length
  cut : ∀ s, p.byRepo repo = some s → 0 < capOf srv params →
    capOf srv params ≤ (countMatches (full.matches_.take 20) : Int) → ¬ s.button
  whole : ∀ s, p.byRepo repo = some s →
    (capOf srv params ≤ 0 ∨ (countMatches full.matches_ : Int) ≤ capOf srv params) →
    s.matches_ = full.matches_.take s.matches_.length

theorem countMatches_append (a b : List FileMatch) :
    countMatches (a ++ b) = countMatches a + countMatches b := by
  simp [countMatches]

theorem countMatches_take (n : Nat) (l : List FileMatch) : countMatches (l.take n) ≤ countMatches l := by
  conv => rhs; rw [← List.take_append_drop n l]
  rw [countMatches_append]; omega

theorem countMatches_drop (n : Nat) (l : List FileMatch) : countMatches (l.drop n) ≤ countMatches l := by
  conv => rhs; rw [← List.take_append_drop n l]
  rw [countMatches_append]; omega

theorem pair_unique {before after : List (Bytes × Params)} {repo : Bytes} {ps : Params}
    (h : ((before ++ (repo, ps) :: after).map (·.1)).Nodup) :
    ((before ++ after).map (·.1)).Nodup ∧ ∀ ps', (repo, ps') ∉ before ++ after := by
  rw [List.map_append, List.map_cons] at h
  have hp := List.perm_middle.nodup_iff.1 h
  rw [List.nodup_cons] at hp
  rw [List.map_append]
  refine ⟨hp.2, fun ps' hm => hp.1 ?_⟩
  rw [← List.map_append]
  exact List.mem_map.2 ⟨_, hm, rfl⟩

/-- What an answer to the button's request for a repository does. -/
theorem answer_step (h : Setting srv params repo ix full) {p : Page} (inv : PInv srv params repo full p)
    {ps : Params} (hm : (repo, ps) ∈ p.pending) {out : Except SearchErr AllFound}
    (hs : Served srv (formOf ps) out) :
    ∃ s m r, p.byRepo repo = some s ∧ s.filesWithMatch = full.matches_.length ∧
      0 < m ∧ m ≤ 2000 ∧ m ≤ full.matches_.length - s.matches_.length ∧
      Each PartOf r ((full.matches_.drop s.matches_.length).take m) ∧
      (capOf srv params ≤ 0 ∨
        (countMatches ((full.matches_.drop s.matches_.length).take 2000) : Int) ≤ capOf srv params →
        r = (full.matches_.drop s.matches_.length).take 2000) ∧
      moreResults p.byRepo repo out = fun n => if n = repo then
        some { s with matches_ := s.matches_ ++ r } else p.byRepo n := by
  obtain ⟨s, h1, h2, rfl⟩ := inv.pend ps hm
  have hfit : capOf srv params ≤ 0 ∨ (countMatches (full.matches_.take 20) : Int) < capOf srv params := by
    by_cases hc : 0 < capOf srv params ∧ capOf srv params ≤ (countMatches (full.matches_.take 20) : Int)
    · exact absurd h2 (inv.cut s h1 hc.1 hc.2)
    · omega
  have hF := inv.total s h1 hfit
  obtain ⟨all, r, rfl, h3, ⟨m, m1, m2, m3, m4⟩, h5⟩ := more_answer h hF h2 hs
  refine ⟨s, m, r.matches_, h1, hF, m1, m2, m3, m4, h5, ?_⟩
  unfold moreResults
  simp only [h3, h1]

theorem reach_pinv (h : Setting srv params repo ix full) {p : Page} (hr : Reach srv true params p) :
    PInv srv params repo full p := by
  induction hr with
  | @searched all hs =>
    obtain ⟨h1, -⟩ := first_answer h hs
    have key : ∀ s, firstResults all repo = some s → ∃ r, all.results repo = some r ∧
        s = ⟨r.matches_, r.filesWithMatch⟩ := by
      intro s hs'
      unfold firstResults at hs'
      obtain ⟨r, hr, rfl⟩ := Option.map_eq_some_iff.1 hs'
      exact ⟨r, hr, rfl⟩
    refine ⟨rfl, by simp, by simp, ?_, ?_, ?_, ?_⟩
    · intro s hs'
      obtain ⟨r, hr, rfl⟩ := key s hs'
      obtain ⟨⟨m, m1, m2, m3⟩, -⟩ := h1 r hr
      have := each_length m3
      rw [List.length_take] at this
      have e : r.matches_.length = m := by omega
      simp only [e]
      exact ⟨m3, m2⟩
    · intro s hs' hc
      obtain ⟨r, hr, rfl⟩ := key s hs'
      exact (h1 r hr).2.2.1 hc
    · intro s hs' hc hle
      obtain ⟨r, hr, rfl⟩ := key s hs'
      have := (h1 r hr).2.2.2 hc hle
      unfold Shown.button
      simp only [this]
      omega
    · intro s hs' hc
      obtain ⟨r, hr, rfl⟩ := key s hs'
      have e := (h1 r hr).2.1 (by
        have := countMatches_take 20 full.matches_
        omega)
      simp only
      rw [e, List.length_take]
      by_cases hl : 20 ≤ full.matches_.length
      · rw [Nat.min_eq_left hl]
      · rw [Nat.min_eq_right (by omega), List.take_of_length_le (by omega), List.take_length]
  | @press p rp s _ hs hb hpat ih =>
    refine ⟨ih.pars, ?_, ?_, ih.first, ih.total, ih.cut, ih.whole⟩
    · simp only [List.map_append, List.map_cons, List.map_nil]
      rw [List.nodup_append]
      refine ⟨ih.nodup, by simp, ?_⟩
      intro a ha b hb' hab
      obtain ⟨x, hx, rfl⟩ := List.mem_map.1 ha
      simp only [List.mem_singleton] at hb'
      exact hpat rfl x hx (by rw [hab, hb'])
    · intro ps hps
      simp only [List.mem_append, List.mem_singleton, Prod.mk.injEq] at hps
      rcases hps with hps | ⟨rfl, rfl⟩
      · exact ih.pend ps hps
      · exact ⟨s, hs, hb, by rw [ih.pars]⟩
  | @answer p before after rp ps out _ hpend hs ih =>
    have hnd := ih.nodup
    rw [hpend] at hnd
    obtain ⟨hnd', huniq⟩ := pair_unique hnd
    by_cases hrp : rp = repo
    · subst hrp
      obtain ⟨s, m, r, h1, hF, m1, m2, m3, m4, h5, hmore⟩ :=
        answer_step h ih (by rw [hpend]; simp) hs
      simp only [hmore]
      obtain ⟨f1, f2⟩ := ih.first s h1
      have hlen : r.length = m := by
        have := each_length m4
        rw [List.length_take, List.length_drop] at this; omega
      have hsplit : full.matches_.take (s.matches_.length + m) =
          full.matches_.take s.matches_.length ++ (full.matches_.drop s.matches_.length).take m := by
        rw [List.take_add]
      refine ⟨ih.pars, hnd', fun ps' hp' => absurd hp' (huniq ps'), ?_, ?_, ?_, ?_⟩
      · intro s' hs'
        simp only [if_true, Option.some.injEq] at hs'
        subst hs'
        simp only [List.length_append, hlen]
        exact ⟨by rw [hsplit]; exact each_append f1 m4, by omega⟩
      · intro s' hs' hc
        simp only [if_true, Option.some.injEq] at hs'
        subst hs'
        exact hF
      · intro s' hs' hc hle
        obtain ⟨s2, g1, g2, -⟩ := ih.pend ps (by rw [hpend]; simp)
        exact absurd g2 (ih.cut s2 g1 hc hle)
      · intro s' hs' hc
        simp only [if_true, Option.some.injEq] at hs'
        subst hs'
        have e := h5 (by
          have := countMatches_take 2000 (full.matches_.drop s.matches_.length)
          have := countMatches_drop s.matches_.length full.matches_
          omega)
        have er : r = (full.matches_.drop s.matches_.length).take r.length := by
          rw [e, List.length_take, List.length_drop]
          by_cases hl : 2000 ≤ full.matches_.length - s.matches_.length
          · rw [Nat.min_eq_left hl]
          · rw [Nat.min_eq_right (by omega), List.take_of_length_le (by rw [List.length_drop]; omega),
              List.take_of_length_le (by rw [List.length_drop]; omega)]
        simp only [List.length_append]
        rw [List.take_add, ← ih.whole s h1 hc, ← er]
    · have hsame : moreResults p.byRepo rp out repo = p.byRepo repo := by
        unfold moreResults
        cases out with
        | error e => rfl
        | ok all =>
          simp only
          cases all.results rp with
          | none => rfl
          | some x =>
            cases p.byRepo rp with
            | none => rfl
            | some y => simp [Ne.symm hrp]
      refine ⟨ih.pars, hnd', ?_, ?_, ?_, ?_, ?_⟩
      · intro ps' hp'
        simp only [hsame]
        refine ih.pend ps' ?_
        rw [hpend]
        rcases List.mem_append.1 hp' with h' | h'
        · exact List.mem_append.2 (.inl h')
        · exact List.mem_append.2 (.inr (by simp [h']))
      all_goals intro s' hs'; simp only [hsame] at hs'
      · exact ih.first s' hs'
      · exact ih.total s' hs'
      · exact ih.cut s' hs'
      · exact ih.whole s' hs'

/-- The full statement of **C47**: whenever no request is under way, the files shown for a repository
are the first files of its full result, and once the button is gone all of them are shown. False of
the code when the result limit cuts the first answer (`not_webPagingFull`), and when the button is
pressed twice before the answer comes (`double_press_repeats`). -/
def WebPagingFull : Prop :=
  ∀ (Q : Type) (srv : Server Q) (params : Params) (repo : Bytes) (ix : IndexView Q) (full : SearchResponse)
    (p : Page) (s : Shown), Setting srv params repo ix full → Reach srv true params p →
    p.pending = [] → p.byRepo repo = some s →
    FirstFiles s.matches_ full.matches_ ∧ (¬ s.button → s.matches_.length = full.matches_.length)

/-- **C47**, what is shown. At any time, the files shown for a repository are the first files of its full
result, in order, each once. If the matched lines of the first 20 files stay below the cap (or there
is none), the button is there exactly as long as files are missing; otherwise the first answer was
cut, and there is no button. If all matched lines fit under the cap, every file is shown with all its
matches. -/
theorem webPaging_partial (h : Setting srv params repo ix full) {p : Page} (hr : Reach srv true params p)
    {s : Shown} (hs : p.byRepo repo = some s) :
    FirstFiles s.matches_ full.matches_ ∧
    (capOf srv params ≤ 0 ∨ (countMatches (full.matches_.take 20) : Int) < capOf srv params →
      (s.button ↔ s.matches_.length < full.matches_.length) ∧
      (¬ s.button → s.matches_.length = full.matches_.length)) ∧
    (0 < capOf srv params → capOf srv params ≤ (countMatches (full.matches_.take 20) : Int) → ¬ s.button) ∧
    (capOf srv params ≤ 0 ∨ (countMatches full.matches_ : Int) ≤ capOf srv params →
      s.matches_ = full.matches_.take s.matches_.length) := by
  have inv := reach_pinv h hr
  obtain ⟨f1, f2⟩ := inv.first s hs
  refine ⟨f1, fun hc => ?_, inv.cut s hs, inv.whole s hs⟩
  have := inv.total s hs hc
  unfold Shown.button
  omega

/-- **C47**, progress. Every answer to a press of the button adds at least one further file, and exactly
the next 2000 (or all that are missing) if their matched lines fit under the cap; it never fails. So
after at most as many presses as there are files, all are shown. -/
theorem webPaging_progress (h : Setting srv params repo ix full) {p : Page} (hr : Reach srv true params p)
    {ps : Params} (hm : (repo, ps) ∈ p.pending) {out : Except SearchErr AllFound}
    (hs : Served srv (formOf ps) out) :
    ∃ s s', p.byRepo repo = some s ∧ moreResults p.byRepo repo out repo = some s' ∧
      s.matches_.length < s'.matches_.length ∧ s'.matches_.length ≤ full.matches_.length ∧
      (capOf srv params ≤ 0 ∨
        (countMatches ((full.matches_.drop s.matches_.length).take 2000) : Int) ≤ capOf srv params →
        s'.matches_ = s.matches_ ++ (full.matches_.drop s.matches_.length).take 2000) := by
  have inv := reach_pinv h hr
  obtain ⟨s, m, r, h1, hF, m1, m2, m3, m4, h5, hmore⟩ := answer_step h inv hm hs
  have hlen : r.length = m := by
    have := each_length m4
    rw [List.length_take, List.length_drop] at this; omega
  refine ⟨s, { s with matches_ := s.matches_ ++ r }, h1, by rw [hmore]; simp, ?_, ?_, ?_⟩
  · simp only [List.length_append]; omega
  · simp only [List.length_append]; omega
  · intro hc; simp only; rw [h5 hc]

/-- **C47**: a searched repository that is not listed has no match. -/
theorem webPaging_absent (h : Setting srv params repo ix full) {all : AllFound}
    (hs : Served srv (firstForm params) (.ok all))
    (hin : repo ∈ parseAsRepoList (firstForm params b!"repos") srv.idx)
    (hn : firstResults all repo = none) : full.matches_ = [] := by
  refine (first_answer h hs).2 ?_ hin
  unfold firstResults at hn
  simpa using hn

end

/-! ### Concrete instances and counterexamples -/

/-- A server with the three files of `exIndex` (two of them match `x`). -/
def exServer (limit : Int) : Server Unit := ⟨exCompile, id, [(b!"r", exIndex)], limit⟩

/-- A search for `x`, without context lines. -/
def exParams : Params := fun k =>
  if k = b!"q" then some b!"x" else if k = b!"ctx" then some b!"0" else none

theorem exSetting (limit : Int) : Setting (exServer limit) exParams b!"r" exIndex exFull where
  rng := rfl
  plain := by unfold PlainName; decide
  index := rfl
  readable := fun re hre f hf => exReadable (firstForm exParams b!"q")
    (searchOptions (firstForm exParams) limit) re hre f hf
  result := by
    unfold FullResult
    have h1 : firstForm exParams b!"q" = b!"x" := rfl
    have h2 : (searchOptions (firstForm exParams) (exServer limit).resultLimit) =
      { offset := 0, limit := 20, maxResults := limit, linesOfContext := 0 } := rfl
    rw [h1, h2]
    rfl
  small := by decide

/-- The answer of a server whose index gives one result. -/
theorem served_one {Q : Type} {srv : Server Q} {form : Bytes → Bytes} {repo : Bytes} {ix : IndexView Q}
    {r : SearchResponse} (h1 : parseAsRepoList (form b!"repos") srv.idx = [repo])
    (h2 : srv.idx.lookup repo = some ix)
    (h3 : search srv.compile srv.quoteMeta ix (form b!"q") (searchOptions form srv.resultLimit) = .ok r)
    (h4 : r.matches_ ≠ []) :
    Served srv form (.ok ⟨fun n => if n = repo then some r else none, r.filesOpened⟩) := by
  refine ⟨[(repo, .ok r)], [(repo, .ok r)], by rw [h1]; rfl, ?_, List.Perm.refl _, ?_⟩
  · intro a ha
    simp only [List.mem_singleton] at ha
    subst ha
    exact ⟨ix, h2, h3.symm⟩
  · simp [collect, h4]

/-- **C47 fails under a tight result limit**: with a limit of one match, the first of two matching files is
shown and no button leads to the second. -/
theorem not_webPagingFull : ¬ WebPagingFull := by
  intro h
  have hs : Served (exServer 1) (firstForm exParams) _ :=
    served_one (repo := b!"r") (ix := exIndex)
      (r := ⟨[⟨b!"a", [⟨b!"x", 1, [], []⟩], false⟩], 1, 1, b!"r1"⟩) (by decide) rfl
      (by rfl) (by simp)
  have := (h Unit (exServer 1) exParams b!"r" exIndex exFull _ _ (exSetting 1) (.searched hs) rfl rfl).2
    (by unfold Shown.button; decide)
  revert this
  decide

/-- 21 files, each with one matching line. -/
def exIndex21 : IndexView Unit where
  postingQuery := fun _ => List.range 21
  name := fun i => [UInt8.ofNat (97 + i)]
  raw := fun _ => some b!"x"
  rev := b!"r1"
  autoGeneratedFiles := []

def exServer21 : Server Unit := ⟨exCompile, id, [(b!"r", exIndex21)], 5000⟩

/-- A file of the example. -/
def exFile (i : Nat) : FileMatch := ⟨[UInt8.ofNat (97 + i)], [⟨b!"x", 1, [], []⟩], false⟩

def exShown20 : Shown := ⟨(List.range 20).map exFile, 21⟩

theorem exFirst21 : Served exServer21 (firstForm exParams) (.ok ⟨fun n => if n = b!"r" then
    some ⟨(List.range 20).map exFile, 21, 21, b!"r1"⟩ else none, 21⟩) :=
  served_one (repo := b!"r") (ix := exIndex21)
    (r := ⟨(List.range 20).map exFile, 21, 21, b!"r1"⟩) (by decide) rfl (by rfl) (by decide)

theorem exMore21 : Served exServer21 (formOf (moreParams (searchParams exParams) b!"r" exShown20))
    (.ok ⟨fun n => if n = b!"r" then some ⟨[exFile 20], 21, 21, b!"r1"⟩ else none, 21⟩) :=
  served_one (repo := b!"r") (ix := exIndex21) (r := ⟨[exFile 20], 21, 21, b!"r1"⟩) (by decide) rfl
    (by rfl) (by decide)

/-- **C47 fails for an impatient user**: pressing the button twice before the answer comes shows the 21st
file twice. -/
theorem double_press_repeats : ∃ p s, Reach exServer21 false exParams p ∧ p.pending = [] ∧
    p.byRepo b!"r" = some s ∧ s.matches_ = (List.range 21).map exFile ++ [exFile 20] := by
  have r0 : Reach exServer21 false exParams _ := .searched exFirst21
  have r1 := Reach.press r0 (repo := b!"r") (s := exShown20) rfl (by unfold Shown.button; decide) (by simp)
  have r2 := Reach.press r1 (repo := b!"r") (s := exShown20) rfl (by unfold Shown.button; decide) (by simp)
  have r3 := Reach.answer r2 (before := []) rfl exMore21
  have r4 := Reach.answer r3 (before := []) rfl exMore21
  exact ⟨_, ⟨(List.range 21).map exFile ++ [exFile 20], 21⟩, r4, rfl, rfl, rfl⟩

/-- A patient user presses once, and all 21 files are shown. -/
example : ∃ p s, Reach exServer21 true exParams p ∧ p.byRepo b!"r" = some s ∧
    s.matches_ = (List.range 21).map exFile ∧ ¬ s.button := by
  have r0 : Reach exServer21 true exParams _ := .searched exFirst21
  have r1 := Reach.press r0 (repo := b!"r") (s := exShown20) rfl (by unfold Shown.button; decide) (by simp)
  have r2 := Reach.answer r1 (before := []) rfl exMore21
  exact ⟨_, ⟨(List.range 21).map exFile, 21⟩, r2, rfl, rfl, by unfold Shown.button; decide⟩

/-- The hypotheses of the theorems are met by the example, with a cap that is not reached. -/
example : (countMatches (exFull.matches_.take 20) : Int) < capOf (exServer 5000) exParams := by
  decide +kernel

end Hound.Ui
