import Verif.Proofs.WordsPattern
import Verif.Props.LiteralPage

/-!
# C92: a search for one of several words finds the lines with any of them

The pattern is `w₁|w₂|…`, the words quoted (`goQuoteMeta`), with hound's flags in front.
-/

namespace Hound.GoRe
open Spec Spec.Pat

/-- **C92**, the full claim: the search reports a line exactly if one of the words is in it. -/
def WordsFull : Prop :=
  ∀ (T : Tables), AsciiFolds T.orbit → FoldCycles T.orbit → ValidFolds T.orbit → ∀ (ws : List (List Rune)) (opt : SearchOptions), ws ≠ [] →
    (∀ w ∈ ws, w ≠ [] ∧ ∀ r ∈ w, PlainChar T.orbit opt.ignoreCase r) → opt.literalSearch = false → Plain opt →
    ∀ (c : Compiled Query), CompiledText T goGrow (fullPattern goQuoteMeta (orPattern ws) opt) c →
    ∀ (ix : IndexView Query) (files : List (Bytes × Reader)) (answers : List (Option SkipReason)), ServesFiles ix files answers →
    (∀ f ∈ indexedFiles files answers, ∀ g ∈ indexedFiles files answers, f.1 = g.1 → f = g) →
    ∀ (compile : Bytes → Option (Compiled Query)), compile (fullPattern goQuoteMeta (orPattern ws) opt) = some c →
    ∀ (name content : Bytes) (s e : Nat), (name, content) ∈ indexedFiles files answers → LineAt content s e → s < content.length →
    (Reports (search compile goQuoteMeta ix (orPattern ws) opt) name ((content.take s).count NL + 1) (slice content s e) ↔
      HasWord T.orbit opt.ignoreCase ws (slice content s e))

/-! ## Trigram queries of patterns that begin their alternations with the long ones -/

/-- **C09** for patterns in which, of the alternatives in each place, the first has a repetition, a `.` or a text of four characters in it, or all the
others are texts of at most three bytes: the query holds of every text with a match, however slices grow. -/
theorem regexpQuery_sound_longFirst {grow : Nat → Nat → Nat} {orbit : Rune → List Rune} {re : Re} {w : Bytes} (h : LongFirst re) (hm : Matches orbit re w) :
    Sat (HasTrigram w) (HInfo.regexpQuery grow orbit re).1 :=
  regexpQuery_sound_partial (regexpQuery_longFirst h) hm

/-- `func|get[a-z]*|(set|put)x` begins with the long one. -/
example : LongFirst (.alternate [.literal [102, 117, 110, 99] false, .concat [.literal [103, 101, 116] false, .star (.charClass [(97, 122)])],
    .concat [.capture (.alternate [.literal [115, 101, 116] false, .literal [112, 117, 116] false]), .literal [120] false]]) := by
  simp [LongFirst, LongFirstL, Long, Short]
  decide

/-- **C01** for such patterns, from the tree of the pattern: nothing is asked of how the query was computed. -/
theorem search_complete_longFirst_partial {grow : Nat → Nat → Nat} {orbit : Rune → List Rune} {t : Syn} {c : Compiled Query} {ix : IndexView Query}
    {files : List (Bytes × Reader)} {answers : List (Option SkipReason)} {compile : Bytes → Option (Compiled Query)} {quoteMeta : Bytes → Bytes}
    {pat : Bytes} {opt : SearchOptions} (hf : AsciiFolds orbit) (hc : CompiledTree grow orbit t c) (hb : Bounded t) (hr : RunesOK orbit t)
    (hl : LongFirst t.re) (hix : ServesFiles ix files answers) (hcomp : compile (fullPattern quoteMeta pat opt) = some c) (ho : Plain opt)
    {name content : Bytes} {s e : Nat} (hfile : (name, content) ∈ indexedFiles files answers)
    (hline : LineAt content s e) (hs : s < content.length) (hm : MatchWithin orbit t.re content s e) :
    Reports (search compile quoteMeta ix pat opt) name ((content.take s).count NL + 1) (slice content s e) :=
  search_complete_tree_partial hf hc hb hr (regexpQuery_longFirst hl) hix hcomp ho hfile hline hs hm

/-- The tree of `item(?:s_all|[1-3])` satisfies what is asked of the tree; that of `item(?:[1-3]|s_all)`, for which the claim fails, does not. -/
example : let t : Syn := .concat [.literal [105, 116, 101, 109] false, .alternate [.literal [115, 95, 97, 108, 108] false, .charClass [(49, 51)]]]
    LongFirst t.re ∧ Bounded t ∧ RunesOK exOrbit t ∧ ∃ c, CompiledTree goGrow exOrbit t c := by
  intro t
  have hr : RunesOK exOrbit t := by
    simp only [t, RunesOK, RunesOKL, RuneOK]
    refine ⟨?_, ⟨?_, ⟨?_, ?_⟩, trivial⟩, trivial⟩
    · exact (by decide : ∀ r ∈ ([105, 116, 101, 109] : List Rune), validRune r = true)
    · exact (by decide : ∀ r ∈ ([115, 95, 97, 108, 108] : List Rune), validRune r = true)
    · intro p hp; rw [List.mem_singleton.1 hp]; simp [ClearRange]
    · intro a c h; simp at h
  refine ⟨?_, ?_, hr, exists_compiled hr (by decide +kernel)⟩
  · simp [t, Syn.re, Syn.res, LongFirst, LongFirstL, Long]
  · simp [t, Bounded, BoundedL]

section
variable {T : Tables} {grow : Nat → Nat → Nat} {ws : List (List Rune)} {c : Compiled Query}
  {ix : IndexView Query} {files : List (Bytes × Reader)} {answers : List (Option SkipReason)}
  {compile : Bytes → Option (Compiled Query)} {opt : SearchOptions}

/-! ## The tree of the words -/

theorem common_of_apart (hc : FoldCycles T.orbit) {fold : Bool} {v w : List Rune}
    (h : ∀ r x, v.head? = some r → w.head? = some x → ¬ FoldsTo T.orbit fold r x) : commonRunes (wordRunes T fold v) (wordRunes T fold w) = [] := by
  cases v with
  | nil => cases fold <;> rfl
  | cons r v =>
    cases w with
    | nil => cases fold <;> rfl
    | cons x w =>
      have h0 := h r x rfl rfl
      cases fold with
      | false =>
        show commonRunes (r :: v) (x :: w) = []
        rw [commonRunes, if_neg]
        rintro rfl
        exact h0 (.inl rfl)
      | true =>
        show commonRunes (minFoldRune T.orbit r :: v.map _) (minFoldRune T.orbit x :: w.map _) = []
        rw [commonRunes, if_neg]
        intro he
        have h1 : x = minFoldRune T.orbit r ∨ x ∈ T.orbit (minFoldRune T.orbit r) := by
          rw [he]; exact (minFoldRune_same hc x x).2 (.inl rfl)
        rcases (minFoldRune_same hc r x).1 h1 with h | h
        · exact h0 (.inl h)
        · exact h0 (.inr ⟨rfl, h⟩)

theorem apart_words (hc : FoldCycles T.orbit) {fold : Bool} : ∀ {ws : List (List Rune)}, BeginApart T.orbit fold ws → Apart1 T fold ws
  | [], _ => trivial
  | [_], _ => trivial
  | _ :: _ :: _, h => ⟨common_of_apart hc h.1, apart_words hc h.2⟩

theorem encode_valid {w : List Rune} (h : ∀ r ∈ w, validRune r = true) : encodeRunes w = w.flatMap encodeRaw := by
  induction w with
  | nil => rfl
  | cons r w ih =>
    have h1 : encodeRune r = encodeRaw r := by
      unfold encodeRune
      rw [if_pos (h r List.mem_cons_self)]
    unfold encodeRunes at ih ⊢
    rw [List.flatMap_cons, List.flatMap_cons, h1, ih fun x hx => h x (List.mem_cons_of_mem _ hx)]

theorem res_words (fold : Bool) : ∀ ws : List (List Rune), Syn.res (ws.map (wordSyn T fold)) = ws.map fun w => Re.literal (wordRunes T fold w) fold
  | [] => rfl
  | w :: ws => by
    rw [List.map_cons, Syn.res, res_words fold ws]
    rfl

theorem wordsSyn_all {fold : Bool} {P : Syn → Prop} (ha : ∀ ss : List Syn, (∀ s ∈ ss, P s) → P (.alternate ss)) {ws : List (List Rune)}
    (h : ∀ w ∈ ws, P (wordSyn T fold w)) : P (wordsSyn T fold ws) := by
  unfold wordsSyn
  split
  · exact h _ (by simp)
  · apply ha
    intro s hs
    obtain ⟨w, hw, rfl⟩ := List.mem_map.1 hs
    exact h w hw

theorem all_bounded : ∀ ss : List Syn, (∀ s ∈ ss, Bounded s) → BoundedL ss
  | [], _ => trivial
  | s :: ss, h => ⟨h s List.mem_cons_self, all_bounded ss fun x hx => h x (List.mem_cons_of_mem _ hx)⟩

theorem all_noBegin : ∀ ss : List Syn, (∀ s ∈ ss, NoBeginTextTree s) → NoBeginTextTreeL ss
  | [], _ => trivial
  | s :: ss, h => ⟨h s List.mem_cons_self, all_noBegin ss fun x hx => h x (List.mem_cons_of_mem _ hx)⟩

theorem all_runes {orbit : Rune → List Rune} : ∀ ss : List Syn, (∀ s ∈ ss, RunesOK orbit s) → RunesOKL orbit ss
  | [], _ => trivial
  | s :: ss, h => ⟨h s List.mem_cons_self, all_runes ss fun x hx => h x (List.mem_cons_of_mem _ hx)⟩

theorem all_noSurrogates {orbit : Rune → List Rune} : ∀ ss : List Syn, (∀ s ∈ ss, NoSurrogates orbit s) → NoSurrogatesL orbit ss
  | [], _ => trivial
  | s :: ss, h => ⟨h s List.mem_cons_self, all_noSurrogates ss fun x hx => h x (List.mem_cons_of_mem _ hx)⟩

theorem word_quoted {fold : Bool} {w : List Rune} (hw : w ≠ []) : wordSyn T fold w = quotedSyn T fold w := by
  unfold quotedSyn
  rw [if_neg hw]
  rfl

theorem word_runes (hf : AsciiFolds T.orbit) (hc : FoldCycles T.orbit) (hv : ValidFolds T.orbit) {fold : Bool} {w : List Rune}
    (h : ∀ r ∈ w, PlainChar T.orbit fold r) : RunesOK T.orbit (wordSyn T fold w) := by
  have hn : ∀ r ∈ w, Neat T (.literal [if fold then minFoldRune T.orbit r else r] fold) := fun r hr =>
    (leaves_neat hc hf hv).char fold r (validRune_le (h r hr).1) (h r hr)
  have hk : ∀ r ∈ w, RuneOK T.orbit (.rune [if fold then minFoldRune T.orbit r else r] fold 0) := by
    intro r hr
    have := neat_runes _ (hn r hr)
    rw [RunesOK] at this
    exact this _ (List.mem_singleton.2 rfl)
  unfold wordSyn wordRunes
  rw [RunesOK]
  cases fold with
  | false => exact hk
  | true =>
    intro x hx
    obtain ⟨r, hr, rfl⟩ := List.mem_map.1 hx
    exact hk r hr

theorem words_longFirst {fold : Bool} {ws : List (List Rune)} (hv : ∀ w ∈ ws, ∀ r ∈ w, validRune r = true) (h : LongWordFirst fold ws) :
    LongFirst (wordsSyn T fold ws).re := by
  have hL : ∀ l : List (List Rune), LongFirstL (l.map fun w => Re.literal (wordRunes T fold w) fold) := by
    intro l
    induction l with
    | nil => trivial
    | cons w l ih => exact ⟨trivial, ih⟩
  unfold wordsSyn
  split
  · trivial
  · rw [Syn.re, res_words, LongFirst]
    refine ⟨hL _, ?_⟩
    intro r more he
    cases ws with
    | nil => cases he
    | cons w ws =>
      rw [List.map_cons] at he
      cases he
      rcases h with h | ⟨rfl, h⟩
      · left
        rw [Long, wordRunes_length]
        exact h
      · right
        intro s hs
        obtain ⟨v, hm, rfl⟩ := List.mem_map.1 hs
        refine ⟨rfl, ?_⟩
        show (encodeRunes v).length ≤ 3
        rw [encode_valid (hv v (List.mem_cons_of_mem _ hm))]
        exact h v hm

theorem altAt_any {orbit : Rune → List Rune} {w : Bytes} {i j : Nat} : ∀ rs : List Re, AlternateAt orbit w rs i j ↔ ∃ r ∈ rs, MatchAt orbit w r i j
  | [] => by simp [AlternateAt]
  | r :: rs => by
    rw [AlternateAt, altAt_any rs]
    simp

theorem foldClasses (hf : AsciiFolds T.orbit) (hc : FoldCycles T.orbit) (hv : ValidFolds T.orbit) : FoldClasses T.orbit :=
  ⟨hf, fun r x h y => hc.same r x h y, fun r x _ h => hv r x h⟩

theorem word_within (hf : AsciiFolds T.orbit) (hc : FoldCycles T.orbit) (hv : ValidFolds T.orbit) {fold : Bool} {w : List Rune}
    (hw : ∀ r ∈ w, validRune r = true) {b : Bytes} {s e : Nat} (hse : s ≤ e) (he : e ≤ b.length) :
    MatchWithin T.orbit (.literal (wordRunes T fold w) fold) b s e ↔ HasText T.orbit fold w (slice b s e) := by
  rw [literal_within hse he]
  unfold HasText wordRunes
  cases fold with
  | false =>
    simp only [Bool.false_eq_true, if_false, alike_exact]
    exact ⟨fun ⟨xs, h1, _, h2⟩ => h1 ▸ h2, fun h => ⟨w, rfl, hw, h⟩⟩
  | true =>
    simp only [if_true, alike_minFold (foldClasses hf hc hv)]
    exact ⟨fun ⟨xs, h1, h2, h3⟩ => ⟨_, xs, ⟨h2, rfl⟩, h1, h3⟩, fun ⟨_, xs, ⟨h2, e⟩, h1, h3⟩ => ⟨xs, h1, h2, e ▸ h3⟩⟩

/-- The tree of the words matches in the lines that have one of them. -/
theorem words_within (hf : AsciiFolds T.orbit) (hc : FoldCycles T.orbit) (hv : ValidFolds T.orbit) {fold : Bool} {ws : List (List Rune)}
    (hw : ∀ w ∈ ws, ∀ r ∈ w, validRune r = true) {b : Bytes} {s e : Nat} (hse : s ≤ e) (he : e ≤ b.length) :
    MatchWithin T.orbit (wordsSyn T fold ws).re b s e ↔ HasWord T.orbit fold ws (slice b s e) := by
  unfold HasWord wordsSyn
  split
  · rename_i w
    rw [show (wordSyn T fold w).re = .literal (wordRunes T fold w) fold from rfl, word_within hf hc hv (hw w (by simp)) hse he]
    simp
  · rw [Syn.re, res_words]
    constructor
    · rintro ⟨i, j, h1, h2, h3, h4⟩
      rw [MatchAt, altAt_any] at h4
      obtain ⟨r, hr, h4⟩ := h4
      obtain ⟨w, hm, rfl⟩ := List.mem_map.1 hr
      exact ⟨w, hm, (word_within hf hc hv (hw w hm) hse he).1 ⟨i, j, h1, h2, h3, h4⟩⟩
    · rintro ⟨w, hm, h⟩
      obtain ⟨i, j, h1, h2, h3, h4⟩ := (word_within hf hc hv (hw w hm) hse he).2 h
      refine ⟨i, j, h1, h2, h3, ?_⟩
      rw [MatchAt, altAt_any]
      exact ⟨_, List.mem_map.2 ⟨w, hm, rfl⟩, h4⟩

/-- **C92.** A plain search for several words with `|` between them reports a line of an indexed file exactly if one of the words is in it (or, where
case does not matter, a text that differs from one only in case).

Partial: each word has at least two characters, words next to each other begin with different characters, and the first word has at least four
characters or else case matters and all the others have at most three bytes. Without that the search misses lines (`not_wordsFull`). Where case does
not matter, words have no letters above U+1044F. -/
theorem words_search_partial (hf : AsciiFolds T.orbit) (hcy : FoldCycles T.orbit) (hvf : ValidFolds T.orbit) (hn : ws ≠ [])
    (hw : ∀ w ∈ ws, 2 ≤ w.length ∧ ∀ r ∈ w, PlainChar T.orbit opt.ignoreCase r) (hap : BeginApart T.orbit opt.ignoreCase ws)
    (hlong : LongWordFirst opt.ignoreCase ws) (hl : opt.literalSearch = false) (ho : Plain opt)
    (hc : CompiledText T grow (fullPattern goQuoteMeta (orPattern ws) opt) c) (hix : ServesFiles ix files answers)
    (hdistinct : ∀ f ∈ indexedFiles files answers, ∀ g ∈ indexedFiles files answers, f.1 = g.1 → f = g)
    (hcomp : compile (fullPattern goQuoteMeta (orPattern ws) opt) = some c)
    {name content : Bytes} {s e : Nat} (hfile : (name, content) ∈ indexedFiles files answers) (hline : LineAt content s e) (hs : s < content.length) :
    Reports (search compile goQuoteMeta ix (orPattern ws) opt) name ((content.take s).count NL + 1) (slice content s e) ↔
      HasWord T.orbit opt.ignoreCase ws (slice content s e) := by
  have hval : ∀ w ∈ ws, ∀ r ∈ w, validRune r = true := fun w h r hr => ((hw w h).2 r hr).1
  have hp := parse_words T opt hn (fun w h => (hw w h).1) hval (apart_words hcy hap) hl goQuoteMeta
  obtain ⟨t, h1, h2⟩ := hc
  cases hp.symm.trans h1
  have hb : Bounded (wordsSyn T opt.ignoreCase ws) := wordsSyn_all (P := Bounded) (fun ss h => all_bounded ss h) fun _ _ => trivial
  have hnb : NoBeginTextTree (wordsSyn T opt.ignoreCase ws) := wordsSyn_all (P := NoBeginTextTree) (fun ss h => all_noBegin ss h) fun _ _ => trivial
  have hr : RunesOK T.orbit (wordsSyn T opt.ignoreCase ws) :=
    wordsSyn_all (P := RunesOK T.orbit) (fun ss h => all_runes ss h) fun w h => word_runes hf hcy hvf (hw w h).2
  have hns : NoSurrogates T.orbit (wordsSyn T opt.ignoreCase ws) := by
    refine wordsSyn_all (P := NoSurrogates T.orbit) (fun ss h => all_noSurrogates ss h) fun w h => ?_
    rw [word_quoted (by intro h0; have := (hw w h).1; rw [h0] at this; simp at this)]
    exact Ui.quotedSyn_noSurrogates hvf _ (hval w h)
  have hz := regexpQuery_longFirst (grow := grow) (orbit := T.orbit) (words_longFirst (T := T) hval hlong)
  constructor
  · rintro ⟨r, hr', fm, hfm, hname, m, hm, k1, k2⟩
    obtain ⟨content', q1, s', e', q2, q3, q4, q5⟩ := search_only_matching_tree_partial hf h2 hb hr hnb hix hcomp hr' hfm hm
    rw [hname] at q1
    have : content' = content := (Prod.mk.inj (hdistinct _ q1 _ hfile rfl)).2
    subst this
    have := (words_within hf hcy hvf hval q2.1 q2.2.1).1 (q5 (.inr hns))
    rw [← q4, k2] at this
    exact this
  · intro h
    exact search_complete_tree_partial hf h2 hb hr hz hix hcomp ho hfile hline hs ((words_within hf hcy hvf hval hline.1 hline.2.1).2 h)

end

/-! ## The full claim fails -/

mutual
/-- Equality of trees of texts, classes, sequences and alternatives. -/
def synEq : Syn → Syn → Bool
  | .literal a f, .literal b g => a == b && f == g
  | .charClass a, .charClass b => a == b
  | .concat a, .concat b => synEqL a b
  | .alternate a, .alternate b => synEqL a b
  | _, _ => false
/-- The same for lists of them. -/
def synEqL : List Syn → List Syn → Bool
  | [], [] => true
  | a :: s, b :: t => synEq a b && synEqL s t
  | _, _ => false
end

mutual
theorem synEq_eq : ∀ {a b : Syn}, synEq a b = true → a = b
  | .literal _ _, .literal _ _, h => by simp only [synEq, Bool.and_eq_true, beq_iff_eq] at h; rw [h.1, h.2]
  | .charClass _, .charClass _, h => by simp only [synEq, beq_iff_eq] at h; rw [h]
  | .concat _, .concat _, h => by simp only [synEq] at h; rw [synEqL_eq h]
  | .alternate _, .alternate _, h => by simp only [synEq] at h; rw [synEqL_eq h]
theorem synEqL_eq : ∀ {a b : List Syn}, synEqL a b = true → a = b
  | [], [], _ => rfl
  | a :: s, b :: t, h => by simp only [synEqL, Bool.and_eq_true] at h; rw [synEq_eq h.1, synEqL_eq h.2]
end

mutual
/-- Equality of queries. -/
def queryEq : Query → Query → Bool
  | .mk a t q, .mk b u r => a == b && t == u && queryEqL q r
/-- The same for lists of them. -/
def queryEqL : List Query → List Query → Bool
  | [], [] => true
  | a :: s, b :: t => queryEq a b && queryEqL s t
  | _, _ => false
end

mutual
theorem queryEq_eq : ∀ {a b : Query}, queryEq a b = true → a = b
  | .mk _ _ _, .mk _ _ _, h => by simp only [queryEq, Bool.and_eq_true, beq_iff_eq] at h; rw [h.1.1, h.1.2, queryEqL_eq h.2]
theorem queryEqL_eq : ∀ {a b : List Query}, queryEqL a b = true → a = b
  | [], [], _ => rfl
  | a :: s, b :: t, h => by simp only [queryEqL, Bool.and_eq_true] at h; rw [queryEq_eq h.1, queryEqL_eq h.2]
end

/-- `item1`, `item2`, `item3`, `items_all`. -/
def itemWords : List (List Rune) :=
  [[105, 116, 101, 109, 49], [105, 116, 101, 109, 50], [105, 116, 101, 109, 51], [105, 116, 101, 109, 115, 95, 97, 108, 108]]

example : orPattern itemWords = b!"item1|item2|item3|items_all" := by decide +kernel

/-- What they are parsed to: `item(?:[1-3]|s_all)`. -/
def itemTree : Syn := .concat [.literal [105, 116, 101, 109] false, .alternate [.charClass [(49, 51)], .literal [115, 95, 97, 108, 108] false]]

theorem item_parse : parse (exTables false) (fullPattern goQuoteMeta (orPattern itemWords) {}) = .ok itemTree := by
  have h : (match parse (exTables false) (fullPattern goQuoteMeta (orPattern itemWords) {}) with | .ok t => synEq t itemTree | _ => false) = true := by
    decide +kernel
  split at h
  · rename_i t ht
    rw [ht, synEq_eq h]
  · cases h

example : ¬ LongFirst itemTree.re := by
  simp [itemTree, Syn.re, Syn.res, LongFirst, LongFirstL, Long, Short]
  decide

/-- The query asks for `em1`, `em2` or `em3`, or for `eml` and `mll`. Neither is in `items_all`. -/
theorem item_query : (HInfo.regexpQuery goGrow exOrbit itemTree.re).1 =
    .mk .and [b!"ite", b!"tem"] [.mk .or [b!"em1", b!"em2", b!"em3"] [.mk .and [b!"eml", b!"mll"] []]] :=
  queryEq_eq (by decide +kernel)

theorem item_compiled : ∃ c, CompiledTree goGrow exOrbit itemTree c := by
  refine exists_compiled ?_ (by decide +kernel)
  simp only [itemTree, RunesOK, RunesOKL, RuneOK]
  refine ⟨?_, ⟨⟨?_, ?_⟩, ?_, trivial⟩, trivial⟩
  · intro r hr
    exact (by decide : ∀ r ∈ ([105, 116, 101, 109] : List Rune), validRune r = true) r hr
  · intro p hp; rw [List.mem_singleton.1 hp]; simp [ClearRange]
  · intro a c h; simp at h
  · intro r hr
    exact (by decide : ∀ r ∈ ([115, 95, 97, 108, 108] : List Rune), validRune r = true) r hr

/-- **C92** does not hold in full: a search for `item1|item2|item3|items_all` in an index over a file with the single line `items_all` reports
nothing. -/
theorem not_wordsFull : ¬ WordsFull := by
  intro hfull
  obtain ⟨c, hc⟩ := item_compiled
  obtain ⟨ix, answers, hix, hfiles⟩ := exists_serves b!"f" b!"items_all" (by decide) (by decide +kernel) (by decide) (by decide)
  have hrep := (hfull (exTables false) exOrbit_ascii exOrbit_cycles exOrbit_valid itemWords {} (by decide) (by
      intro w hw
      refine ⟨(by decide : ∀ w ∈ itemWords, w ≠ []) w hw, fun r hr => ⟨?_, fun h => by cases h⟩⟩
      exact (by decide : ∀ w ∈ itemWords, ∀ r ∈ w, validRune r = true) w hw r hr) rfl
    ⟨rfl, rfl, by decide, by decide, by decide⟩ c ⟨_, item_parse, hc⟩ ix _ answers hix (by
      rw [hfiles]
      intro f hf g hg _
      rw [List.mem_singleton.1 hf, List.mem_singleton.1 hg]) (fun _ => some c) rfl b!"f" b!"items_all" 0 9 (by rw [hfiles]; simp)
    ⟨by decide, by decide, by decide, .inl rfl, .inl rfl⟩ (by decide)).2
      ⟨[105, 116, 101, 109, 115, 95, 97, 108, 108], by simp [itemWords], ⟨[], [], by decide⟩⟩
  have hq : c.query = .mk .and [b!"ite", b!"tem"] [.mk .or [b!"em1", b!"em2", b!"em3"] [.mk .and [b!"eml", b!"mll"] []]] := by
    rw [hc.2, item_query]
  have h3 : ThreeByte c.query := by rw [hq]; simp [ThreeByte, ThreeByteL]
  have hne : NoEmptyAnd c.query := by rw [hq]; simp [NoEmptyAnd, NoEmptyAndL]
  obtain ⟨r, hr, hrm⟩ := plain_search (compile := fun _ => some c) (quoteMeta := goQuoteMeta) (pat := orPattern itemWords) (opt := {}) hix h3 hne rfl
    ⟨rfl, rfl, by decide, by decide, by decide⟩
  obtain ⟨r', hr', fm, hfm, _⟩ := hrep
  rw [hr] at hr'
  cases hr'
  rw [hrm] at hfm
  obtain ⟨i, hi, _⟩ := List.mem_filterMap.mp hfm
  obtain ⟨cfg, paths, data, rix, hcf, hb, ho, hpq, _, _⟩ := hix
  obtain ⟨l, hl, _, hmem⟩ := postingQuery_partial hcf hb ho h3 hne
  rw [hpq, hl] at hi
  obtain ⟨name, content, hi', hs⟩ := (hmem i).mp hi
  have := List.mem_of_getElem? hi'
  rw [hfiles, List.mem_singleton] at this
  cases this
  rw [hq] at hs
  exact absurd ((satB_iff _).2 hs) (by decide)

/-- `Func`, `get`, `a.b`. -/
def exWordList : List (List Rune) := [[70, 117, 110, 99], [103, 101, 116], [97, 46, 98]]

example : orPattern exWordList = b!"Func|get|a\\.b" := by decide +kernel

theorem SameButCase.length {orbit : Rune → List Rune} : ∀ {rs xs : List Rune}, SameButCase orbit rs xs → xs.length = rs.length
  | [], [], _ => rfl
  | _ :: _, _ :: _, h => congrArg (· + 1) (SameButCase.length h.2)
  | [], _ :: _, h => h.elim
  | _ :: _, [], h => h.elim

theorem encoded_length (xs : List Rune) : xs.length ≤ (xs.flatMap encodeRaw).length := by
  induction xs with
  | nil => exact Nat.le_refl _
  | cons x xs ih =>
    have := List.length_pos_iff.2 (encodeRaw_ne_nil x)
    rw [List.flatMap_cons, List.length_append, List.length_cons]
    omega

/-- The theorem applies to a search for them, case not mattering, in a file with the lines `a.`, `xA.B` and `func`: the last two are reported, the
first is not. -/
example : ∃ (ix : IndexView Query) (c : Compiled Query), let res := search (fun _ => some c) goQuoteMeta ix (orPattern exWordList) { ignoreCase := true }
    ¬ Reports res b!"f" 1 b!"a." ∧ Reports res b!"f" 2 b!"xA.B" ∧ Reports res b!"f" 3 b!"func" := by
  have hch : ∀ w ∈ exWordList, 2 ≤ w.length ∧ ∀ r ∈ w, PlainChar exOrbit true r := by
    intro w hw
    refine ⟨(by decide : ∀ w ∈ exWordList, 2 ≤ w.length) w hw, fun r hr => ⟨?_, fun _ => .inl ?_⟩⟩
    · exact (by decide : ∀ w ∈ exWordList, ∀ r ∈ w, validRune r = true) w hw r hr
    · exact (by decide : ∀ w ∈ exWordList, ∀ r ∈ w, r ≤ 0x1044f) w hw r hr
  have hap : BeginApart exOrbit true exWordList := by
    refine ⟨?_, ?_, trivial⟩
    all_goals
      intro r x hr hx
      cases hr; cases hx
      unfold FoldsTo
      decide +kernel
  have hparse := parse_words (exTables false) { ignoreCase := true } (ws := exWordList) (by decide) (fun w h => (hch w h).1)
    (fun w h r hr => ((hch w h).2 r hr).1) (apart_words exOrbit_cycles hap) rfl goQuoteMeta
  obtain ⟨c, hc⟩ := exists_compiled (t := wordsSyn (exTables false) true exWordList)
    (wordsSyn_all (P := RunesOK exOrbit) (fun ss h => all_runes ss h) fun w h => word_runes exOrbit_ascii exOrbit_cycles exOrbit_valid (hch w h).2)
    (by decide +kernel)
  obtain ⟨ix, answers, hix, hfiles⟩ := exists_serves b!"f" b!"a.\nxA.B\nfunc\n" (by decide) (by decide +kernel) (by decide) (by decide)
  have key : ∀ s e, LineAt b!"a.\nxA.B\nfunc\n" s e → s < 13 →
      (Reports (search (fun _ => some c) goQuoteMeta ix (orPattern exWordList) { ignoreCase := true }) b!"f"
        ((b!"a.\nxA.B\nfunc\n".take s).count NL + 1) (slice b!"a.\nxA.B\nfunc\n" s e) ↔
        HasWord exOrbit true exWordList (slice b!"a.\nxA.B\nfunc\n" s e)) := fun s e hline hs =>
    words_search_partial (T := exTables false) (opt := { ignoreCase := true }) exOrbit_ascii exOrbit_cycles exOrbit_valid (by decide) hch hap
      (.inl (by decide)) rfl ⟨rfl, rfl, by decide, by decide, by decide⟩ ⟨_, hparse, hc⟩ hix (by
        rw [hfiles]
        intro f hf g hg _
        rw [List.mem_singleton.1 hf, List.mem_singleton.1 hg]) rfl (content := b!"a.\nxA.B\nfunc\n") (by rw [hfiles]; simp) hline hs
  refine ⟨ix, c, ?_, ?_, ?_⟩
  · intro h
    obtain ⟨w, hw, text, xs, ⟨-, rfl⟩, h1, h2⟩ := (key 0 2 ⟨by decide, by decide, by decide, .inl rfl, .inr (by decide)⟩ (by decide)).1 h
    have l1 := (by decide : ∀ w ∈ exWordList, 3 ≤ w.length) w hw
    have l2 := SameButCase.length h1
    have l3 := encoded_length xs
    have l4 : (xs.flatMap encodeRaw).length ≤ 2 := h2.length_le
    omega
  · refine (key 3 7 ⟨by decide, by decide, by decide, .inr (by decide), .inr (by decide)⟩ (by decide)).2 ⟨[97, 46, 98], by simp [exWordList], ?_⟩
    exact ⟨b!"A.B", [65, 46, 66], ⟨by decide, by decide⟩, ⟨.inr (by decide), .inl rfl, .inr (by decide), trivial⟩, ⟨[120], [], by decide⟩⟩
  · refine (key 8 12 ⟨by decide, by decide, by decide, .inr (by decide), .inr (by decide)⟩ (by decide)).2 ⟨[70, 117, 110, 99], by simp [exWordList], ?_⟩
    exact ⟨b!"func", [102, 117, 110, 99], ⟨by decide, by decide⟩, ⟨.inr (by decide), .inl rfl, .inl rfl, .inl rfl, trivial⟩, ⟨[], [], by decide⟩⟩

end Hound.GoRe
