import Verif.Proofs.QuotedPattern
import Verif.Proofs.LongFirst

/-! # What is parsed of quoted words with `|` between them -/

namespace Hound.GoRe
open Spec Spec.Pat

section
variable (T : Tables)

/-- A word as it is kept in a tree. -/
def wordRunes (fold : Bool) (w : List Rune) : List Rune := if fold then w.map (minFoldRune T.orbit) else w

/-- The tree of a word. -/
def wordSyn (fold : Bool) (w : List Rune) : Syn := .literal (wordRunes T fold w) fold

theorem wordRunes_length (fold : Bool) (w : List Rune) : (wordRunes T fold w).length = w.length := by
  unfold wordRunes; split <;> simp

/-- The stack, with two literals on top made one, when these characters have been read behind what is below. -/
def wordStack (fold : Bool) (rs : List Rune) (base : Stack) : Stack := if rs = [] then base else .re (wordSyn T fold rs) :: base

/-- The stack is empty, or there is a bar on top. -/
def Open (base : Stack) : Prop := base = [] ∨ ∃ t, base = .bar :: t

theorem open_keeps {base : Stack} (h : Open base) : maybeConcat base = base := by
  rcases h with rfl | ⟨t, rfl⟩ <;> rfl

theorem open_below {base : Stack} (h : Open base) (s : Syn) : maybeConcat (.re s :: base) = .re s :: base := by
  rcases h with rfl | ⟨t, rfl⟩ <;> cases s <;> rfl

theorem wordStack_keeps {fold : Bool} {rs : List Rune} {base : Stack} (h : Open base) : maybeConcat (wordStack T fold rs base) = wordStack T fold rs base := by
  unfold wordStack
  split
  · exact open_keeps h
  · exact open_below h _

theorem wordStack_push (fl : PFlags) (rs : List Rune) (r : Rune) {st base : Stack} (hb : Open base) (h : maybeConcat st = wordStack T fl.fold rs base) :
    maybeConcat (pushLiteral T fl r st) = wordStack T fl.fold (rs ++ [r]) base := by
  unfold pushLiteral push
  rw [h]
  have e : ∀ x f, asLiteral T (.literal x f) = .literal x f := fun _ _ => rfl
  unfold wordStack wordSyn wordRunes
  by_cases h0 : rs = []
  · subst h0
    rw [e, if_pos rfl, open_below hb]
    cases hf : fl.fold <;> rfl
  · have h1 : rs ++ [r] ≠ [] := by simp
    rw [if_neg h0, if_neg h1, e, maybeConcat, if_pos rfl]
    cases hf : fl.fold
    · rfl
    · simp

theorem word_loop {uni : Bytes → Option (Rune → Prop)} {base : Stack} (hb : Open base) : ∀ {rs : List Rune}, (∀ r ∈ rs, validRune r = true) →
    ∀ {fuel : Nat} {st : PState} {before : List Rune} {next : Bytes},
    ((quotedSeq rs).text ++ next).length ≤ fuel → maybeConcat st.stack = wordStack T st.flags.fold before base →
    ∃ st' fuel', parseLoop T fuel st ((quotedSeq rs).text ++ next) = parseLoop T fuel' st' next ∧ next.length ≤ fuel' ∧ st'.flags = st.flags ∧
      maybeConcat st'.stack = wordStack T st.flags.fold (before ++ rs) base
  | [], _, fuel, st, before, next, hl, h => ⟨st, fuel, rfl, hl, rfl, by rw [List.append_nil]; exact h⟩
  | r :: rs, hv, fuel, st, before, next, hl, h => by
    obtain ⟨h1, h2⟩ := quotedChar_ok (uni := uni) (hv r List.mem_cons_self) ((quotedSeq rs).text ++ next)
    obtain ⟨b, t, e, hle, hs⟩ := step_written (T := T) h1 h2 st
    have et : (quotedSeq (r :: rs)).text ++ next = b :: t := by rw [quotedSeq, Seq.text, Piece.text, Atom.text, List.append_assoc]; exact e
    rw [et] at hl ⊢
    cases fuel with
    | zero => simp at hl
    | succ fuel =>
      rw [parseLoop, hs]
      simp only [List.length_cons, Nat.add_le_add_iff_right] at hl
      rw [quotedChar_rune]
      obtain ⟨st', fuel', k1, k2, k3, k4⟩ := word_loop hb (uni := uni) (fun x hx => hv x (List.mem_cons_of_mem _ hx)) (fuel := fuel) (st := st.char T r)
        (before := before ++ [r]) (next := next) (by omega) (wordStack_push T st.flags before r hb h)
      exact ⟨st', fuel', k1, k2, k3, by rw [k4, List.append_assoc]; rfl⟩

/-- The words read so far, the last on top, and the bar behind them if there are any. -/
def readStack (fold : Bool) (done : List (List Rune)) : Stack :=
  if done = [] then [] else .bar :: (done.map fun w => Item.re (wordSyn T fold w)).reverse

theorem readStack_open (fold : Bool) (done : List (List Rune)) : Open (readStack T fold done) := by
  unfold readStack
  split
  · exact .inl rfl
  · exact .inr ⟨_, rfl⟩

theorem word_not_class {fold : Bool} {w : List Rune} (h : 2 ≤ w.length) : isCharClass (wordSyn T fold w) = false := by
  have hl := wordRunes_length T fold w
  unfold wordSyn
  match hx : wordRunes T fold w with
  | [] => rfl
  | [a] => rw [hx] at hl; simp at hl; omega
  | a :: b :: t => rfl

theorem collapse_word (fold : Bool) (w : List Rune) : collapseConcat [wordSyn T fold w] = wordSyn T fold w := rfl

theorem concatTop_word {fold : Bool} {w : List Rune} (hw : w ≠ []) {st base : Stack} (hb : Open base) (h : maybeConcat st = wordStack T fold w base) :
    concatTop T st = .re (wordSyn T fold w) :: base := by
  unfold concatTop
  rw [h]
  unfold wordStack
  rw [if_neg hw, popExprs]
  have hp : popExprs base [wordSyn T fold w] = ([wordSyn T fold w], base) := by
    rcases hb with rfl | ⟨t, rfl⟩ <;> rfl
  rw [hp]
  simp only [List.cons_ne_nil, if_false]
  unfold push
  rw [open_keeps hb]
  rfl

theorem read_cases {done : List (List Rune)} : done = [] ∨ ∃ d w, done = d ++ [w] := by
  rcases List.eq_nil_or_concat done with h | ⟨d, w, h⟩
  · exact .inl h
  · exact .inr ⟨d, w, by rw [h, List.concat_eq_append]⟩

/-- The bar behind a word. -/
theorem bar_word {fold : Bool} {done : List (List Rune)} (hd : ∀ w ∈ done, 2 ≤ w.length) {w : List Rune} (hw : 2 ≤ w.length) {st : Stack}
    (h : maybeConcat st = wordStack T fold w (readStack T fold done)) : verticalBar T st = readStack T fold (done ++ [w]) := by
  have hne : w ≠ [] := by intro h0; rw [h0] at hw; simp at hw
  unfold verticalBar
  rw [concatTop_word T hne (readStack_open T fold done) h]
  have hr : readStack T fold (done ++ [w]) = .bar :: .re (wordSyn T fold w) :: (done.map fun w => Item.re (wordSyn T fold w)).reverse := by
    unfold readStack
    rw [if_neg (by simp)]
    simp
  rw [hr]
  rcases read_cases (done := done) with rfl | ⟨d, v, rfl⟩
  · rfl
  · have hv : 2 ≤ v.length := hd v (by simp)
    have hs : readStack T fold (d ++ [v]) = .bar :: .re (wordSyn T fold v) :: (d.map fun w => Item.re (wordSyn T fold w)).reverse := by
      unfold readStack
      rw [if_neg (by simp)]
      simp
    rw [hs]
    simp only [swapVerticalBar, word_not_class T hw, Bool.false_and, Bool.false_eq_true, if_false, Option.getD_some]
    simp [cleanAlt, wordSyn]

theorem pop_words (fold : Bool) : ∀ (ws : List (List Rune)) (acc : List Syn),
    popExprs (ws.map fun w => Item.re (wordSyn T fold w)) acc = ((ws.map (wordSyn T fold)).reverse ++ acc, [])
  | [], acc => rfl
  | w :: ws, acc => by
    rw [List.map_cons, popExprs, pop_words fold ws]
    simp

theorem cleanLast_words (fold : Bool) : ∀ ws : List (List Rune), cleanLast (ws.map (wordSyn T fold)) = ws.map (wordSyn T fold)
  | [] => rfl
  | [w] => rfl
  | w :: v :: ws => by
    rw [List.map_cons, List.map_cons, cleanLast]
    · rw [← List.map_cons (f := wordSyn T fold), cleanLast_words fold (v :: ws)]
    · simp

theorem altSubs_words (fold : Bool) : ∀ ws : List (List Rune), (ws.map (wordSyn T fold)).flatMap altSubs = ws.map (wordSyn T fold)
  | [] => rfl
  | w :: ws => by
    rw [List.map_cons, List.flatMap_cons, altSubs_words fold ws]
    rfl

/-! ## Words that begin differently have nothing factored out -/

/-- Words next to each other have no beginning in common. -/
def Apart1 (fold : Bool) : List (List Rune) → Prop
  | v :: w :: ws => commonRunes (wordRunes T fold v) (wordRunes T fold w) = [] ∧ Apart1 fold (w :: ws)
  | _ => True

theorem apart_tail {fold : Bool} {w : List Rune} {ws : List (List Rune)} (h : Apart1 T fold (w :: ws)) : Apart1 T fold ws := by
  cases ws with
  | nil => trivial
  | cons v ws => exact h.2

theorem round1_words {fold : Bool} (alt : List Syn → Syn) : ∀ (ws : List (List Rune)) (w : List Rune), Apart1 T fold (w :: ws) →
    round1 alt (ws.map (wordSyn T fold)) [wordSyn T fold w] (wordRunes T fold w) fold = (w :: ws).map (wordSyn T fold)
  | [], w, _ => rfl
  | v :: ws, w, h => by
    rw [List.map_cons, round1]
    have hl : leadingString (wordSyn T fold v) = (wordRunes T fold v, fold) := rfl
    rw [hl]
    simp only [h.1, ne_eq, not_true_eq_false, and_false, if_false]
    rw [round1_words alt ws v h.2]
    rfl

theorem round2_words {fold : Bool} (alt : List Syn → Syn) : ∀ (ws : List (List Rune)) (w : List Rune), 2 ≤ w.length → (∀ v ∈ ws, 2 ≤ v.length) →
    round2 T alt (ws.map (wordSyn T fold)) [wordSyn T fold w] (some (wordSyn T fold w)) = (w :: ws).map (wordSyn T fold)
  | [], w, _, _ => rfl
  | v :: ws, w, hw, hv => by
    rw [List.map_cons, round2]
    have hl : leadingRegexp (wordSyn T fold v) = some (wordSyn T fold v) := rfl
    have hc : continues T (some (wordSyn T fold w)) (some (wordSyn T fold v)) = false := by
      have := word_not_class T (fold := fold) hw
      unfold continues
      simp only
      unfold wordSyn at this ⊢
      rw [sameLead]
      · rw [this]; rfl
      · intros; rename_i h _; cases h
    rw [hl, hc]
    simp only [Bool.false_eq_true, if_false]
    rw [round2_words alt ws v (hv v List.mem_cons_self) fun x hx => hv x (List.mem_cons_of_mem _ hx)]
    rfl

theorem round3_words {fold : Bool} : ∀ (ws : List (List Rune)), (∀ v ∈ ws, 2 ≤ v.length) →
    round3 T (ws.map (wordSyn T fold)) [] = ws.map (wordSyn T fold)
  | [], _ => rfl
  | v :: ws, hv => by
    rw [List.map_cons, round3, word_not_class T (hv v List.mem_cons_self)]
    simp only [Bool.false_eq_true, if_false]
    rw [round3_words ws fun x hx => hv x (List.mem_cons_of_mem _ hx)]
    rfl

theorem round4_words {fold : Bool} : ∀ (ws : List (List Rune)), round4 (ws.map (wordSyn T fold)) = ws.map (wordSyn T fold)
  | [] => rfl
  | [v] => rfl
  | v :: w :: ws => by
    rw [List.map_cons, List.map_cons, round4]
    have : isEmptyMatch (wordSyn T fold v) = false := rfl
    rw [this]
    simp only [Bool.false_and, Bool.false_eq_true, if_false]
    rw [← List.map_cons (f := wordSyn T fold), round4_words (w :: ws)]

theorem collapse_words {fold : Bool} {v w : List Rune} {ws : List (List Rune)} (hl : ∀ x ∈ v :: w :: ws, 2 ≤ x.length) (ha : Apart1 T fold (v :: w :: ws)) :
    collapseAlt T ((v :: w :: ws).map (wordSyn T fold)) = .alternate ((v :: w :: ws).map (wordSyn T fold)) := by
  unfold collapseAlt
  generalize Syn.sizeL ((v :: w :: ws).map (wordSyn T fold)) = n
  have e : (v :: w :: ws).map (wordSyn T fold) = wordSyn T fold v :: wordSyn T fold w :: ws.map (wordSyn T fold) := rfl
  rw [e, alternation]
  · rw [← e, altSubs_words, if_neg (by simp)]
    have h1 : round1 (alternation T n) ((v :: w :: ws).map (wordSyn T fold)) [] [] false = (v :: w :: ws).map (wordSyn T fold) := by
      rw [List.map_cons, round1]
      have hls : leadingString (wordSyn T fold v) = (wordRunes T fold v, fold) := rfl
      rw [hls]
      have hcr : commonRunes [] (wordRunes T fold v) = [] := rfl
      simp only [hcr, ne_eq, not_true_eq_false, and_false, if_false]
      rw [round1_words T _ _ _ ha]
      rfl
    rw [h1]
    have h2 : round2 T (alternation T n) ((v :: w :: ws).map (wordSyn T fold)) [] none = (v :: w :: ws).map (wordSyn T fold) := by
      rw [List.map_cons, round2]
      have hlr : leadingRegexp (wordSyn T fold v) = some (wordSyn T fold v) := rfl
      have hc : continues T none (leadingRegexp (wordSyn T fold v)) = false := rfl
      rw [hc]
      simp only [Bool.false_eq_true, if_false]
      rw [hlr, round2_words T _ _ _ (hl v List.mem_cons_self) fun x hx => hl x (List.mem_cons_of_mem _ hx)]
      rfl
    rw [h2, round3_words T _ hl, round4_words]
    rfl
  · simp

/-- The tree of several words. -/
def wordsSyn (fold : Bool) (ws : List (List Rune)) : Syn :=
  match ws with
  | [w] => wordSyn T fold w
  | ws => .alternate (ws.map (wordSyn T fold))

theorem closeGroup_words {fold : Bool} {done : List (List Rune)} {w : List Rune} (hl : ∀ x ∈ done ++ [w], 2 ≤ x.length)
    (ha : Apart1 T fold (done ++ [w])) {st : Stack} (h : maybeConcat st = wordStack T fold w (readStack T fold done)) :
    closeGroup T st = [.re (wordsSyn T fold (done ++ [w]))] := by
  have hw : 2 ≤ w.length := hl w (by simp)
  have hne : w ≠ [] := by intro h0; rw [h0] at hw; simp at hw
  unfold closeGroup
  rw [concatTop_word T hne (readStack_open T fold done) h]
  rcases read_cases (done := done) with rfl | ⟨d, v, rfl⟩
  · rfl
  · have hs : readStack T fold (d ++ [v]) = .bar :: .re (wordSyn T fold v) :: (d.map fun w => Item.re (wordSyn T fold w)).reverse := by
      unfold readStack
      rw [if_neg (by simp)]
      simp
    rw [hs]
    simp only [swapVerticalBar, word_not_class T hw, Bool.false_and, Bool.false_eq_true, if_false, Option.elim_some, List.tail_cons]
    have hc : cleanAlt (wordSyn T fold v) = wordSyn T fold v := rfl
    rw [hc]
    have e : (Item.re (wordSyn T fold w) :: Item.re (wordSyn T fold v) :: (d.map fun w => Item.re (wordSyn T fold w)).reverse)
        = ((d ++ [v] ++ [w]).reverse).map fun w => Item.re (wordSyn T fold w) := by simp
    unfold alternateTop
    rw [e, pop_words]
    have e2 : (((d ++ [v] ++ [w]).reverse).map (wordSyn T fold)).reverse ++ [] = (d ++ [v] ++ [w]).map (wordSyn T fold) := by simp
    rw [e2]
    simp only
    rw [cleanLast_words]
    match hd : d ++ [v] ++ [w] with
    | [] => simp at hd
    | [x] =>
      have := congrArg List.length hd
      simp at this
    | a :: b :: t =>
      rw [hd] at hl ha
      rw [if_neg (by simp), collapse_words T hl ha]
      rfl

/-- Reading words with bars between them. -/
theorem words_loop : ∀ {ws : List (List Rune)} {done : List (List Rune)} {fuel : Nat} {st : PState}, ws ≠ [] →
    (∀ w ∈ done ++ ws, 2 ≤ w.length) → (∀ w ∈ ws, ∀ r ∈ w, validRune r = true) → (orPattern ws).length ≤ fuel →
    st.stack = readStack T st.flags.fold done →
    ∃ st' d w, parseLoop T fuel st (orPattern ws) = .ok st' ∧ done ++ ws = d ++ [w] ∧
      maybeConcat st'.stack = wordStack T st.flags.fold w (readStack T st.flags.fold d)
  | [], _, _, _, h, _, _, _, _ => absurd rfl h
  | [w], done, fuel, st, _, hl, hv, hf, hs => by
    have ht : orPattern [w] = (quotedSeq w).text ++ [] := by rw [orPattern, List.append_nil, quotedSeq_text (hv w (by simp))]
    rw [ht] at hf ⊢
    obtain ⟨st', fuel', k1, k2, k3, k4⟩ := word_loop T (uni := fun _ => none) (readStack_open T st.flags.fold done) (rs := w) (hv w (by simp)) (fuel := fuel) (st := st)
      (before := []) (next := []) hf (by rw [hs, wordStack, if_pos rfl, open_keeps (readStack_open T _ _)])
    exact ⟨st', done, w, by rw [k1, parseLoop_nil], rfl, k4⟩
  | w :: v :: ws, done, fuel, st, _, hl, hv, hf, hs => by
    have ht : orPattern (w :: v :: ws) = (quotedSeq w).text ++ 124 :: orPattern (v :: ws) := by
      rw [orPattern, quotedSeq_text (hv w (by simp))]
      simp
    rw [ht] at hf ⊢
    obtain ⟨st', fuel', k1, k2, k3, k4⟩ := word_loop T (uni := fun _ => none) (readStack_open T st.flags.fold done) (rs := w) (hv w (by simp)) (fuel := fuel) (st := st)
      (before := []) (next := 124 :: orPattern (v :: ws)) hf (by rw [hs, wordStack, if_pos rfl, open_keeps (readStack_open T _ _)])
    rw [k1]
    cases fuel' with
    | zero => simp at k2
    | succ fuel' =>
      rw [parseLoop]
      have hstep : GoRe.step T st' 124 (orPattern (v :: ws)) = .ok ({ st' with stack := verticalBar T st'.stack, last := false }, orPattern (v :: ws)) := rfl
      rw [hstep]
      simp only
      have hb := bar_word T (fold := st.flags.fold) (done := done) (fun x hx => hl x (by simp [hx])) (hl w (by simp)) k4
      obtain ⟨st2, d, x, g1, g2, g3⟩ := words_loop (ws := v :: ws) (done := done ++ [w]) (fuel := fuel')
        (st := { st' with stack := verticalBar T st'.stack, last := false }) (by simp) (by simpa using hl)
        (fun x hx => hv x (List.mem_cons_of_mem _ hx)) (by simpa using k2) (by simp only [k3]; exact hb)
      simp only [k3] at g3
      exact ⟨st2, d, x, g1, by simpa using g2, g3⟩

end

/-- What quoted words with bars between them are parsed to, behind the flags of a search. -/
theorem parse_words (T : Tables) (opt : SearchOptions) {ws : List (List Rune)} (hn : ws ≠ []) (hl : ∀ w ∈ ws, 2 ≤ w.length)
    (hv : ∀ w ∈ ws, ∀ r ∈ w, validRune r = true) (ha : Apart1 T opt.ignoreCase ws) (hlit : opt.literalSearch = false) (quoteMeta : Bytes → Bytes) :
    parse T (fullPattern quoteMeta (orPattern ws) opt) = .ok (wordsSyn T opt.ignoreCase ws) := by
  have key : ∀ (n : Nat) (fl : PFlags) (k : Nat) (last : Bool), (orPattern ws).length ≤ n → fl.fold = opt.ignoreCase → ∃ st',
      parseLoop T n ⟨fl, [], k, last⟩ (orPattern ws) = .ok st' ∧ closeGroup T st'.stack = [.re (wordsSyn T opt.ignoreCase ws)] := by
    intro n fl k last hn' hfl
    obtain ⟨st', d, w, g1, g2, g3⟩ := words_loop T (ws := ws) (done := []) (fuel := n) (st := ⟨fl, [], k, last⟩) hn (by simpa using hl) hv hn' rfl
    simp only [List.nil_append] at g2
    subst g2
    simp only [hfl] at g3
    exact ⟨st', g1, closeGroup_words T hl ha g3⟩
  generalize orPattern ws = t at *
  have fin : ∀ {b : Bytes} {st : PState}, parseLoop T b.length { flags := perlFlags0 } b = .ok st →
      closeGroup T st.stack = [.re (wordsSyn T opt.ignoreCase ws)] → parse T b = .ok (wordsSyn T opt.ignoreCase ws) := by
    intro b st h1 h2
    rw [parse, h1]
    simp only
    rw [h2]
  have hp : fullPattern quoteMeta t opt = if opt.ignoreCase then b!"(?i)" ++ (b!"(?m)" ++ t) else b!"(?m)" ++ t := by
    rw [fullPattern, hlit]
    cases opt.ignoreCase <;> simp
  rw [hp]
  cases hi : opt.ignoreCase with
  | false =>
    have hs : ∀ t', parseLoop T (b!"(?m)" ++ t').length { flags := perlFlags0 } (b!"(?m)" ++ t') =
        parseLoop T (t'.length + 3) ⟨{ fold := false, oneLine := false, dotNL := false, nonGreedy := false }, [], 0, false⟩ t' := fun _ => rfl
    obtain ⟨st', k1, k2⟩ := key (t.length + 3) { fold := false, oneLine := false, dotNL := false, nonGreedy := false } 0 false (by omega) hi.symm
    rw [hi] at fin k2
    exact fin ((hs t).trans k1) k2
  | true =>
    have hs : ∀ t', parseLoop T (b!"(?i)" ++ (b!"(?m)" ++ t')).length { flags := perlFlags0 } (b!"(?i)" ++ (b!"(?m)" ++ t')) =
        parseLoop T (t'.length + 6) ⟨{ fold := true, oneLine := false, dotNL := false, nonGreedy := false }, [], 0, false⟩ t' := fun _ => rfl
    obtain ⟨st', k1, k2⟩ := key (t.length + 6) { fold := true, oneLine := false, dotNL := false, nonGreedy := false } 0 false (by omega) hi.symm
    rw [hi] at fin k2
    exact fin ((hs t).trans k1) k2

end Hound.GoRe
