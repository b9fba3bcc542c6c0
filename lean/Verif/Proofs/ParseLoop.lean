import Verif.Proofs.ParseOps

/-!
# The loop of Go's parser on the parts of a pattern
-/

namespace Hound.GoRe
open Hound.Spec Hound.Spec.Pat

variable {T : Tables} {uni : Bytes → Option (Rune → Prop)} {P : Syn → Prop} {okChar : Bool → Rune → Prop} {okSet : Bool → (Rune → Prop) → Prop}

/-! ## Rounds of the loop -/

/-- Some rounds of the loop lead from a state and a text to another state and the rest of the text. -/
inductive Runs (T : Tables) : PState → Bytes → PState → Bytes → Prop
  | done (st : PState) (t : Bytes) : Runs T st t st t
  | step {st : PState} {b : UInt8} {t : Bytes} {st1 : PState} {t1 : Bytes} {st2 : PState} {t2 : Bytes} :
      GoRe.step T st b t = .ok (st1, t1) → t1.length ≤ t.length → Runs T st1 t1 st2 t2 → Runs T st (b :: t) st2 t2

theorem Runs.one {st st1 : PState} {b : UInt8} {t t1 : Bytes} (h : GoRe.step T st b t = .ok (st1, t1)) (hl : t1.length ≤ t.length) :
    Runs T st (b :: t) st1 t1 := .step h hl (.done _ _)

theorem Runs.trans {st st1 st2 : PState} {t t1 t2 : Bytes} (h : Runs T st t st1 t1) (h' : Runs T st1 t1 st2 t2) : Runs T st t st2 t2 := by
  induction h with
  | done => exact h'
  | step h1 h2 _ ih => exact .step h1 h2 (ih h')

theorem Runs.loop {st st' : PState} {t t' : Bytes} (h : Runs T st t st' t') :
    ∀ fuel, t.length ≤ fuel → ∃ fuel', t'.length ≤ fuel' ∧ parseLoop T fuel st t = parseLoop T fuel' st' t' := by
  induction h with
  | done st t => exact fun fuel h => ⟨fuel, h, rfl⟩
  | step h1 h2 _ ih =>
    intro fuel hf
    rw [List.length_cons] at hf
    cases fuel with
    | zero => omega
    | succ fuel =>
      obtain ⟨fuel', g1, g2⟩ := ih fuel (by omega)
      exact ⟨fuel', g1, by rw [parseLoop, h1]; exact g2⟩

theorem parseLoop_nil (fuel : Nat) (st : PState) : parseLoop T fuel st [] = .ok st := by
  cases fuel <;> rfl

/-! ## Properties of trees -/

/-- A property of trees that everything in the parser keeps. -/
structure Keeper (T : Tables) (P : Syn → Prop) : Prop extends KeepsAll T P where
  bol : P .beginLine
  eol : P .endLine
  eot : ∀ b, P (.endText b)
  wb : P .wordBoundary
  nwb : P .noWordBoundary
  cap : ∀ n name s, P s → P (.capture n name s)
  star : ∀ ng s, P s → P (.star ng s)
  plus : ∀ ng s, P s → P (.plus ng s)
  quest : ∀ ng s, P s → P (.quest ng s)
  rep : ∀ ng s lo hi, (∀ h, hi = some h → lo ≤ h) → P s → P (.rep ng s lo hi)

theorem repeatsValid_iff {k : Nat} : ∀ {ss : List Syn}, repeatsValid k ss = true ↔ ∀ s ∈ ss, repeatIsValid k s = true
  | [] => by simp [repeatsValid]
  | s :: ss => by rw [repeatsValid, Bool.and_eq_true, repeatsValid_iff]; simp

theorem class_valid {k : Nat} {s : Syn} (h : isCharClass s = true) : repeatIsValid k s = true := by
  unfold isCharClass at h
  split at h
  · rw [repeatIsValid] <;> simp
  · rw [repeatIsValid] <;> simp
  · rw [repeatIsValid] <;> simp
  · rw [repeatIsValid] <;> simp
  · exact absurd h (by decide)

theorem asLiteral_one {s : Syn} (h : isCharClass s = true) : isCharClass (asLiteral T s) = true := by
  unfold asLiteral
  split
  · split
    · rfl
    · split
      · rfl
      · rfl
  · split
    · rfl
    · rfl
  · exact h

theorem asLiteral_class {r : Ranges} : isCharClass (asLiteral T (.charClass r)) = true := by
  unfold asLiteral
  split
  · split
    · rfl
    · split <;> rfl
  · split <;> rfl
  · rfl

/-- The property, and nested repetitions make at most `k` copies. -/
def Valid (P : Syn → Prop) (k : Nat) (s : Syn) : Prop := P s ∧ repeatIsValid k s = true

theorem valid_leaf {k : Nat} {s : Syn} (h : P s) (hs : repeatIsValid k s = true) : Valid P k s := ⟨h, hs⟩

theorem valid_keeps (hP : KeepsAll T P) (k : Nat) : KeepsAll T (Valid P k) where
  cat ss := by
    rw [Valid, hP.cat, repeatIsValid, repeatsValid_iff]
    exact ⟨fun h s hs => ⟨h.1 s hs, h.2 s hs⟩, fun h => ⟨fun s hs => (h s hs).1, fun s hs => (h s hs).2⟩⟩
  empty := ⟨hP.empty, by rw [repeatIsValid] <;> simp⟩
  none := ⟨hP.none, by rw [repeatIsValid] <;> simp⟩
  any := ⟨hP.any, by rw [repeatIsValid] <;> simp⟩
  anyNL := ⟨hP.anyNL, by rw [repeatIsValid] <;> simp⟩
  lits a b f := by
    have h : ∀ rs, repeatIsValid k (.literal rs f) = true := fun rs => by rw [repeatIsValid] <;> simp
    rw [Valid, Valid, Valid, hP.lits]
    exact ⟨fun g => ⟨⟨g.1.1, h _⟩, g.1.2, h _⟩, fun g => ⟨⟨g.1.1, g.2.1⟩, h _⟩⟩
  bound r f h := hP.bound r f h.1
  ranges r h := hP.ranges r h.1
  clean r h := ⟨hP.clean r h.1, class_valid rfl⟩
  asLit r h := ⟨hP.asLit r h.1, class_valid asLiteral_class⟩

theorem valid_many (hM : Many T P) (k : Nat) : Many T (Valid P k) where
  alt ss := by
    rw [Valid, hM.alt, repeatIsValid, repeatsValid_iff]
    exact ⟨fun h s hs => ⟨h.1 s hs, h.2 s hs⟩, fun h => ⟨fun s hs => (h s hs).1, fun s hs => (h s hs).2⟩⟩
  merge a b ha hb hr h1 h2 := ⟨hM.merge a b ha hb hr h1.1 h2.1, class_valid (mergeCharClass_class a b ha)⟩
  lead a b hs h1 h2 := hM.lead a b hs h1.1 h2.1

/-- The set is that of characters up to case. -/
def Closed (orbit : Rune → List Rune) (S : Rune → Prop) : Prop := ∀ x y, y ∈ orbit x → S x → S y

/-- The characters and sets of a pattern become trees with the property. -/
structure Leaves (T : Tables) (P : Syn → Prop) (okChar : Bool → Rune → Prop) (okSet : Bool → (Rune → Prop) → Prop) : Prop where
  char : ∀ f r, r ≤ maxRune → okChar f r → P (.literal [if f then minFoldRune T.orbit r else r] f)
  set : ∀ f r S, ROk r → Apart 0 r → (∀ x, x ≤ maxRune → (InR r x ↔ S x)) → (f = true → Closed T.orbit S) → okSet f S →
    P (asLiteral T (.charClass r))

theorem fold_symm (hc : FoldCycles T.orbit) {x y : Rune} (h : y ∈ T.orbit x) : x ∈ T.orbit y := by
  rcases ((hc.same x y h x).2 (.inl rfl)) with e | e
  · rw [e] at h
    exact absurd h (hc.self y)
  · exact e

theorem sign_closed (hc : FoldCycles T.orbit) {neg : Bool} {S : Rune → Prop} (h : Closed T.orbit S) : Closed T.orbit (Sign neg S) := by
  cases neg with
  | false => exact h
  | true => exact fun x y hy hx hs => hx (h y x (fold_symm hc hy) hs)

theorem withCase_closed (hc : FoldCycles T.orbit) (S : Rune → Prop) : Closed T.orbit (WithCase T.orbit true S) := by
  rintro x y hy (h | ⟨-, z, hz, hx⟩)
  · exact .inr ⟨rfl, x, h, hy⟩
  · rcases (hc.same z x hx y).1 (.inr hy) with rfl | h
    · exact .inl hz
    · exact .inr ⟨rfl, z, hz, h⟩

theorem exists_closed {α : Sort _} {S : α → Rune → Prop} (h : ∀ a, Closed T.orbit (S a)) : Closed T.orbit (fun x => ∃ a, S a x) :=
  fun x y hy ⟨a, ha⟩ => ⟨a, h a x y hy ha⟩

theorem and_closed {p : Prop} {S : Rune → Prop} (h : Closed T.orbit S) : Closed T.orbit (fun x => p ∧ S x) :=
  fun x y hy ⟨a, ha⟩ => ⟨a, h x y hy ha⟩

theorem named_closed (hc : FoldCycles T.orbit) (n : Named) : Closed T.orbit (n.Has T.orbit uni true) := by
  cases n with
  | perl c => exact exists_closed fun neg => exists_closed fun S => and_closed (sign_closed hc (withCase_closed hc _))
  | letter neg c => exact exists_closed fun S => and_closed (sign_closed hc (withCase_closed hc _))
  | word neg caret name => exact exists_closed fun S => and_closed (sign_closed hc (withCase_closed hc _))

theorem member_closed (hc : FoldCycles T.orbit) (c : Member) : Closed T.orbit (c.Has T.orbit uni true) := by
  cases c with
  | one c => exact withCase_closed hc _
  | range lo hi => exact withCase_closed hc _
  | named n => exact named_closed hc n
  | posix neg name => exact exists_closed fun S => and_closed (sign_closed hc (withCase_closed hc _))

/-! ## Atoms -/

/-- An atom with the text `text` that leaves a tree with the meaning `means` on top of the stack. -/
def AtomRuns (T : Tables) (P : Syn → Prop) (m : Mode) (text next : Bytes) (copies : Nat) (means : Bytes → Nat → Nat → Prop) : Prop :=
  ∀ fl ss base n last, ModeOf m fl → Floor base →
    ∃ ts s n', Runs T ⟨fl, pile ss base, n, last⟩ (text ++ next) ⟨fl, pile (ts ++ [s]) base, n', false⟩ next ∧ CatKeep T ss ts ∧
      (∀ k, copies ≤ k → Valid P k s) ∧ ∀ w i j, SynAt T.orbit w s i j ↔ means w i j

theorem atom_put (hc : FoldCycles T.orbit) (hP : Keeper T P) {m : Mode} {text next : Bytes} {copies : Nat} {means : Bytes → Nat → Nat → Prop}
    (h : ∀ fl st n last, ModeOf m fl → ∃ b t s, text ++ next = b :: t ∧ next.length ≤ t.length ∧
      GoRe.step T ⟨fl, st, n, last⟩ b t = .ok (PState.put T ⟨fl, st, n, last⟩ s, next) ∧ (P s ∨ P (asLiteral T s) ∧ isCharClass s = true) ∧ (∀ k, repeatIsValid k s = true) ∧
      ∀ w i j, SynAt T.orbit w s i j ↔ means w i j) : AtomRuns T P m text next copies means := by
  intro fl ss base n last hm hb
  obtain ⟨b, t, s, e, hl, hs, h1, h2, h3⟩ := h fl (pile ss base) n last hm
  obtain ⟨ts, p1, p2⟩ := push_pile (T := T) hb ss s
  refine ⟨ts, asLiteral T s, n, ?_, p2, fun k _ => ?_, fun w i j => ?_⟩
  · rw [e, ← p1]
    exact .one hs hl
  · rcases h1 with h1 | ⟨h1, h4⟩
    · exact asLiteral_keeps (valid_keeps hP.toKeepsAll k) ⟨h1, h2 k⟩
    · exact ⟨h1, class_valid (asLiteral_one h4)⟩
  · rw [asLiteral_eqv hc, h3]

theorem literal_means (hc : FoldCycles T.orbit) (f : Bool) (r : Rune) (w : Bytes) (i j : Nat) :
    SynAt T.orbit w (.literal [if f then minFoldRune T.orbit r else r] f) i j ↔ OneOf (WithCase T.orbit f (· = r)) w i j := by
  rw [synAt_literal]
  simp only [LitAt, OneOf, exists_eq_right', FoldsTo, WithCase]
  constructor
  · rintro ⟨x, k, h1, h2, rfl⟩
    refine ⟨x, ?_, h2⟩
    cases f with
    | false => simpa using h1
    | true =>
      simp only [if_true, true_and] at h1 ⊢
      rcases (minFoldRune_same hc r x).1 h1 with h | h
      · exact .inl h
      · exact .inr ⟨r, rfl, h⟩
  · rintro ⟨x, h1, h2⟩
    refine ⟨x, j, ?_, h2, rfl⟩
    cases f with
    | false => simpa using h1
    | true =>
      simp only [if_true, true_and] at h1 ⊢
      refine (minFoldRune_same hc r x).2 ?_
      rcases h1 with h | ⟨y, rfl, h⟩
      · exact .inl h
      · exact .inr h

theorem atom_char (hc : FoldCycles T.orbit) (hP : Keeper T P) (hL : Leaves T P okChar okSet) {m : Mode} {text next : Bytes} {copies : Nat} {r : Rune}
    (hr : r ≤ maxRune) (ho : okChar m.caseless r)
    (h : ∀ fl st n last, ModeOf m fl → ∃ b t, text ++ next = b :: t ∧ next.length ≤ t.length ∧
      GoRe.step T ⟨fl, st, n, last⟩ b t = .ok (PState.char T ⟨fl, st, n, last⟩ r, next)) :
    AtomRuns T P m text next copies (fun w i j => OneOf (WithCase T.orbit m.caseless (· = r)) w i j) := by
  refine atom_put hc hP fun fl st n last hm => ?_
  obtain ⟨b, t, e, hl, hs⟩ := h fl st n last hm
  refine ⟨b, t, .literal [if m.caseless then minFoldRune T.orbit r else r] m.caseless, e, hl, ?_, .inl (hL.char _ _ hr ho), fun k => by rw [repeatIsValid] <;> simp,
    fun w i j => literal_means hc _ r w i j⟩
  rw [hs]
  simp only [PState.char, PState.put, pushLiteral, hm.1]

theorem atom_set (hc : FoldCycles T.orbit) (hP : Keeper T P) (hL : Leaves T P okChar okSet) {m : Mode} {text next : Bytes} {copies : Nat} {S : Rune → Prop}
    (hcl : m.caseless = true → Closed T.orbit S) (ho : okSet m.caseless S)
    (h : ∀ fl st n last, ModeOf m fl → ∃ b t r, text ++ next = b :: t ∧ next.length ≤ t.length ∧
      GoRe.step T ⟨fl, st, n, last⟩ b t = .ok (PState.put T ⟨fl, st, n, last⟩ (.charClass r), next) ∧ Adds [] r S ∧ Apart 0 r) :
    AtomRuns T P m text next copies (fun w i j => OneOf S w i j) := by
  refine atom_put hc hP fun fl st n last hm => ?_
  obtain ⟨b, t, r, e, hl, hs, ha, hap⟩ := h fl st n last hm
  have hS : ∀ x, x ≤ maxRune → (InR r x ↔ S x) := fun x hx => by rw [ha.2 x hx]; simp [InR_nil]
  refine ⟨b, t, .charClass r, e, hl, hs, .inr ⟨hL.set _ r S ha.1 hap hS hcl ho, rfl⟩, fun k => by rw [repeatIsValid] <;> simp, fun w i j => ?_⟩
  rw [synAt_class]
  refine exists_congr fun x => and_congr_left fun hx => hS x ?_
  exact Ui.valid_le hx.1

/-! ### Rounds -/

theorem step_other {st : PState} {b : UInt8} {t : Bytes} (h : b ∉ ([40, 124, 41, 94, 36, 46, 91, 42, 43, 63, 123, 92] : Bytes)) {c : Rune} {t' : Bytes}
    (hn : nextRune (b :: t) = .ok (c, t')) : GoRe.step T st b t = .ok (st.char T c, t') := by
  have hne : ∀ x ∈ ([40, 124, 41, 94, 36, 46, 91, 42, 43, 63, 123, 92] : Bytes), b ≠ x := fun x hx e => h (e ▸ hx)
  unfold GoRe.step
  rw [if_neg (hne _ (by decide)), if_neg (hne _ (by decide)), if_neg (hne _ (by decide)), if_neg (hne _ (by decide)), if_neg (hne _ (by decide)),
    if_neg (hne _ (by decide)), if_neg (hne _ (by decide)), if_neg (hne _ (by decide)), if_neg (hne _ (by decide)), if_neg (hne _ (by decide)),
    if_neg (hne _ (by decide)), if_neg (hne _ (by decide)), hn]

theorem stepEscape_class {st : PState} {d : UInt8} {t : Bytes} (h : d ∉ ([65, 98, 66, 67, 81, 122] : Bytes)) :
    GoRe.step T st 92 (d :: t) = stepClass T st (d :: t) := by
  have hne : ∀ x ∈ ([65, 98, 66, 67, 81, 122] : Bytes), d ≠ x := fun x hx e => h (e ▸ hx)
  have : GoRe.step T st 92 (d :: t) = stepEscape T st (d :: t) := rfl
  rw [this, stepEscape, if_neg (hne _ (by decide)), if_neg (hne _ (by decide)), if_neg (hne _ (by decide)), if_neg (hne _ (by decide)),
    if_neg (hne _ (by decide)), if_neg (hne _ (by decide))]

theorem step_written {c : Written} {next : Bytes} (h : c.Ok next) (hp : ∀ r, c = .plain r → r ∉ special ∧ (r = 123 → ¬ LooksCounted next)) (st : PState) :
    ∃ b t, c.text ++ next = b :: t ∧ next.length ≤ t.length ∧ GoRe.step T st b t = .ok (st.char T c.rune, next) := by
  by_cases he : Escaped c
  · obtain ⟨d, t, e, hd⟩ := escaped_head he h
    obtain ⟨t', e', hr⟩ := parseEscape_read he h
    rw [e] at e'
    simp only [List.cons.injEq, true_and] at e'
    subst e'
    refine ⟨92, d :: t ++ next, by rw [e]; rfl, by simp only [List.cons_append, List.length_cons, List.length_append]; omega, ?_⟩
    obtain ⟨u1, u2⟩ := notNamed_escaped (T := T) hd (t ++ next) st.flags.fold []
    have hsub : d ∉ ([65, 98, 66, 67, 81, 122] : Bytes) := by
      intro hm
      have : ∀ x ∈ ([65, 98, 66, 67, 81, 122] : Bytes), x ∈ opLetters := by decide
      exact hd (this d hm)
    rw [List.cons_append, stepEscape_class hsub, stepClass, u1]
    simp only
    rw [u2]
    simp only
    rw [List.cons_append] at hr
    rw [hr]
  · cases c with
    | plain r =>
      obtain ⟨h1, h2⟩ := hp r rfl
      have hv : validRune r = true := h
      obtain ⟨b, t, e, hb⟩ := raw_head hv
      have hx := nextRune_raw hv next
      rw [e] at hx
      refine ⟨b, t ++ next, by rw [Written.text, e]; rfl, by simp, ?_⟩
      by_cases h3 : r = 123
      · subst h3
        have e2 : b = 123 ∧ t = [] := by
          have : encodeRaw 123 = [123] := rfl
          rw [this] at e
          simp only [List.cons.injEq] at e
          exact ⟨e.1.symm, e.2.symm⟩
        obtain ⟨rfl, rfl⟩ := e2
        have : GoRe.step T st 123 ([] ++ next) = stepBrace T st next := rfl
        rw [this, stepBrace, parseRepeat_none (h2 rfl)]
        rfl
      · refine step_other ?_ hx
        intro hm
        have hlt : b < 128 := by
          have : ∀ x ∈ ([40, 124, 41, 94, 36, 46, 91, 42, 43, 63, 123, 92] : Bytes), x < 128 := by decide
          exact this b hm
        have hbr := hb hlt
        have : ∀ x ∈ ([40, 124, 41, 94, 36, 46, 91, 42, 43, 63, 123, 92] : Bytes), x.toNat ∈ special ∨ x.toNat = 123 := by decide
        rcases this b hm with g | g
        · exact h1 (hbr ▸ g)
        · exact h3 (hbr.symm.trans g)
    | punct c => exact absurd trivial he
    | control c => exact absurd trivial he
    | octal c => exact absurd trivial he
    | hex a b => exact absurd trivial he
    | longHex c => exact absurd trivial he

theorem named_second {n : Named} (h : n.Ok uni) : ∃ d t, n.text = 92 :: d :: t ∧ d ∉ ([65, 98, 66, 67, 81, 122] : Bytes) := by
  cases n with
  | perl c =>
    refine ⟨c, [], rfl, ?_⟩
    rcases perl_cases h with rfl | rfl | rfl | rfl | rfl | rfl <;> decide
  | letter neg c => exact ⟨_, _, rfl, by cases neg <;> decide⟩
  | word neg caret name => exact ⟨_, _, rfl, by cases neg <;> decide⟩

theorem step_named (hb : FoldBounds T.orbit) (hd : Describes T uni) {n : Named} (h : n.Ok uni) (st : PState) (next : Bytes) :
    ∃ b t r, n.text ++ next = b :: t ∧ next.length ≤ t.length ∧ GoRe.step T st b t = .ok (st.put T (.charClass r), next) ∧
      Adds [] r (n.Has T.orbit uni st.flags.fold) ∧ Apart 0 r := by
  obtain ⟨d, t, e, hn⟩ := named_second h
  obtain ⟨r, h1, h2, h4⟩ := named_read hb hd h (fold := st.flags.fold) ROk_nil next
  refine ⟨92, d :: t ++ next, r, by rw [e]; rfl, by simp only [List.cons_append, List.length_cons, List.length_append]; omega, ?_, h2, h4 rfl⟩
  rw [e] at h1
  rw [List.cons_append, stepEscape_class hn, stepClass]
  simp only [List.cons_append] at h1
  rcases h1 with h1 | ⟨h1, h3⟩
  · rw [h1]
  · rw [h1]
    simp only
    rw [h3]

theorem step_set (hb : FoldBounds T.orbit) (hd : Describes T uni) {neg : Bool} {ms : List Member} {next : Bytes} (hne : ms ≠ [])
    (hok : MembersOk uni true ms (93 :: next)) (hc : neg = false → (membersText ms).head? ≠ some 94) (st : PState) :
    ∃ b t r, (91 :: ((if neg then [94] else []) ++ membersText ms ++ [93])) ++ next = b :: t ∧ next.length ≤ t.length ∧
      GoRe.step T st b t = .ok (st.put T (.charClass r), next) ∧ Adds [] r (Sign neg fun x => ∃ c ∈ ms, c.Has T.orbit uni st.flags.fold x) ∧ Apart 0 r := by
  obtain ⟨r, h1, h2, h3⟩ := class_read hb hd (fold := st.flags.fold) hne hok hc
  refine ⟨91, (if neg then [94] else []) ++ membersText ms ++ 93 :: next, r, by simp, by simp only [List.length_append, List.length_cons]; omega, ?_, h2, h3⟩
  have : ∀ t, GoRe.step T st 91 t = match parseClass T st.flags.fold t with | .error e => .error e | .ok (s, t) => .ok (st.put T s, t) := fun _ => rfl
  rw [this, h1]

/-! ## Copies -/

theorem times_copies (t : Times) : 1 ≤ t.copies := by
  cases t <;> simp only [Times.copies] <;> omega

mutual
theorem atom_copies : ∀ a : Atom, 1 ≤ a.copies
  | .group _ body => by rw [Atom.copies]; exact alts_copies body
  | .char _ | .dot | .caret | .dollar | .textStart | .textEnd | .edge | .noEdge | .named _ | .set _ _ => by rw [Atom.copies] <;> simp
theorem piece_copies : ∀ p : Piece, 1 ≤ p.copies
  | .once a => by rw [Piece.copies]; exact atom_copies a
  | .times a t _ => by rw [Piece.copies]; exact Nat.le_trans (atom_copies a) (Nat.le_mul_of_pos_left _ (times_copies t))
  | .flags _ => by rw [Piece.copies] <;> simp
  | .quoted _ _ => by rw [Piece.copies] <;> simp
theorem seq_copies : ∀ s : Seq, 1 ≤ s.copies
  | .nil => by rw [Seq.copies]; exact Nat.le_refl 1
  | .cons p s => by rw [Seq.copies]; exact Nat.le_trans (piece_copies p) (Nat.le_max_left _ _)
theorem alts_copies : ∀ a : Alts, 1 ≤ a.copies
  | .one s => by rw [Alts.copies]; exact seq_copies s
  | .or s more => by rw [Alts.copies]; exact Nat.le_trans (seq_copies s) (Nat.le_max_left _ _)
end

/-! ## Repetitions -/

/-- The tree of a repetition. -/
def timesNode (t : Times) (ng : Bool) (s : Syn) : Syn :=
  match t with
  | .star => .star ng s
  | .plus => .plus ng s
  | .quest => .quest ng s
  | t => .rep ng s t.least t.most

theorem timesNode_means {t : Times} {ng : Bool} {s : Syn} {w : Bytes} {R : Nat → Nat → Prop} (h : ∀ i j, SynAt T.orbit w s i j ↔ R i j) (i j : Nat) :
    SynAt T.orbit w (timesNode t ng s) i j ↔ ∃ n, t.least ≤ n ∧ (∀ k, t.most = some k → n ≤ k) ∧ Iter R n i j := by
  have hi : ∀ n i j, Iter (MatchAt T.orbit w s.re) n i j ↔ Iter R n i j := fun n i j => iter_congr h
  cases t with
  | star => simp only [timesNode, SynAt, Syn.re, MatchAt, hi, Times.least, Times.most]; simp
  | plus =>
    simp only [timesNode, SynAt, Syn.re, MatchAt, hi, Times.least, Times.most]
    constructor
    · rintro ⟨n, g⟩; exact ⟨n + 1, by omega, by simp, g⟩
    · rintro ⟨n, g1, -, g⟩
      cases n with
      | zero => omega
      | succ n => exact ⟨n, g⟩
  | quest =>
    simp only [timesNode, SynAt, Syn.re, MatchAt, Times.least, Times.most]
    constructor
    · rintro (rfl | g)
      · exact ⟨0, by omega, by simp, rfl⟩
      · exact ⟨1, by omega, by simp, iter_one.2 ((h i j).1 g)⟩
    · rintro ⟨n, -, g1, g⟩
      have := g1 1 rfl
      match n, g with
      | 0, g => exact .inl g
      | 1, g => exact .inr ((h i j).2 (iter_one.1 g))
  | exactly n => simp only [timesNode, SynAt, Syn.re, MatchAt, hi]
  | atLeast n => simp only [timesNode, SynAt, Syn.re, MatchAt, hi]
  | between n m => simp only [timesNode, SynAt, Syn.re, MatchAt, hi]

theorem rep_valid {k c m : Nat} {s : Syn} {ng : Bool} {lo : Nat} {hi : Option Nat} (hm : hi.getD lo = m) (h1 : 1 ≤ c) (h : max 1 m * c ≤ k)
    (hs : ∀ k, c ≤ k → repeatIsValid k s = true) : repeatIsValid k (.rep ng s lo hi) = true := by
  rw [repeatIsValid]
  split
  · rfl
  · simp only [hm]
    by_cases h0 : m = 0
    · subst h0
      rw [if_neg (by omega), if_neg (by omega)]
      exact hs k (by simpa using h)
    · have e : max 1 m = m := by omega
      rw [e] at h
      have hk : m ≤ k := Nat.le_trans (Nat.le_mul_of_pos_right m h1) h
      rw [if_neg (by omega), if_pos (by omega)]
      exact hs _ ((Nat.le_div_iff_mul_le (by omega)).2 (by rw [Nat.mul_comm]; exact h))

theorem timesNode_valid (hP : Keeper T P) {t : Times} (ht : t.Ok) {ng : Bool} {s : Syn} {c k : Nat} (h1 : 1 ≤ c) (hs : ∀ k, c ≤ k → Valid P k s)
    (h : t.copies * c ≤ k) : Valid P k (timesNode t ng s) := by
  have hp := (hs c (Nat.le_refl _)).1
  have hv : ∀ k, c ≤ k → repeatIsValid k s = true := fun k hk => (hs k hk).2
  have hk : c ≤ k := Nat.le_trans (Nat.le_mul_of_pos_left c (times_copies t)) h
  cases t with
  | star => exact ⟨hP.star _ _ hp, by rw [timesNode, repeatIsValid]; exact hv k hk⟩
  | plus => exact ⟨hP.plus _ _ hp, by rw [timesNode, repeatIsValid]; exact hv k hk⟩
  | quest => exact ⟨hP.quest _ _ hp, by rw [timesNode, repeatIsValid]; exact hv k hk⟩
  | exactly n => exact ⟨hP.rep _ _ _ _ (fun h e => by cases e; exact Nat.le_refl _) hp, rep_valid rfl h1 h hv⟩
  | atLeast n => exact ⟨hP.rep _ _ _ _ (fun h e => by cases e) hp, rep_valid rfl h1 h hv⟩
  | between n m => exact ⟨hP.rep _ _ _ _ (fun h e => by cases e; exact ht.2.2.1) hp, rep_valid rfl h1 h hv⟩

theorem stepRepeat_top {fl : PFlags} {s : Syn} {st : Stack} {n : Nat} {node : Bool → Syn → Syn} {counted lazy : Bool} {next : Bytes}
    (hn : next.head? ≠ some 63) (hv : counted = true → ∀ ng, repeatIsValid 1000 (node ng s) = true) :
    ∃ ng, stepRepeat ⟨fl, .re s :: st, n, false⟩ node counted ((if lazy then [63] else []) ++ next) = .ok (⟨fl, .re (node ng s) :: st, n, true⟩, next) := by
  refine ⟨fl.nonGreedy != lazy, ?_⟩
  unfold stepRepeat repeatTop
  rw [cutLazy_read hn]
  simp only [Bool.false_eq_true, if_false]
  have : (counted && !repeatIsValid 1000 (node (fl.nonGreedy != lazy) s)) = false := by
    cases counted with
    | false => rfl
    | true => rw [hv rfl]; rfl
  rw [this]
  rfl

theorem step_times {fl : PFlags} {s : Syn} {st : Stack} {n : Nat} {t : Times} {lazy : Bool} {next : Bytes} (ht : t.Ok)
    (hn : next.head? ≠ some 63) (hv : ∀ ng, repeatIsValid 1000 (timesNode t ng s) = true) :
    ∃ ng, Runs T ⟨fl, .re s :: st, n, false⟩ (t.text ++ ((if lazy then [63] else []) ++ next)) ⟨fl, .re (timesNode t ng s) :: st, n, true⟩ next := by
  have hlen : next.length ≤ ((if lazy then [63] else []) ++ next : Bytes).length := by simp
  by_cases hc : Counted t
  · obtain ⟨u, e, h1, h2, h3⟩ := parseRepeat_read hc ht ((if lazy then [63] else []) ++ next)
    have hnode : (fun ng s => timesNode t ng s) = fun ng s => .rep ng s t.least t.most := by
      cases t with
      | star => exact absurd hc id
      | plus => exact absurd hc id
      | quest => exact absurd hc id
      | exactly n => rfl
      | atLeast n => rfl
      | between n m => rfl
    obtain ⟨ng, hs⟩ := stepRepeat_top (fl := fl) (s := s) (st := st) (n := n) (node := fun ng s => timesNode t ng s)
      (counted := decide (2 ≤ t.least) || decide (2 ≤ t.most.getD 0)) (lazy := lazy) hn (fun _ ng => hv ng)
    refine ⟨ng, ?_⟩
    rw [e, List.cons_append]
    refine .one ?_ (by rw [List.length_append]; omega)
    have : ∀ t', GoRe.step T ⟨fl, .re s :: st, n, false⟩ 123 t' = stepBrace T ⟨fl, .re s :: st, n, false⟩ t' := fun _ => rfl
    rw [this, stepBrace, h1]
    simp only
    rw [if_neg]
    · rw [hnode] at hs
      rw [hs]
    · rw [Bool.or_eq_true, decide_eq_true_eq]
      rintro (g | g)
      · omega
      · cases hm : t.most with
        | none => rw [hm] at g; simp at g
        | some k =>
          rw [hm] at g
          simp only [Bool.or_eq_true, decide_eq_true_eq] at g
          have := h3 k hm
          omega
  · cases t with
    | star =>
      obtain ⟨ng, hs⟩ := stepRepeat_top (fl := fl) (s := s) (st := st) (n := n) (node := .star) (counted := false) (lazy := lazy) hn (by simp)
      exact ⟨ng, .one hs hlen⟩
    | plus =>
      obtain ⟨ng, hs⟩ := stepRepeat_top (fl := fl) (s := s) (st := st) (n := n) (node := .plus) (counted := false) (lazy := lazy) hn (by simp)
      exact ⟨ng, .one hs hlen⟩
    | quest =>
      obtain ⟨ng, hs⟩ := stepRepeat_top (fl := fl) (s := s) (st := st) (n := n) (node := .quest) (counted := false) (lazy := lazy) hn (by simp)
      exact ⟨ng, .one hs hlen⟩
    | exactly n => exact absurd trivial hc
    | atLeast n => exact absurd trivial hc
    | between n m => exact absurd trivial hc

/-! ## Sequences -/

/-- What a part of a sequence does: above the trees that were on the stack there are such that match what it means. -/
def PartRuns (T : Tables) (P : Syn → Prop) (m m' : Mode) (text next : Bytes) (copies : Nat) (means : Bytes → Nat → Nat → Prop) : Prop :=
  ∀ fl ss base n last, ModeOf m fl → Floor base →
    ∃ ts fl' n' last', Runs T ⟨fl, pile ss base, n, last⟩ (text ++ next) ⟨fl', pile ts base, n', last'⟩ next ∧ ModeOf m' fl' ∧
      (∀ k, copies ≤ k → (∀ x ∈ ss, Valid P k x) → ∀ x ∈ ts, Valid P k x) ∧
      ∀ w i j, CatAt T.orbit w ts i j ↔ ∃ k, CatAt T.orbit w ss i k ∧ means w k j

theorem part_atom (hP : Keeper T P) {m : Mode} {text next : Bytes} {copies : Nat} {means : Bytes → Nat → Nat → Prop}
    (h : AtomRuns T P m text next copies means) : PartRuns T P m m text next copies means := by
  intro fl ss base n last hm hb
  obtain ⟨ts, s, n', h1, h2, h3, h4⟩ := h fl ss base n last hm hb
  refine ⟨ts ++ [s], fl, n', false, h1, hm, fun k hk hs x hx => ?_, fun w i j => ?_⟩
  · rcases List.mem_append.1 hx with hx | hx
    · exact h2.1 _ (valid_keeps hP.toKeepsAll k) hs x hx
    · rw [List.mem_singleton] at hx
      rw [hx]
      exact h3 k hk
  · rw [catAt_append]
    refine exists_congr fun k => ?_
    rw [h2.2, catAt_one, h4]

theorem part_times (hP : Keeper T P) {m : Mode} {text next : Bytes} {copies : Nat} {means : Bytes → Nat → Nat → Prop} {t : Times} {lazy : Bool}
    (ht : t.Ok) (hn : next.head? ≠ some 63) (h1 : 1 ≤ copies) (hk : t.copies * copies ≤ 1000)
    (h : AtomRuns T P m text (t.text ++ (if lazy then [63] else []) ++ next) copies means) :
    PartRuns T P m m (text ++ t.text ++ (if lazy then [63] else [])) next (t.copies * copies)
      (fun w i j => ∃ n, t.least ≤ n ∧ (∀ k, t.most = some k → n ≤ k) ∧ Iter (means w) n i j) := by
  intro fl ss base n last hm hb
  obtain ⟨ts, s, n', r1, r2, r3, r4⟩ := h fl ss base n last hm hb
  have hval : ∀ k, t.copies * copies ≤ k → ∀ ng, Valid P k (timesNode t ng s) := fun k hk ng => timesNode_valid hP ht h1 r3 hk
  obtain ⟨ng, r5⟩ := step_times (T := T) (fl := fl) (s := s) (st := pile ts base) (n := n') (lazy := lazy) ht hn (fun ng => (hval 1000 hk ng).2)
  refine ⟨ts ++ [timesNode t ng s], fl, n', true, ?_, hm, fun k hk hs x hx => ?_, fun w i j => ?_⟩
  · have e : text ++ t.text ++ (if lazy then [63] else []) ++ next = text ++ (t.text ++ (if lazy then [63] else []) ++ next) := by simp
    rw [e]
    refine r1.trans ?_
    rw [pile_snoc, pile_snoc, List.append_assoc]
    exact r5
  · rcases List.mem_append.1 hx with hx | hx
    · exact r2.1 _ (valid_keeps hP.toKeepsAll k) hs x hx
    · rw [List.mem_singleton] at hx
      rw [hx]
      exact hval k hk ng
  · rw [catAt_append]
    refine exists_congr fun k => ?_
    rw [r2.2, catAt_one, timesNode_means (fun i j => r4 w i j)]

theorem step_flags {f : Flags} (h : f.Ok) (next : Bytes) (st : PState) :
    ∃ fl', GoRe.step T st 40 (63 :: (f.text ++ 41 :: next)) = .ok ({ st with flags := fl', last := false }, next) ∧
      ∀ m, ModeOf m st.flags → ModeOf (f.mode m) fl' := by
  obtain ⟨fl', h1, h2⟩ := perlFlags_read h (c := 41) (.inr rfl) st.flags next
  refine ⟨fl', ?_, h2⟩
  have hs : GoRe.step T st 40 (63 :: (f.text ++ 41 :: next)) =
      match parsePerlFlags st (f.text ++ 41 :: next) with
      | .error e => .error e
      | .ok (st, t) => .ok ({ st with last := false }, t) := rfl
  have hp : parsePerlFlags st (f.text ++ 41 :: next) = .ok ({ st with flags := fl' }, next) := by
    unfold parsePerlFlags
    split
    · rename_i t e
      exfalso
      obtain ⟨on, off⟩ := f
      cases on with
      | nil =>
        cases off with
        | none => simp [Flags.text] at e
        | some o => simp [Flags.text] at e
      | cons c on =>
        have hc := h.1 c (by simp)
        simp only [Flags.text, List.cons_append, List.cons.injEq] at e
        rw [e.1] at hc
        exact absurd hc (by decide)
    · rw [h1]
      rfl
  rw [hs, hp]

theorem part_flags {m : Mode} {f : Flags} (h : f.Ok) (next : Bytes) :
    PartRuns T P m (f.mode m) ([40, 63] ++ f.text ++ [41]) next 1 (fun _ i j => i = j) := by
  intro fl ss base n last hm hb
  obtain ⟨fl', h1, h2⟩ := step_flags (T := T) h next ⟨fl, pile ss base, n, last⟩
  refine ⟨ss, fl', n, false, ?_, h2 m hm, fun k _ hs => hs, fun w i j => by simp⟩
  have e : [40, 63] ++ f.text ++ [41] ++ next = 40 :: 63 :: (f.text ++ 41 :: next) := by simp
  rw [e]
  exact .one h1 (by simp only [List.length_cons, List.length_append]; omega)

theorem part_chars (hc : FoldCycles T.orbit) (hP : Keeper T P) (hL : Leaves T P okChar okSet) {fl : PFlags} {base : Stack} (hb : Floor base) :
    ∀ (rs : List Rune) (ss : List Syn), (∀ r ∈ rs, r ≤ maxRune ∧ okChar fl.fold r) →
      ∃ ts, rs.foldl (fun st r => pushLiteral T fl r st) (pile ss base) = pile ts base ∧
        (∀ k, (∀ x ∈ ss, Valid P k x) → ∀ x ∈ ts, Valid P k x) ∧
        ∀ w i j, CatAt T.orbit w ts i j ↔ ∃ k, CatAt T.orbit w ss i k ∧ CharsAt T.orbit fl.fold w rs k j
  | [], ss, _ => ⟨ss, rfl, fun _ h => h, fun w i j => by simp [CharsAt]⟩
  | r :: rs, ss, h => by
    obtain ⟨hr, ho⟩ := h r (by simp)
    obtain ⟨us, p1, p2⟩ := push_pile (T := T) hb ss (.literal [if fl.fold then minFoldRune T.orbit r else r] fl.fold)
    obtain ⟨ts, q1, q2, q3⟩ := part_chars hc hP hL hb rs (us ++ [asLiteral T (.literal [if fl.fold then minFoldRune T.orbit r else r] fl.fold)])
      (fun x hx => h x (List.mem_cons_of_mem _ hx))
    refine ⟨ts, ?_, fun k hs => q2 k fun x hx => ?_, fun w i j => ?_⟩
    · rw [List.foldl_cons, pushLiteral, p1]
      exact q1
    · rcases List.mem_append.1 hx with hx | hx
      · exact p2.1 _ (valid_keeps hP.toKeepsAll k) hs x hx
      · rw [List.mem_singleton] at hx
        rw [hx]
        exact asLiteral_keeps (valid_keeps hP.toKeepsAll k) ⟨hL.char _ _ hr ho, by rw [repeatIsValid] <;> simp⟩
    · rw [q3]
      simp only [catAt_append, catAt_one, p2.2, CharsAt]
      constructor
      · rintro ⟨k, ⟨l, h1, h2⟩, h3⟩
        exact ⟨l, h1, k, (literal_means hc _ r w l k).1 ((asLiteral_eqv hc _ w l k).1 h2), h3⟩
      · rintro ⟨l, h1, k, h2, h3⟩
        exact ⟨k, ⟨l, h1, (asLiteral_eqv hc _ w l k).2 ((literal_means hc _ r w l k).2 h2)⟩, h3⟩

theorem part_quoted (hc : FoldCycles T.orbit) (hP : Keeper T P) (hL : Leaves T P okChar okSet) {m : Mode} {rs : List Rune} {closed : Bool} {next : Bytes}
    (h1 : ∀ r ∈ rs, validRune r = true) (h2 : ¬ [92, 69] <:+: rs.flatMap encodeRaw) (h3 : closed = false → next = []) (ho : ∀ r ∈ rs, okChar m.caseless r) :
    PartRuns T P m m ([92, 81] ++ rs.flatMap encodeRaw ++ (if closed then [92, 69] else [])) next 1
      (fun w i j => CharsAt T.orbit m.caseless w rs i j) := by
  intro fl ss base n last hm hb
  obtain ⟨ts, q1, q2, q3⟩ := part_chars hc hP hL (fl := fl) hb rs ss (fun r hr => ⟨Ui.valid_le (h1 r hr), by rw [hm.1]; exact ho r hr⟩)
  refine ⟨ts, fl, n, false, ?_, hm, fun k _ => q2 k, fun w i j => by rw [q3, hm.1]⟩
  have e : [92, 81] ++ rs.flatMap encodeRaw ++ (if closed then [92, 69] else []) ++ next =
      92 :: 81 :: (rs.flatMap encodeRaw ++ (if closed then [92, 69] else []) ++ next) := by simp
  have hcut : cutQuote (rs.flatMap encodeRaw ++ (if closed then [92, 69] else []) ++ next) = (rs.flatMap encodeRaw, next) := by
    cases closed with
    | true =>
      simp only [if_true, List.append_assoc, List.cons_append, List.nil_append]
      exact cutQuote_read next h2
    | false =>
      rw [h3 rfl]
      simp only [Bool.false_eq_true, if_false, List.append_nil]
      exact cutQuote_all h2
  rw [e]
  refine .one ?_ (by simp only [List.length_cons, List.length_append]; omega)
  have hs : ∀ t, GoRe.step T ⟨fl, pile ss base, n, last⟩ 92 (81 :: t) =
      match pushQuote T fl (cutQuote t).1.length (cutQuote t).1 (pile ss base) with
      | .error e => .error e
      | .ok stack => .ok (⟨fl, stack, n, false⟩, (cutQuote t).2) := fun _ => rfl
  rw [hs, hcut]
  simp only
  rw [pushQuote_read fl rs _ _ h1 (Nat.le_refl _), q1]

/-! ## Groups -/

/-- What alternatives do: on the base of a group, after the alternatives `alts`, there are alternatives and a last sequence. If it is just one
(`several` is false), it is that sequence. -/
def AltsRun (T : Tables) (P : Syn → Prop) (several : Prop) (m : Mode) (text next : Bytes) (copies : Nat) (means : Bytes → Nat → Nat → Prop) : Prop :=
  ∀ fl alts base n last, ModeOf m fl → Ground base →
    ∃ alts' ss fl' n' last', Runs T ⟨fl, altPile alts base, n, last⟩ (text ++ next) ⟨fl', pile ss (altPile alts' base), n', last'⟩ next ∧
      (¬ several → alts' = alts) ∧ (∀ k, copies ≤ k → (∀ x ∈ alts, Valid P k x) → (∀ x ∈ alts', Valid P k x) ∧ ∀ x ∈ ss, Valid P k x) ∧
      ∀ w i j, (∀ x ∈ alts, P x) → (AltAt T.orbit w alts' i j ∨ CatAt T.orbit w ss i j ↔ AltAt T.orbit w alts i j ∨ means w i j)

theorem group_close (hc : FoldCycles T.orbit) (hP : Keeper T P) {several : Prop} (hA : several → Many T P) {m : Mode} {text next : Bytes} {copies : Nat}
    {means : Bytes → Nat → Nat → Prop} (h : AltsRun T P several m text (41 :: next) copies means) {fl fl0 : PFlags} (hm : ModeOf m fl) {cap : Option (Nat × Bytes)} (ss : List Syn) {base : Stack}
    (hb : Floor base) (n : Nat) (last : Bool) :
    ∃ ts s n', Runs T ⟨fl, .paren fl0 cap :: pile ss base, n, last⟩ (text ++ 41 :: next) ⟨fl0, pile (ts ++ [s]) base, n', false⟩ next ∧
      CatKeep T ss ts ∧ (∀ k, copies ≤ k → Valid P k s) ∧ ∀ w i j, SynAt T.orbit w s i j ↔ means w i j := by
  obtain ⟨alts', us, fl', n', last', r1, r0, r2, r3⟩ := h fl [] (.paren fl0 cap :: pile ss base) n last hm trivial
  obtain ⟨s, c1, c2⟩ := closeGroup_pile hc (base := .paren fl0 cap :: pile ss base) trivial alts' us
  have hA' : ∀ k, alts' ≠ [] → Many T (Valid P k) := fun k ha =>
    valid_many (hA (Classical.byContradiction fun hn => ha (r0 hn))) k
  have hs : ∀ k, copies ≤ k → Valid P k s := fun k hk =>
    (c2 _ (valid_keeps hP.toKeepsAll k) (hA' k) (r2 k hk (by simp)).1 (r2 k hk (by simp)).2).1
  have hmean : ∀ w i j, SynAt T.orbit w s i j ↔ means w i j := fun w i j => by
    obtain ⟨g1, g2⟩ := r2 copies (Nat.le_refl _) (by simp)
    rw [(c2 _ (valid_keeps hP.toKeepsAll copies) (hA' copies) g1 g2).2, r3 w i j (by simp)]
    simp [AltAt]
  have hstep : GoRe.step T ⟨fl', pile us (altPile alts' (.paren fl0 cap :: pile ss base)), n', last'⟩ 41 next =
      match rightParen T (pile us (altPile alts' (.paren fl0 cap :: pile ss base))) with
      | .error e => .error e
      | .ok (flags, stack) => .ok (⟨flags, stack, n', false⟩, next) := rfl
  rw [rightParen, c1] at hstep
  cases cap with
  | none =>
    obtain ⟨ts, p1, p2⟩ := push_pile (T := T) hb ss s
    refine ⟨ts, asLiteral T s, n', r1.trans (.one ?_ (Nat.le_refl _)), p2, fun k hk => asLiteral_keeps (valid_keeps hP.toKeepsAll k) (hs k hk), fun w i j => ?_⟩
    · rw [hstep, ← p1]
    · rw [asLiteral_eqv hc, hmean]
  | some c =>
    obtain ⟨ts, p1, p2⟩ := push_pile (T := T) hb ss (.capture c.1 c.2 s)
    refine ⟨ts, asLiteral T (.capture c.1 c.2 s), n', r1.trans (.one ?_ (Nat.le_refl _)), p2,
      fun k hk => asLiteral_keeps (valid_keeps hP.toKeepsAll k) ⟨hP.cap _ _ _ (hs k hk).1, by rw [repeatIsValid]; exact (hs k hk).2⟩, fun w i j => ?_⟩
    · rw [hstep, ← p1]
    · rw [asLiteral_eqv hc]
      exact hmean w i j

theorem atom_group (hc : FoldCycles T.orbit) (hP : Keeper T P) {several : Prop} (hA : several → Many T P) {m : Mode} {o : Opening} (ho : o.Ok) {text next : Bytes} {copies : Nat}
    {means : Bytes → Nat → Nat → Prop} (hh : (text ++ 41 :: next).head? ≠ some 63) (h : AltsRun T P several (o.mode m) text (41 :: next) copies means) :
    AtomRuns T P m (o.text ++ text ++ [41]) next copies means := by
  intro fl ss base n last hm hb
  obtain ⟨us, p1, p2⟩ := maybeConcat_pile (T := T) hb ss
  cases o with
  | capture =>
    obtain ⟨ts, s, n', r1, r2, r3⟩ := group_close hc hP hA h (fl := fl) (fl0 := fl) hm (cap := some (n + 1, [])) us hb (n + 1) false
    refine ⟨ts, s, n', ?_, p2.trans r2, r3⟩
    have e : Opening.capture.text ++ text ++ [41] ++ next = 40 :: (text ++ 41 :: next) := by simp [Opening.text]
    rw [e]
    refine .step ?_ (Nat.le_refl _) r1
    have : ∀ t, GoRe.step T ⟨fl, pile ss base, n, last⟩ 40 t = stepOpen ⟨fl, pile ss base, n, last⟩ t := fun _ => rfl
    rw [this]
    unfold stepOpen
    split
    · rename_i e2
      rw [e2] at hh
      exact absurd rfl hh
    · rw [p1]
  | name nm =>
    obtain ⟨ts, s, n', r1, r2, r3⟩ := group_close hc hP hA h (fl := fl) (fl0 := fl) hm (cap := some (n + 1, nm)) us hb (n + 1) false
    refine ⟨ts, s, n', ?_, p2.trans r2, r3⟩
    obtain ⟨v1, v2⟩ := captureName_read ho.1 ho.2 (text ++ 41 :: next)
    have e : (Opening.name nm).text ++ text ++ [41] ++ next = 40 :: 63 :: 80 :: 60 :: (nm ++ 62 :: (text ++ 41 :: next)) := by simp [Opening.text]
    rw [e]
    refine .step ?_ (by simp only [List.length_cons, List.length_append]; omega) r1
    have hs : ∀ t, GoRe.step T ⟨fl, pile ss base, n, last⟩ 40 (63 :: t) =
      match parsePerlFlags ⟨fl, pile ss base, n, last⟩ t with
      | .error e => .error e
      | .ok (st, t) => .ok ({ st with last := false }, t) := fun _ => rfl
    rw [hs, parsePerlFlags, if_neg (by simp), v2]
    simp only
    rw [if_pos v1, p1]
  | flags f =>
    obtain ⟨fl', h1, h2⟩ := perlFlags_read ho (c := 58) (.inl rfl) fl (text ++ 41 :: next)
    obtain ⟨ts, s, n', r1, r2, r3⟩ := group_close hc hP hA h (fl := fl') (fl0 := fl) (h2 m hm) (cap := none) us hb n false
    refine ⟨ts, s, n', ?_, p2.trans r2, r3⟩
    have e : (Opening.flags f).text ++ text ++ [41] ++ next = 40 :: 63 :: (f.text ++ 58 :: (text ++ 41 :: next)) := by simp [Opening.text]
    rw [e]
    refine .step ?_ (by simp only [List.length_cons, List.length_append]; omega) r1
    have hs : ∀ t, GoRe.step T ⟨fl, pile ss base, n, last⟩ 40 (63 :: t) =
      match parsePerlFlags ⟨fl, pile ss base, n, last⟩ t with
      | .error e => .error e
      | .ok (st, t) => .ok ({ st with last := false }, t) := fun _ => rfl
    have hp : parsePerlFlags ⟨fl, pile ss base, n, last⟩ (f.text ++ 58 :: (text ++ 41 :: next)) =
        .ok (⟨fl', .paren fl none :: pile us base, n, last⟩, text ++ 41 :: next) := by
      unfold parsePerlFlags
      split
      · rename_i t e
        exfalso
        obtain ⟨on, off⟩ := f
        cases on with
        | nil =>
          cases off with
          | none => simp [Flags.text] at e
          | some o => simp [Flags.text] at e
        | cons c on =>
          have hc := ho.1 c (by simp)
          simp only [Flags.text, List.cons_append, List.cons.injEq] at e
          rw [e.1] at hc
          exact absurd hc (by decide)
      · rw [h1]
        simp only [p1]
        rfl
    rw [hs, hp]

/-! ## All of it -/

/-- Not a group. -/
def Single : Atom → Prop
  | .group _ _ => False
  | _ => True

theorem leaf_runs (hc : FoldCycles T.orbit) (hd : Describes T uni) (hP : Keeper T P) (hL : Leaves T P okChar okSet) :
    ∀ (a : Atom) {m : Mode} {next : Bytes}, a.Ok uni next → a.All T.orbit uni okChar okSet m → (a.Starts m → P .beginText) → Single a →
      AtomRuns T P m a.text next a.copies (fun w i j => a.Means T.orbit uni w m i j)
  | .char c, m, next, h, ha, hst, _ => by
    simp only [Atom.Ok, Atom.All, Atom.text, Atom.Means] at h ha ⊢
    exact atom_char hc hP hL (written_le h.1) ha fun fl st n last hm => step_written h.1 h.2 _
  | .dot, m, next, h, ha, hst, _ => by
    simp only [Atom.text, Atom.Means]
    refine atom_put hc hP fun fl st n last hm => ⟨46, next, _, rfl, Nat.le_refl _, rfl, ?_, ?_, fun w i j => ?_⟩
    · simp only
      split
      · exact .inl hP.any
      · exact .inl hP.anyNL
    · intro k
      simp only
      split <;> exact class_valid rfl
    · simp only [hm.2.2]
      cases m.dotAll with
      | true => simp [SynAt, Syn.re, MatchAt, OneOf]
      | false => simp [SynAt, Syn.re, MatchAt, OneOf]
  | .caret, m, next, h, ha, hst, _ => by
    simp only [Atom.text, Atom.Means]
    refine atom_put hc hP fun fl st n last hm => ⟨94, next, _, rfl, Nat.le_refl _, rfl, ?_, ?_, fun w i j => ?_⟩
    · simp only
      split
      · rename_i hfl
        refine .inl (hst ?_)
        rw [hm.2.1] at hfl
        simpa [Atom.Starts] using hfl
      · exact .inl hP.bol
    · intro k
      simp only
      split <;> (rw [repeatIsValid] <;> simp)
    · simp only [hm.2.1]
      cases m.multiline with
      | true => simp [SynAt, Syn.re, MatchAt, NL]
      | false => simp [SynAt, Syn.re, MatchAt]
  | .dollar, m, next, h, ha, hst, _ => by
    simp only [Atom.text, Atom.Means]
    refine atom_put hc hP fun fl st n last hm => ⟨36, next, _, rfl, Nat.le_refl _, rfl, ?_, ?_, fun w i j => ?_⟩
    · simp only
      split
      · exact .inl (hP.eot _)
      · exact .inl hP.eol
    · intro k
      simp only
      split <;> (rw [repeatIsValid] <;> simp)
    · simp only [hm.2.1]
      cases m.multiline with
      | true => simp [SynAt, Syn.re, MatchAt, NL]
      | false => simp [SynAt, Syn.re, MatchAt]
  | .textStart, m, next, h, ha, hst, _ => by
    simp only [Atom.text, Atom.Means]
    exact atom_put hc hP fun fl st n last hm => ⟨92, 65 :: next, .beginText, rfl, by simp, rfl, .inl (hst (by simp [Atom.Starts])), fun k => by rw [repeatIsValid] <;> simp,
      fun w i j => Iff.rfl⟩
  | .textEnd, m, next, h, ha, hst, _ => by
    simp only [Atom.text, Atom.Means]
    exact atom_put hc hP fun fl st n last hm => ⟨92, 122 :: next, .endText false, rfl, by simp, rfl, .inl (hP.eot _), fun k => by rw [repeatIsValid] <;> simp,
      fun w i j => Iff.rfl⟩
  | .edge, m, next, h, ha, hst, _ => by
    simp only [Atom.text, Atom.Means]
    exact atom_put hc hP fun fl st n last hm => ⟨92, 98 :: next, .wordBoundary, rfl, by simp, rfl, .inl hP.wb, fun k => by rw [repeatIsValid] <;> simp,
      fun w i j => Iff.rfl⟩
  | .noEdge, m, next, h, ha, hst, _ => by
    simp only [Atom.text, Atom.Means]
    exact atom_put hc hP fun fl st n last hm => ⟨92, 66 :: next, .noWordBoundary, rfl, by simp, rfl, .inl hP.nwb, fun k => by rw [repeatIsValid] <;> simp,
      fun w i j => Iff.rfl⟩
  | .named n, m, next, h, ha, hst, _ => by
    simp only [Atom.Ok, Atom.All, Atom.text, Atom.Means] at h ha ⊢
    refine atom_set hc hP hL (fun e => by rw [e]; exact named_closed hc n) ha fun fl st k last hm => ?_
    rw [← hm.1]
    exact step_named hc.bounds hd h ⟨fl, st, k, last⟩ next
  | .set neg ms, m, next, h, ha, hst, _ => by
    simp only [Atom.Ok, Atom.All, Atom.text, Atom.Means] at h ha ⊢
    refine atom_set hc hP hL (fun e => ?_) ha fun fl st k last hm => ?_
    · rw [e]
      exact sign_closed hc (exists_closed fun c => and_closed (member_closed hc c))
    · rw [← hm.1]
      exact step_set hc.bounds hd h.1 h.2.1 h.2.2 ⟨fl, st, k, last⟩

theorem part_nil {m : Mode} {next : Bytes} {copies : Nat} : PartRuns T P m m [] next copies (fun _ i j => i = j) :=
  fun fl ss base n last hm hb => ⟨ss, fl, n, last, .done _ _, hm, fun _ _ h => h, fun w i j => by simp⟩

theorem part_cons {m m1 m2 : Mode} {t1 t2 next : Bytes} {c1 c2 : Nat} {means1 means2 : Bytes → Nat → Nat → Prop}
    (hp : PartRuns T P m m1 t1 (t2 ++ next) c1 means1) (hs : PartRuns T P m1 m2 t2 next c2 means2) :
    PartRuns T P m m2 (t1 ++ t2) next (max c1 c2) (fun w i j => ∃ k, means1 w i k ∧ means2 w k j) := by
  intro fl ss base n last hm hb
  obtain ⟨us, fl1, n1, l1, r1, r2, r3, r4⟩ := hp fl ss base n last hm hb
  obtain ⟨ts, fl2, n2, l2, q1, q2, q3, q4⟩ := hs fl1 us base n1 l1 r2 hb
  refine ⟨ts, fl2, n2, l2, ?_, q2, fun k hk hx => q3 k (Nat.le_trans (Nat.le_max_right _ _) hk) (r3 k (Nat.le_trans (Nat.le_max_left _ _) hk) hx),
    fun w i j => ?_⟩
  · rw [List.append_assoc]
    exact r1.trans q1
  · rw [q4]
    simp only [r4]
    constructor
    · rintro ⟨k, ⟨l, h1, h2⟩, h3⟩; exact ⟨l, h1, k, h2, h3⟩
    · rintro ⟨l, h1, k, h2, h3⟩; exact ⟨k, ⟨l, h1, h2⟩, h3⟩

theorem alts_one {several : Prop} {m m' : Mode} {text next : Bytes} {copies : Nat} {means : Bytes → Nat → Nat → Prop}
    (hs : PartRuns T P m m' text next copies means) : AltsRun T P several m text next copies means := by
  intro fl alts base n last hm hb
  obtain ⟨ts, fl1, n1, l1, r1, r2, r3, r4⟩ := hs fl [] (altPile alts base) n last hm (altPile_floor hb.floor alts)
  refine ⟨alts, ts, fl1, n1, l1, r1, fun _ => rfl, fun k hk hx => ⟨hx, r3 k hk (by simp)⟩, fun w i j _ => ?_⟩
  rw [r4]
  simp [CatAt]

theorem alts_or (hc : FoldCycles T.orbit) (hP : Keeper T P) (hA : Many T P) {m m' : Mode} {t1 t2 next : Bytes} {c1 c2 : Nat} {means1 means2 : Bytes → Nat → Nat → Prop}
    (hs : PartRuns T P m m' t1 (124 :: (t2 ++ next)) c1 means1) {several : Prop} (hmore : AltsRun T P several m' t2 next c2 means2) :
    AltsRun T P True m (t1 ++ 124 :: t2) next (max c1 c2) (fun w i j => means1 w i j ∨ means2 w i j) := by
  intro fl alts base n last hm hb
  obtain ⟨ts, fl1, n1, l1, r1, r2, r3, r4⟩ := hs fl [] (altPile alts base) n last hm (altPile_floor hb.floor alts)
  obtain ⟨us, -, v1, v2⟩ := verticalBar_pile hc hb alts ts
  obtain ⟨alts', ss, fl2, n2, l2, q1, -, q2, q3⟩ := hmore fl1 us base n1 false r2 hb
  have hus : ∀ k, max c1 c2 ≤ k → (∀ x ∈ alts, Valid P k x) → ∀ x ∈ us, Valid P k x := fun k hk hx =>
    (v2 _ (valid_keeps hP.toKeepsAll k) (fun _ => valid_many hA k) hx (r3 k (Nat.le_trans (Nat.le_max_left _ _) hk) (by simp))).1
  refine ⟨alts', ss, fl2, n2, l2, ?_, fun h => absurd trivial h,
    fun k hk hx => q2 k (Nat.le_trans (Nat.le_max_right _ _) hk) (hus k hk hx), fun w i j hx => ?_⟩
  · rw [List.append_assoc, List.cons_append]
    refine r1.trans (.step ?_ (Nat.le_refl _) q1)
    rw [← v1]
    rfl
  · have ht : ∀ x ∈ ts, P x := fun x hx => (r3 c1 (Nat.le_refl _) (by simp) x hx).1
    obtain ⟨u1, u2⟩ := v2 P hP.toKeepsAll (fun _ => hA) hx ht
    rw [q3 w i j u1, u2, r4]
    simp [CatAt, or_assoc]

section
variable (hc : FoldCycles T.orbit) (hd : Describes T uni) (hP : Keeper T P) (hL : Leaves T P okChar okSet)
include hc hd hP hL

mutual
theorem atom_runs : ∀ (a : Atom) {m : Mode} {next : Bytes}, a.Ok uni next → a.All T.orbit uni okChar okSet m →
    (a.Starts m → P .beginText) → (a.Forks → Many T P) → a.copies ≤ 1000 →
    AtomRuns T P m a.text next a.copies (fun w i j => a.Means T.orbit uni w m i j)
  | .group o body, m, next, h, ha, hst, hA, hk => by
    simp only [Atom.Ok, Atom.All, Atom.text, Atom.Means, Atom.copies, Atom.Starts, Atom.Forks] at h ha hk hst hA ⊢
    exact atom_group hc hP hA h.1 (alts_head h.2 (by simp)) (alts_runs body h.2 (by simp) ha hst hA hk)
  | .char _, _, _, h, ha, hst, _, _ | .dot, _, _, h, ha, hst, _, _ | .caret, _, _, h, ha, hst, _, _ | .dollar, _, _, h, ha, hst, _, _ | .textStart, _, _, h, ha, hst, _, _
  | .textEnd, _, _, h, ha, hst, _, _ | .edge, _, _, h, ha, hst, _, _ | .noEdge, _, _, h, ha, hst, _, _ | .named _, _, _, h, ha, hst, _, _ | .set _ _, _, _, h, ha, hst, _, _ =>
    leaf_runs hc hd hP hL _ h ha hst trivial
theorem piece_runs : ∀ (p : Piece) {m : Mode} {next : Bytes}, p.Ok uni next → next.head? ≠ some 63 → p.All T.orbit uni okChar okSet m →
    (p.Starts m → P .beginText) → (p.Forks → Many T P) → p.copies ≤ 1000 →
    PartRuns T P m (p.after m) p.text next p.copies (fun w i j => p.Means T.orbit uni w m i j)
  | .once a, m, next, h, _, ha, hst, hA, hk => by
    simp only [Piece.Ok, Piece.All, Piece.text, Piece.Means, Piece.copies, Piece.after, Piece.Starts, Piece.Forks] at h ha hk hst hA ⊢
    exact part_atom hP (atom_runs a h ha hst hA hk)
  | .times a t lazy, m, next, h, hn, ha, hst, hA, hk => by
    simp only [Piece.Ok, Piece.All, Piece.text, Piece.Means, Piece.copies, Piece.after, Piece.Starts, Piece.Forks] at h ha hk hst hA ⊢
    exact part_times hP h.2 hn (atom_copies a) hk
      (atom_runs a h.1 ha hst hA (Nat.le_trans (Nat.le_mul_of_pos_left _ (times_copies t)) hk))
  | .flags f, m, next, h, _, ha, _, _, hk => by
    simp only [Piece.Ok, Piece.text, Piece.Means, Piece.copies, Piece.after] at h ⊢
    exact part_flags h next
  | .quoted rs closed, m, next, h, _, ha, _, _, hk => by
    simp only [Piece.Ok, Piece.All, Piece.text, Piece.Means, Piece.copies, Piece.after] at h ha ⊢
    exact part_quoted hc hP hL h.1 h.2.1 h.2.2 ha
theorem seq_runs : ∀ (s : Seq) {m : Mode} {next : Bytes}, s.Ok uni next → next.head? ≠ some 63 → s.All T.orbit uni okChar okSet m →
    (s.Starts m → P .beginText) → (s.Forks → Many T P) → s.copies ≤ 1000 →
    PartRuns T P m (s.after m) s.text next s.copies (fun w i j => s.Means T.orbit uni w m i j)
  | .nil, m, next, _, _, _, _, _, _ => by
    simp only [Seq.text, Seq.Means, Seq.copies, Seq.after]
    exact part_nil
  | .cons p s, m, next, h, hn, ha, hst, hA, hk => by
    simp only [Seq.Ok, Seq.All, Seq.text, Seq.Means, Seq.copies, Seq.after, Seq.Starts, Seq.Forks] at h ha hk hst hA ⊢
    exact part_cons (piece_runs p h.1 (seq_head h.2 hn) ha.1 (fun x => hst (.inl x)) (fun x => hA (.inl x)) (Nat.le_trans (Nat.le_max_left _ _) hk))
      (seq_runs s h.2 hn ha.2 (fun x => hst (.inr x)) (fun x => hA (.inr x)) (Nat.le_trans (Nat.le_max_right _ _) hk))
theorem alts_runs : ∀ (a : Alts) {m : Mode} {next : Bytes}, a.Ok uni next → next.head? ≠ some 63 → a.All T.orbit uni okChar okSet m →
    (a.Starts m → P .beginText) → (a.Forks → Many T P) → a.copies ≤ 1000 →
    AltsRun T P a.Forks m a.text next a.copies (fun w i j => a.Means T.orbit uni w m i j)
  | .one s, m, next, h, hn, ha, hst, hA, hk => by
    simp only [Alts.Ok, Alts.All, Alts.text, Alts.Means, Alts.copies, Alts.Starts, Alts.Forks] at h ha hk hst hA ⊢
    exact alts_one (seq_runs s h hn ha hst hA hk)
  | .or s more, m, next, h, hn, ha, hst, hA, hk => by
    simp only [Alts.Ok, Alts.All, Alts.text, Alts.Means, Alts.copies, Alts.Starts, Alts.Forks] at h ha hk hst hA ⊢
    have hA' := hA trivial
    exact alts_or hc hP hA' (seq_runs s h.1 (by simp) ha.1 (fun x => hst (.inl x)) (fun _ => hA') (Nat.le_trans (Nat.le_max_left _ _) hk))
      (alts_runs more h.2 hn ha.2 (fun x => hst (.inr x)) (fun _ => hA') (Nat.le_trans (Nat.le_max_right _ _) hk))
end

end

theorem AtomRuns.mono {Q : Syn → Prop} (hQ : ∀ s, P s → Q s) {m : Mode} {text next : Bytes} {copies : Nat} {means : Bytes → Nat → Nat → Prop}
    (h : AtomRuns T P m text next copies means) : AtomRuns T Q m text next copies means := by
  intro fl ss base n last hm hb
  obtain ⟨ts, s, n', r1, r2, r3, r4⟩ := h fl ss base n last hm hb
  exact ⟨ts, s, n', r1, r2, fun k hk => ⟨hQ s (r3 k hk).1, (r3 k hk).2⟩, r4⟩

/-- The end of the pattern. -/
theorem parse_end (hc : FoldCycles T.orbit) (hP : Keeper T P) {several : Prop} (hA : several → Many T P) {text : Bytes} {copies : Nat}
    {means : Bytes → Nat → Nat → Prop} (hr : AltsRun T P several ⟨false, false, false⟩ text [] copies means) :
    ∃ s, parse T text = .ok s ∧ P s ∧ ∀ w i j, SynAt T.orbit w s i j ↔ means w i j := by
  obtain ⟨alts, ss, fl, n, last, r1, r0, r2, r3⟩ := hr perlFlags0 [] [] 0 false ⟨rfl, rfl, rfl⟩ trivial
  rw [List.append_nil] at r1
  obtain ⟨s, c1, c2⟩ := closeGroup_pile hc (base := []) trivial alts ss
  obtain ⟨g1, g2⟩ := r2 copies (Nat.le_refl _) (by simp)
  have hP' : ∀ l : List Syn, (∀ x ∈ l, Valid P copies x) → ∀ x ∈ l, P x := fun l hl x hx => (hl x hx).1
  obtain ⟨d1, d2⟩ := c2 P hP.toKeepsAll (fun ha => hA (Classical.byContradiction fun hn => ha (r0 hn))) (hP' _ g1) (hP' _ g2)
  obtain ⟨fuel', f1, f2⟩ := r1.loop text.length (Nat.le_refl _)
  refine ⟨s, ?_, d1, fun w i j => ?_⟩
  · have : parseLoop T text.length { flags := perlFlags0 } text = .ok ⟨fl, pile ss (altPile alts []), n, last⟩ := by
      rw [← parseLoop_nil fuel' ⟨fl, pile ss (altPile alts []), n, last⟩]
      exact f2
    rw [parse, this]
    simp only
    rw [c1]
  · rw [d2, r3 w i j (by simp)]
    simp [AltAt]

end Hound.GoRe
