import Verif.Proofs.ParseFactor
import Verif.Props.Literal

/-!
# The stack of Go's parser
-/

namespace Hound.GoRe
open Hound.Spec

variable {orbit : Rune → List Rune} {T : Tables} {P : Syn → Prop}

theorem simpleFold_nil (hc : FoldCycles orbit) {a : Rune} (h : simpleFold orbit a = a) : orbit a = [] := by
  rw [simpleFold] at h
  cases e : orbit a with
  | nil => rfl
  | cons x t =>
    rw [e] at h
    simp only [List.headD_cons] at h
    exact absurd (by rw [e, h]; simp) (hc.self a)

theorem simpleFold_pair (hc : FoldCycles orbit) {a c : Rune} (h : simpleFold orbit a = c) (h' : simpleFold orbit c = a) (hne : a ≠ c) :
    orbit a = [c] := by
  rw [simpleFold] at h h'
  cases e : orbit a with
  | nil => rw [e] at h; exact absurd h hne
  | cons x t =>
    rw [e] at h
    simp only [List.headD_cons] at h
    subst h
    have e' := hc.turn a x t e
    cases t with
    | nil => rfl
    | cons y t =>
      rw [e'] at h'
      simp only [List.cons_append, List.headD_cons] at h'
      exact absurd (by rw [e, h']; simp) (hc.self a)

theorem eqv_class {s : Syn} {c : Ranges} (hs : isCharClass s = true) (h : ∀ r, CharSet orbit s r ↔ InR c r) : Eqv orbit s (.charClass c) := by
  intro w i j
  rw [charSet_at hs, synAt_class]
  simp only [h]

theorem one_iff {a x : Nat} : (a ≤ x ∧ x ≤ a) ↔ x = a := by omega

theorem two_iff {a b x : Nat} (h : a + 1 = b) : (a ≤ x ∧ x ≤ b) ↔ x = a ∨ x = b := by omega

theorem asLiteral_eqv (hc : FoldCycles T.orbit) (s : Syn) : Eqv T.orbit (asLiteral T s) s := by
  unfold asLiteral
  split
  · rename_i a b
    split
    · rename_i h
      subst h
      refine eqv_class rfl fun r => ?_
      rw [InR_cons]
      simp only [CharSet, FoldsTo, InR_nil, or_false]
      rw [one_iff]
      simp
    · rename_i hne
      split
      · rename_i h
        refine eqv_class rfl fun r => ?_
        rw [InR_cons]
        simp only [CharSet, FoldsTo, InR_nil, or_false]
        rw [two_iff h.1, simpleFold_pair hc h.2.1 h.2.2 hne]
        simp
      · exact fun _ _ _ => Iff.rfl
  · rename_i a b c d
    split
    · rename_i h
      obtain ⟨rfl, rfl, h1, h2⟩ := h
      refine eqv_class rfl fun r => ?_
      rw [InR_cons, InR_cons]
      simp only [CharSet, FoldsTo, InR_nil, or_false]
      rw [one_iff, one_iff]
      by_cases e : a = c
      · subst e
        rw [simpleFold_nil hc h1]
        simp
      · rw [simpleFold_pair hc h1 h2 e]
        simp
    · exact fun _ _ _ => Iff.rfl
  · exact fun _ _ _ => Iff.rfl

/-- A property of trees that the parser's operations keep, those on the stack too. -/
structure KeepsAll (T : Tables) (P : Syn → Prop) : Prop extends KeepsOne P where
  asLit : ∀ r, P (.charClass r) → P (asLiteral T (.charClass r))

/-- What is asked in addition where there are alternatives. -/
structure Many (T : Tables) (P : Syn → Prop) : Prop where
  alt : ∀ ss, P (.alternate ss) ↔ ∀ s ∈ ss, P s
  merge : ∀ a b, isCharClass a = true → isCharClass b = true → charRank b ≤ charRank a → P a → P b → P (mergeCharClass T.orbit a b)
  lead : Agrees T P

theorem Many.keeps (hM : Many T P) (hP : KeepsAll T P) : Keeps T P := { hP.toKeepsOne with alt := hM.alt, merge := hM.merge }

theorem asLiteral_keeps (hP : KeepsAll T P) {s : Syn} (h : P s) : P (asLiteral T s) := by
  by_cases hc : ∃ r, s = .charClass r
  · obtain ⟨r, rfl⟩ := hc
    exact hP.asLit r h
  · unfold asLiteral
    split
    · exact absurd ⟨_, rfl⟩ hc
    · exact absurd ⟨_, rfl⟩ hc
    · exact h

/-! ## Expressions above a bar, a parenthesis or the bottom -/

/-- The expressions, the last on top, above the stack `base`. -/
def pile (ss : List Syn) (base : Stack) : Stack := ss.reverse.map Item.re ++ base

/-- The stack is empty or has a bar or a parenthesis on top. -/
def Floor : Stack → Prop
  | .re _ :: _ => False
  | _ => True

theorem pile_nil (base : Stack) : pile [] base = base := rfl

theorem pile_snoc (ss : List Syn) (s : Syn) (base : Stack) : pile (ss ++ [s]) base = .re s :: pile ss base := by
  simp [pile]

theorem maybeConcat_floor {base : Stack} (h : Floor base) : maybeConcat base = base := by
  unfold maybeConcat
  split
  · exact absurd h (by simp [Floor])
  · rfl

theorem maybeConcat_one {base : Stack} (h : Floor base) (s : Syn) : maybeConcat (.re s :: base) = .re s :: base := by
  unfold maybeConcat
  split
  · rename_i h2
    rw [List.cons.injEq] at h2
    rw [h2.2] at h
    exact absurd h (by simp [Floor])
  · rfl

theorem maybeConcat_two {base : Stack} (a b : Syn) :
    maybeConcat (.re b :: .re a :: base) = .re b :: .re a :: base ∨
      ∃ r1 r2 f, b = .literal r1 f ∧ a = .literal r2 f ∧ maybeConcat (.re b :: .re a :: base) = .re (.literal (r2 ++ r1) f) :: base := by
  unfold maybeConcat
  split
  · rename_i r1 f1 r2 f2 st e
    simp only [List.cons.injEq, Item.re.injEq] at e
    obtain ⟨rfl, rfl, rfl⟩ := e
    split
    · rename_i h
      subst h
      exact .inr ⟨_, _, _, rfl, rfl, rfl⟩
    · exact .inl rfl
  · exact .inl rfl

/-- The second list of expressions matches what the first does one after the other, and keeps every property the parser's operations
keep. -/
def CatKeep (T : Tables) (ss ts : List Syn) : Prop :=
  (∀ P, KeepsAll T P → (∀ s ∈ ss, P s) → ∀ s ∈ ts, P s) ∧ ∀ w i j, CatAt T.orbit w ts i j ↔ CatAt T.orbit w ss i j

theorem CatKeep.refl (ss : List Syn) : CatKeep T ss ss := ⟨fun _ _ h => h, fun _ _ _ => Iff.rfl⟩

theorem CatKeep.trans {ss ts us : List Syn} (h : CatKeep T ss ts) (h' : CatKeep T ts us) : CatKeep T ss us :=
  ⟨fun P hP hs => h'.1 P hP (h.1 P hP hs), fun w i j => by rw [h'.2, h.2]⟩

theorem maybeConcat_pile {base : Stack} (hb : Floor base) (ss : List Syn) :
    ∃ ts, maybeConcat (pile ss base) = pile ts base ∧ CatKeep T ss ts := by
  rcases List.eq_nil_or_concat ss with rfl | ⟨s1, b, e⟩
  · exact ⟨[], by rw [pile_nil, maybeConcat_floor hb], CatKeep.refl _⟩
  · rw [List.concat_eq_append] at e
    subst e
    rcases List.eq_nil_or_concat s1 with rfl | ⟨s2, a, e⟩
    · exact ⟨[b], by simp only [List.nil_append, pile, List.reverse_singleton, List.map_cons, List.map_nil, List.singleton_append]
                     exact maybeConcat_one hb b, CatKeep.refl _⟩
    · rw [List.concat_eq_append] at e
      subst e
      rw [pile_snoc, pile_snoc]
      rcases maybeConcat_two (base := pile s2 base) a b with h | ⟨r1, r2, f, rfl, rfl, h⟩
      · exact ⟨s2 ++ [a] ++ [b], by rw [h, pile_snoc, pile_snoc], CatKeep.refl _⟩
      · refine ⟨s2 ++ [.literal (r2 ++ r1) f], by rw [h, pile_snoc], fun P hP hs s hs' => ?_, fun w i j => ?_⟩
        · rcases List.mem_append.1 hs' with h | h
          · exact hs s (by simp [h])
          · rw [List.mem_singleton] at h
            rw [h]
            exact (hP.lits _ _ _).2 ⟨hs _ (by simp), hs _ (by simp)⟩
        · rw [List.append_assoc, catAt_append, catAt_append]
          refine exists_congr fun k => and_congr_right fun _ => ?_
          simp only [List.cons_append, List.nil_append, CatAt, synAt_literal, litAt_append]
          constructor
          · rintro ⟨_, ⟨l, h1, h2⟩, rfl⟩; exact ⟨l, h1, _, h2, rfl⟩
          · rintro ⟨l, h1, _, h2, rfl⟩; exact ⟨_, ⟨l, h1, h2⟩, rfl⟩

theorem push_pile {base : Stack} (hb : Floor base) (ss : List Syn) (s : Syn) :
    ∃ ts, push T s (pile ss base) = pile (ts ++ [asLiteral T s]) base ∧ CatKeep T ss ts := by
  obtain ⟨ts, h1, h2⟩ := maybeConcat_pile (T := T) hb ss
  exact ⟨ts, by rw [push, h1, pile_snoc], h2⟩

theorem push_floor {base : Stack} (hb : Floor base) (s : Syn) : push T s base = .re (asLiteral T s) :: base := by
  rw [push, maybeConcat_floor hb]

theorem popExprs_pile {base : Stack} (hb : Floor base) (acc : List Syn) : ∀ ss, popExprs (pile ss base) acc = (ss ++ acc, base) := by
  intro ss
  generalize hn : ss.length = n
  induction n generalizing ss acc with
  | zero =>
    have := List.eq_nil_of_length_eq_zero hn
    subst this
    rw [pile_nil]
    unfold popExprs
    split
    · exact absurd hb (by simp [Floor])
    · rfl
  | succ n ih =>
    rcases List.eq_nil_or_concat ss with rfl | ⟨s1, b, e⟩
    · simp at hn
    · rw [List.concat_eq_append] at e
      subst e
      rw [pile_snoc, popExprs, ih _ _ (by simpa using hn)]
      simp

theorem concatTop_pile (hc : FoldCycles T.orbit) {base : Stack} (hb : Floor base) (ss : List Syn) :
    ∃ s, concatTop T (pile ss base) = .re s :: base ∧
      ∀ P, KeepsAll T P → (∀ x ∈ ss, P x) → P s ∧ ∀ w i j, SynAt T.orbit w s i j ↔ CatAt T.orbit w ss i j := by
  obtain ⟨ts, h1, h2⟩ := maybeConcat_pile (T := T) hb ss
  rw [concatTop, h1, popExprs_pile hb]
  simp only [List.append_nil]
  rw [push_floor hb]
  refine ⟨_, rfl, fun P hP hs => ?_⟩
  have ht := h2.1 P hP hs
  split
  · rename_i e
    subst e
    refine ⟨asLiteral_keeps hP hP.empty, fun w i j => ?_⟩
    rw [asLiteral_eqv hc, synAt_empty, ← h2.2, CatAt]
  · obtain ⟨i1, i2⟩ := collapseConcat_good hP.toKeepsOne ht
    refine ⟨asLiteral_keeps hP i1, fun w i j => ?_⟩
    rw [asLiteral_eqv hc, i2, h2.2]

/-- The alternatives so far: none, on the base of the group, or some, with a bar on top. -/
def altPile (alts : List Syn) (base : Stack) : Stack :=
  match alts with
  | [] => base
  | alts => .bar :: pile alts base

theorem altPile_floor {base : Stack} (hb : Floor base) (alts : List Syn) : Floor (altPile alts base) := by
  unfold altPile
  split
  · exact hb
  · simp [Floor]

theorem altPile_cons {alts : List Syn} (h : alts ≠ []) (base : Stack) : altPile alts base = .bar :: pile alts base := by
  unfold altPile
  split
  · exact absurd rfl h
  · rfl

theorem swap_floor {base : Stack} (hb : Floor base) (hbar : ∀ st, base ≠ .bar :: st) (s : Syn) : swapVerticalBar T (.re s :: base) = none := by
  unfold swapVerticalBar
  split
  · rename_i e; simp only [List.cons.injEq] at e; exact absurd e.2 (hbar _)
  · rename_i e; simp only [List.cons.injEq] at e; exact absurd e.2 (hbar _)
  · rfl

/-- The second list of expressions matches what the first or `s` does. -/
def AltKeep (T : Tables) (ss : List Syn) (s : Syn) (ts : List Syn) : Prop :=
  ∀ P, KeepsAll T P → Many T P → (∀ x ∈ ss, P x) → P s → (∀ x ∈ ts, P x) ∧ ∀ w i j, AltAt T.orbit w ts i j ↔ AltAt T.orbit w ss i j ∨ SynAt T.orbit w s i j

theorem swap_pile (hc : FoldCycles T.orbit) {alts : List Syn} (ha : alts ≠ []) (base : Stack) (s : Syn) :
    ∃ ts, ts ≠ [] ∧ swapVerticalBar T (.re s :: altPile alts base) = some (.bar :: pile ts base) ∧ AltKeep T alts s ts := by
  rw [altPile_cons ha]
  rcases List.eq_nil_or_concat alts with rfl | ⟨as, r3, e⟩
  · exact absurd rfl ha
  · rw [List.concat_eq_append] at e
    subst e
    rw [pile_snoc, swapVerticalBar]
    split
    · rename_i h
      rw [Bool.and_eq_true] at h
      obtain ⟨c1, c3⟩ := h
      refine ⟨as ++ [_], by simp, by rw [pile_snoc], fun P hP hM h3 h1 => ?_⟩
      have p3 := h3 r3 (by simp)
      have step : ∀ a b, isCharClass a = true → isCharClass b = true → charRank b ≤ charRank a → P a → P b →
          P (mergeCharClass T.orbit a b) ∧ ∀ w i j, SynAt T.orbit w (mergeCharClass T.orbit a b) i j ↔ SynAt T.orbit w a i j ∨ SynAt T.orbit w b i j := by
        intro a b ha hb' hr pa pb
        refine ⟨hM.merge a b ha hb' hr pa pb, fun w i j => ?_⟩
        rw [charSet_at (mergeCharClass_class a b ha), charSet_at ha, charSet_at hb']
        simp only [mergeCharClass_set hc.bounds ha hb' hr (hP.class pa).1 (hP.class pb).1 (hP.class pa).2 (hP.class pb).2, or_and_right,
          exists_or]
      split
      · rename_i hr
        obtain ⟨j1, j2⟩ := step s r3 c1 c3 (Nat.le_of_lt hr) h1 p3
        refine ⟨fun x hx => ?_, fun w i j => ?_⟩
        · rcases List.mem_append.1 hx with h | h
          · exact h3 x (by simp [h])
          · rw [List.mem_singleton] at h; rw [h]; exact j1
        · rw [altAt_append, altAt_append, altAt_one, altAt_one, j2, or_assoc, or_comm (a := SynAt T.orbit w s i j)]
      · rename_i hr
        obtain ⟨j1, j2⟩ := step r3 s c3 c1 (Nat.not_lt.1 hr) p3 h1
        refine ⟨fun x hx => ?_, fun w i j => ?_⟩
        · rcases List.mem_append.1 hx with h | h
          · exact h3 x (by simp [h])
          · rw [List.mem_singleton] at h; rw [h]; exact j1
        · rw [altAt_append, altAt_append, altAt_one, altAt_one, j2, or_assoc]
    · refine ⟨as ++ [cleanAlt r3] ++ [s], by simp, by rw [pile_snoc, pile_snoc], fun P hP hM h3 h1 => ?_⟩
      obtain ⟨j1, j2⟩ := cleanAlt_keep hP.toKeepsOne (h3 r3 (by simp))
      refine ⟨fun x hx => ?_, fun w i j => ?_⟩
      · rcases List.mem_append.1 hx with h | h
        · rcases List.mem_append.1 h with h | h
          · exact h3 x (by simp [h])
          · rw [List.mem_singleton] at h; rw [h]; exact j1
        · rw [List.mem_singleton] at h; rw [h]; exact h1
      · rw [altAt_append, altAt_append, altAt_append, altAt_one, altAt_one, altAt_one, j2]

/-- The base of a group: nothing or a parenthesis. -/
def Ground : Stack → Prop
  | [] => True
  | .paren _ _ :: _ => True
  | _ => False

theorem Ground.floor {base : Stack} (h : Ground base) : Floor base := by
  rcases base with _ | ⟨_ | _ | _, _⟩
  · trivial
  · exact h
  · trivial
  · trivial

theorem Ground.bar {base : Stack} (h : Ground base) (st : Stack) : base ≠ .bar :: st := by
  rintro rfl
  exact h

/-- The alternatives `alts`, and `ss` one after the other, match what `ts` match. -/
def AltCatKeep (T : Tables) (alts ss ts : List Syn) : Prop :=
  ∀ P, KeepsAll T P → (alts ≠ [] → Many T P) → (∀ x ∈ alts, P x) → (∀ x ∈ ss, P x) →
    (∀ x ∈ ts, P x) ∧ ∀ w i j, AltAt T.orbit w ts i j ↔ AltAt T.orbit w alts i j ∨ CatAt T.orbit w ss i j

theorem verticalBar_pile (hc : FoldCycles T.orbit) {base : Stack} (hb : Ground base) (alts ss : List Syn) :
    ∃ ts, ts ≠ [] ∧ verticalBar T (pile ss (altPile alts base)) = altPile ts base ∧ AltCatKeep T alts ss ts := by
  obtain ⟨s, h1, h2⟩ := concatTop_pile hc (altPile_floor hb.floor alts) ss
  rw [verticalBar, h1]
  by_cases ha : alts = []
  · subst ha
    have e : altPile [] base = base := rfl
    rw [e, swap_floor hb.floor hb.bar, Option.getD_none, maybeConcat_one hb.floor]
    refine ⟨[s], by simp, rfl, fun P hP _ _ hs => ?_⟩
    obtain ⟨i1, i2⟩ := h2 P hP hs
    exact ⟨fun x hx => by rw [List.mem_singleton] at hx; rw [hx]; exact i1, fun w i j => by rw [altAt_one, i2]; simp [altAt_nil]⟩
  · obtain ⟨ts, t1, t2, t3⟩ := swap_pile hc ha base s
    rw [t2, Option.getD_some]
    refine ⟨ts, t1, (altPile_cons t1 base).symm, fun P hP hM h3 hs => ?_⟩
    obtain ⟨i1, i2⟩ := h2 P hP hs
    obtain ⟨j1, j2⟩ := t3 P hP (hM ha) h3 i1
    exact ⟨j1, fun w i j => by rw [j2, i2]⟩

theorem cleanLast_keep (hP : KeepsOne P) : ∀ {ss : List Syn}, (∀ s ∈ ss, P s) → Keep T.orbit P ss (cleanLast ss)
  | [], h => Keep.refl h
  | [s], h => by
    obtain ⟨h1, h2⟩ := cleanAlt_keep hP (h s (by simp))
    exact ⟨fun t ht => by rw [cleanLast, List.mem_singleton] at ht; rw [ht]; exact h1, fun w i j => by rw [cleanLast, altAt_one, altAt_one, h2]⟩
  | s :: t :: ts, h => by
    have ih := cleanLast_keep hP (ss := t :: ts) (fun x hx => h x (List.mem_cons_of_mem _ hx))
    have h1 : Keep T.orbit P [s] [s] := Keep.refl (fun x hx => by rw [List.mem_singleton] at hx; subst hx; exact h x (by simp))
    exact Keep.append h1 ih

theorem cleanLast_nil {ss : List Syn} (h : ss ≠ []) : cleanLast ss ≠ [] := by
  rcases ss with _ | ⟨a, _ | ⟨b, t⟩⟩
  · exact absurd rfl h
  · simp [cleanLast]
  · simp [cleanLast]

theorem alternateTop_pile (hc : FoldCycles T.orbit) {base : Stack} (hb : Floor base) {ss : List Syn} (hne : ss ≠ []) :
    ∃ s, alternateTop T (pile ss base) = .re s :: base ∧
      ∀ P, KeepsAll T P → (2 ≤ ss.length → Many T P) → (∀ x ∈ ss, P x) →
        P s ∧ ∀ w i j, SynAt T.orbit w s i j ↔ AltAt T.orbit w ss i j := by
  rw [alternateTop, popExprs_pile hb]
  simp only [List.append_nil, hne, if_false]
  rw [push_floor hb]
  refine ⟨_, rfl, fun P hP hA hs => ?_⟩
  have k := cleanLast_keep (T := T) hP.toKeepsOne hs
  have hgood : P (collapseAlt T (cleanLast ss)) ∧ ∀ w i j, SynAt T.orbit w (collapseAlt T (cleanLast ss)) i j ↔ AltAt T.orbit w (cleanLast ss) i j := by
    match ss, hne with
    | [s], _ => exact ⟨k.1 _ (by simp [cleanLast]; rfl), fun w i j => altAt_one.symm⟩
    | a :: b :: ss, _ => exact collapseAlt_good hc.bounds ((hA (by simp)).keeps hP) (hA (by simp)).lead _ k.1
  obtain ⟨i1, i2⟩ := hgood
  exact ⟨asLiteral_keeps hP i1, fun w i j => by rw [asLiteral_eqv hc, i2, k.2]⟩

theorem closeGroup_pile (hc : FoldCycles T.orbit) {base : Stack} (hb : Ground base) (alts ss : List Syn) :
    ∃ s, closeGroup T (pile ss (altPile alts base)) = .re s :: base ∧
      ∀ P, KeepsAll T P → (alts ≠ [] → Many T P) → (∀ x ∈ alts, P x) → (∀ x ∈ ss, P x) →
        P s ∧ ∀ w i j, SynAt T.orbit w s i j ↔ AltAt T.orbit w alts i j ∨ CatAt T.orbit w ss i j := by
  obtain ⟨s, h1, h2⟩ := concatTop_pile hc (altPile_floor hb.floor alts) ss
  rw [closeGroup, h1]
  by_cases ha : alts = []
  · subst ha
    have e : altPile [] base = base := rfl
    rw [e, swap_floor hb.floor hb.bar]
    obtain ⟨t, t1, t2⟩ := alternateTop_pile hc hb.floor (ss := [s]) (by simp)
    refine ⟨t, t1, fun P hP _ _ hs => ?_⟩
    obtain ⟨i1, i2⟩ := h2 P hP hs
    obtain ⟨j1, j2⟩ := t2 P hP (by simp) (fun x hx => by rw [List.mem_singleton] at hx; rw [hx]; exact i1)
    exact ⟨j1, fun w i j => by rw [j2, altAt_one, i2]; simp [altAt_nil]⟩
  · obtain ⟨ts, t1, t2, t3⟩ := swap_pile hc ha base s
    rw [t2]
    simp only [Option.elim_some, List.tail_cons]
    obtain ⟨t, u1, u2⟩ := alternateTop_pile hc hb.floor t1
    refine ⟨t, u1, fun P hP hA h3 hs => ?_⟩
    obtain ⟨i1, i2⟩ := h2 P hP hs
    obtain ⟨j1, j2⟩ := t3 P hP (hA ha) h3 i1
    obtain ⟨k1, k2⟩ := u2 P hP (fun _ => hA ha) j1
    exact ⟨k1, fun w i j => by rw [k2, j2, i2]⟩

/-! ## Case folding -/

theorem FoldCycles.mem_append {orbit : Rune → List Rune} (hc : FoldCycles orbit) : ∀ (pre : List Rune) {r x : Rune} {t : List Rune},
    orbit r = pre ++ x :: t → orbit x = t ++ r :: pre
  | [], r, x, t, h => by simpa using hc.turn r x t h
  | y :: pre, r, x, t, h => by
    have h1 := hc.turn r y (pre ++ x :: t) h
    rw [List.append_assoc, List.cons_append] at h1
    have := FoldCycles.mem_append hc pre h1
    simpa using this

/-- Folding is an equivalence. -/
theorem FoldCycles.same {orbit : Rune → List Rune} (hc : FoldCycles orbit) (r x : Rune) (h : x ∈ orbit r) (y : Rune) :
    (y = x ∨ y ∈ orbit x) ↔ (y = r ∨ y ∈ orbit r) := by
  obtain ⟨pre, t, e⟩ := List.append_of_mem h
  rw [hc.mem_append pre e, e]
  simp only [List.mem_append, List.mem_cons]
  constructor
  · rintro (h | h | h | h)
    · exact .inr (.inr (.inl h))
    · exact .inr (.inr (.inr h))
    · exact .inl h
    · exact .inr (.inl h)
  · rintro (h | h | h | h)
    · exact .inr (.inr (.inl h))
    · exact .inr (.inr (.inr h))
    · exact .inl h
    · exact .inr (.inl h)

theorem minFoldRune_same {orbit : Rune → List Rune} (hc : FoldCycles orbit) (r y : Rune) :
    (y = minFoldRune orbit r ∨ y ∈ orbit (minFoldRune orbit r)) ↔ (y = r ∨ y ∈ orbit r) := by
  rcases minFoldRune_mem orbit r with h | h
  · rw [h]
  · exact hc.same r _ h y

end Hound.GoRe
