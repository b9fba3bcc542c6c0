import Verif.Proofs.ParseClass
import Verif.Proofs.GoCompile

/-!
# Factoring of alternations in Go's parser keeps the meaning
-/

namespace Hound.GoRe
open Hound.Spec

variable {orbit : Rune → List Rune} {T : Tables} {P : Syn → Prop}

/-- The tree matches the text between two places. -/
abbrev SynAt (orbit : Rune → List Rune) (w : Bytes) (s : Syn) (i j : Nat) : Prop := MatchAt orbit w s.re i j

/-- The trees match one after the other. -/
def CatAt (orbit : Rune → List Rune) (w : Bytes) : List Syn → Nat → Nat → Prop
  | [], i, j => i = j
  | s :: ss, i, j => ∃ k, SynAt orbit w s i k ∧ CatAt orbit w ss k j

/-- One of the trees matches. -/
def AltAt (orbit : Rune → List Rune) (w : Bytes) (ss : List Syn) (i j : Nat) : Prop := ∃ s ∈ ss, SynAt orbit w s i j

theorem concatAt_iff {w : Bytes} : ∀ {ss : List Syn} {i j : Nat}, ConcatAt orbit w (Syn.res ss) i j ↔ CatAt orbit w ss i j
  | [], _, _ => by rw [Syn.res, ConcatAt, CatAt]
  | s :: ss, i, j => by
    rw [Syn.res, ConcatAt, CatAt]
    exact exists_congr fun k => and_congr_right fun _ => concatAt_iff

theorem alternateAt_iff {w : Bytes} : ∀ {ss : List Syn} {i j : Nat}, AlternateAt orbit w (Syn.res ss) i j ↔ AltAt orbit w ss i j
  | [], _, _ => by simp [Syn.res, AlternateAt, AltAt]
  | s :: ss, i, j => by
    rw [Syn.res, AlternateAt, alternateAt_iff]
    simp [AltAt]

theorem synAt_concat {w : Bytes} {ss : List Syn} {i j : Nat} : SynAt orbit w (.concat ss) i j ↔ CatAt orbit w ss i j := by
  rw [SynAt, Syn.re, MatchAt, concatAt_iff]

theorem synAt_alternate {w : Bytes} {ss : List Syn} {i j : Nat} : SynAt orbit w (.alternate ss) i j ↔ AltAt orbit w ss i j := by
  rw [SynAt, Syn.re, MatchAt, alternateAt_iff]

theorem synAt_empty {w : Bytes} {i j : Nat} : SynAt orbit w .emptyMatch i j ↔ i = j := by
  rw [SynAt, Syn.re, MatchAt]

theorem synAt_literal {w : Bytes} {rs : List Rune} {f : Bool} {i j : Nat} : SynAt orbit w (.literal rs f) i j ↔ LitAt orbit f w rs i j := by
  rw [SynAt, Syn.re, MatchAt]

theorem catAt_one {w : Bytes} {s : Syn} {i j : Nat} : CatAt orbit w [s] i j ↔ SynAt orbit w s i j := by
  simp [CatAt]

theorem catAt_append {w : Bytes} : ∀ {ss ts : List Syn} {i j : Nat},
    CatAt orbit w (ss ++ ts) i j ↔ ∃ k, CatAt orbit w ss i k ∧ CatAt orbit w ts k j
  | [], ts, i, j => by simp [CatAt]
  | s :: ss, ts, i, j => by
    simp only [List.cons_append, CatAt, catAt_append]
    constructor
    · rintro ⟨k, h, l, h1, h2⟩; exact ⟨l, ⟨k, h, h1⟩, h2⟩
    · rintro ⟨l, ⟨k, h, h1⟩, h2⟩; exact ⟨k, h, l, h1, h2⟩

theorem altAt_append {w : Bytes} {ss ts : List Syn} {i j : Nat} :
    AltAt orbit w (ss ++ ts) i j ↔ AltAt orbit w ss i j ∨ AltAt orbit w ts i j := by
  simp only [AltAt, List.mem_append, or_and_right, exists_or]

theorem altAt_cons {w : Bytes} {s : Syn} {ss : List Syn} {i j : Nat} :
    AltAt orbit w (s :: ss) i j ↔ SynAt orbit w s i j ∨ AltAt orbit w ss i j := by
  simp [AltAt]

theorem altAt_nil {w : Bytes} {i j : Nat} : ¬ AltAt orbit w [] i j := by simp [AltAt]

theorem altAt_one {w : Bytes} {s : Syn} {i j : Nat} : AltAt orbit w [s] i j ↔ SynAt orbit w s i j := by simp [AltAt]

/-- The two match the same. -/
def Eqv (orbit : Rune → List Rune) (s t : Syn) : Prop := ∀ w i j, SynAt orbit w s i j ↔ SynAt orbit w t i j

/-- A property of trees that the parser's operations keep, those for alternatives aside. -/
structure KeepsOne (P : Syn → Prop) : Prop where
  cat : ∀ ss, P (.concat ss) ↔ ∀ s ∈ ss, P s
  empty : P .emptyMatch
  none : P .noMatch
  any : P .anyChar
  anyNL : P .anyCharNotNL
  lits : ∀ a b f, P (.literal (a ++ b) f) ↔ P (.literal a f) ∧ P (.literal b f)
  bound : ∀ r f, P (.literal [r] f) → r ≤ maxRune
  ranges : ∀ r, P (.charClass r) → ROk r
  clean : ∀ r, P (.charClass r) → P (.charClass (cleanClass r))

/-- A property of trees that the parser's operations keep. -/
structure Keeps (T : Tables) (P : Syn → Prop) : Prop extends KeepsOne P where
  alt : ∀ ss, P (.alternate ss) ↔ ∀ s ∈ ss, P s
  merge : ∀ a b, isCharClass a = true → isCharClass b = true → charRank b ≤ charRank a → P a → P b → P (mergeCharClass T.orbit a b)

/-- What `factor` takes for the same matches the same. -/
def Agrees (T : Tables) (P : Syn → Prop) : Prop := ∀ a b, sameLead T.equalFold a b = true → P a → P b → Eqv T.orbit a b

/-! ## Round 1 -/

theorem commonRunes_left : ∀ a b : List Rune, commonRunes a b <+: a
  | [], b => by rw [commonRunes]; exact List.nil_prefix; simp
  | x :: a, [] => by rw [commonRunes]; exact List.nil_prefix; simp
  | x :: a, y :: b => by
    rw [commonRunes]
    split
    · exact List.cons_prefix_cons.2 ⟨rfl, commonRunes_left a b⟩
    · exact List.nil_prefix

theorem commonRunes_right : ∀ a b : List Rune, commonRunes a b <+: b
  | [], b => by rw [commonRunes]; exact List.nil_prefix; simp
  | x :: a, [] => by rw [commonRunes]; exact List.nil_prefix; simp
  | x :: a, y :: b => by
    rw [commonRunes]
    split
    · rename_i h; rw [h]; exact List.cons_prefix_cons.2 ⟨rfl, commonRunes_right a b⟩
    · exact List.nil_prefix

theorem litAt_empty {w : Bytes} {f : Bool} {i j : Nat} : LitAt orbit f w [] i j ↔ i = j := by rw [LitAt]

/-- The rest of a concatenation. -/
def rest (t : List Syn) : Syn :=
  match t with
  | [] => .emptyMatch
  | [s] => s
  | t => .concat t

theorem rest_at {w : Bytes} : ∀ {t : List Syn} {i j : Nat}, SynAt orbit w (rest t) i j ↔ CatAt orbit w t i j
  | [], _, _ => by rw [rest, synAt_empty, CatAt]
  | [s], _, _ => by rw [rest, catAt_one]
  | _ :: _ :: _, _, _ => by rw [rest, synAt_concat] <;> simp

theorem rest_keeps (hP : Keeps T P) : ∀ {t : List Syn}, (∀ s ∈ t, P s) → P (rest t)
  | [], _ => hP.empty
  | [s], h => h s (by simp)
  | _ :: _ :: _, h => (hP.cat _).2 h

theorem removeLeadingString_concat (n : Nat) (rs : List Rune) (f : Bool) (t : List Syn) :
    removeLeadingString n (.concat (.literal rs f :: t)) =
      if rs.drop n = [] then rest t else .concat (.literal (rs.drop n) f :: t) := by
  rcases t with _ | ⟨a, _ | ⟨b, t⟩⟩ <;> rfl

theorem removeLeadingString_at {w : Bytes} {s : Syn} {str : List Rune} {f : Bool} {i j : Nat} (hp : str <+: (leadingString s).1)
    (hf : (leadingString s).2 = f) :
    SynAt orbit w s i j ↔ ∃ k, LitAt orbit f w str i k ∧ SynAt orbit w (removeLeadingString str.length s) k j := by
  have other : (leadingString s) = ([], false) → removeLeadingString 0 s = s →
      (SynAt orbit w s i j ↔ ∃ k, LitAt orbit f w str i k ∧ SynAt orbit w (removeLeadingString str.length s) k j) := by
    intro h1 h2
    rw [h1] at hp
    have : str = [] := List.prefix_nil.1 hp
    subst this
    simp only [litAt_empty, List.length_nil, h2]
    simp
  unfold leadingString at hp hf
  split at hp
  · rename_i rs g t
    simp only at hp hf
    subst hf
    obtain ⟨u, rfl⟩ := hp
    rw [removeLeadingString_concat, List.drop_left, synAt_concat, CatAt]
    split
    · rename_i h
      subst h
      rw [List.append_nil]
      simp only [synAt_literal, rest_at]
    · simp only [synAt_literal, synAt_concat, CatAt, litAt_append]
      constructor
      · rintro ⟨k, ⟨l, h1, h2⟩, h3⟩; exact ⟨l, h1, k, h2, h3⟩
      · rintro ⟨l, h1, k, h2, h3⟩; exact ⟨k, ⟨l, h1, h2⟩, h3⟩
  · rename_i rs g
    simp only at hp hf
    subst hf
    obtain ⟨u, rfl⟩ := hp
    rw [removeLeadingString, dropRunes, List.drop_left, synAt_literal, litAt_append]
    split
    · rename_i h
      subst h
      simp only [litAt_empty, synAt_empty]
    · simp only [synAt_literal]
  · rename_i h1 h2
    refine other ?_ ?_
    · unfold leadingString
      split
      · exact absurd rfl (h1 _ _ _)
      · exact absurd rfl (h2 _ _)
      · rfl
    · unfold removeLeadingString
      split
      · exact absurd rfl (h1 _ _ _)
      · exact absurd rfl (h2 _ _)
      · rfl

theorem removeLeadingString_keeps (hP : Keeps T P) {s : Syn} {n : Nat} (h : P s) : P (removeLeadingString n s) := by
  have lit : ∀ rs f, P (.literal rs f) → P (.literal (rs.drop n) f) := fun rs f h => by
    rw [← List.take_append_drop n rs] at h
    exact ((hP.lits _ _ _).1 h).2
  by_cases hc : ∃ rs f t, s = .concat (.literal rs f :: t)
  · obtain ⟨rs, f, t, rfl⟩ := hc
    rw [removeLeadingString_concat]
    have h' := (hP.cat _).1 h
    split
    · exact rest_keeps hP fun x hx => h' x (List.mem_cons_of_mem _ hx)
    · refine (hP.cat _).2 fun x hx => ?_
      rcases List.mem_cons.1 hx with rfl | hx
      · exact lit _ _ (h' _ (by simp))
      · exact h' x (List.mem_cons_of_mem _ hx)
  · unfold removeLeadingString
    split
    · exact absurd ⟨_, _, _, rfl⟩ hc
    · rw [dropRunes]
      split
      · exact hP.empty
      · exact lit _ _ h
    · exact h

theorem leadingString_keeps (hP : Keeps T P) {s : Syn} (h : P s) (hn : (leadingString s).1 ≠ []) :
    P (.literal (leadingString s).1 (leadingString s).2) := by
  unfold leadingString at hn ⊢
  split at hn
  · exact (hP.cat _).1 h _ (by simp)
  · exact h
  · exact absurd rfl hn

/-- A way to make an alternation that keeps the meaning. -/
def GoodAlt (orbit : Rune → List Rune) (P : Syn → Prop) (alt : List Syn → Syn) : Prop :=
  ∀ ss, (∀ s ∈ ss, P s) → P (alt ss) ∧ ∀ w i j, SynAt orbit w (alt ss) i j ↔ AltAt orbit w ss i j

/-- The second alternation matches what the first does, and keeps the property. -/
def Keep (orbit : Rune → List Rune) (P : Syn → Prop) (ss ts : List Syn) : Prop :=
  (∀ t ∈ ts, P t) ∧ ∀ w i j, AltAt orbit w ts i j ↔ AltAt orbit w ss i j

theorem Keep.refl {ss : List Syn} (h : ∀ s ∈ ss, P s) : Keep orbit P ss ss := ⟨h, fun _ _ _ => Iff.rfl⟩

theorem Keep.append {ss ts ss' ts' : List Syn} (h : Keep orbit P ss ts) (h' : Keep orbit P ss' ts') : Keep orbit P (ss ++ ss') (ts ++ ts') :=
  ⟨fun t ht => (List.mem_append.1 ht).elim (h.1 t) (h'.1 t), fun w i j => by rw [altAt_append, altAt_append, h.2, h'.2]⟩

theorem Keep.trans {ss ts us : List Syn} (h : Keep orbit P ss ts) (h' : Keep orbit P ts us) : Keep orbit P ss us :=
  ⟨h'.1, fun w i j => by rw [h'.2, h.2]⟩

theorem literal_prefix (hP : Keeps T P) {a b : List Rune} {f : Bool} (h : P (.literal b f)) (hp : a <+: b) : P (.literal a f) := by
  obtain ⟨c, rfl⟩ := hp
  exact ((hP.lits _ _ _).1 h).1

theorem endRun1_keep (hP : Keeps T P) {alt : List Syn → Syn} (ha : GoodAlt T.orbit P alt) {run : List Syn} {str : List Rune} {f : Bool}
    (hr : ∀ s ∈ run, P s ∧ str <+: (leadingString s).1 ∧ (leadingString s).2 = f) (hs : 2 ≤ run.length → str ≠ []) :
    Keep T.orbit P run (endRun1 alt run str f) := by
  rcases run with _ | ⟨a, _ | ⟨b, run⟩⟩
  · exact Keep.refl fun s h => (hr s h).1
  · exact Keep.refl fun s h => (hr s h).1
  · rw [endRun1]
    · generalize hrun : a :: b :: run = rn at *
      obtain ⟨h1, h2⟩ := ha (rn.map (removeLeadingString str.length)) (fun s h => by
        obtain ⟨t, ht, rfl⟩ := List.mem_map.1 h
        exact removeLeadingString_keeps hP (hr t ht).1)
      refine ⟨?_, fun w i j => ?_⟩
      · intro t ht
        rw [List.mem_singleton] at ht
        subst ht
        refine (hP.cat _).2 fun x hx => ?_
        rcases List.mem_cons.1 hx with rfl | hx
        · obtain ⟨ha1, ha2, ha3⟩ := hr a (by rw [← hrun]; simp)
          have hne := hs (by rw [← hrun]; simp)
          have := leadingString_keeps hP ha1 (fun e => hne (List.prefix_nil.1 (e ▸ ha2)))
          rw [ha3] at this
          exact literal_prefix hP this ha2
        · rw [List.mem_singleton] at hx; subst hx; exact h1
      · rw [altAt_one, synAt_concat]
        simp only [CatAt, synAt_literal, h2]
        simp only [AltAt, List.mem_map]
        constructor
        · rintro ⟨k, h3, l, ⟨s', ⟨s, hs', rfl⟩, h4⟩, rfl⟩
          exact ⟨s, hs', (removeLeadingString_at (hr s hs').2.1 (hr s hs').2.2).2 ⟨k, h3, h4⟩⟩
        · rintro ⟨s, hs', h3⟩
          obtain ⟨k, h4, h5⟩ := (removeLeadingString_at (hr s hs').2.1 (hr s hs').2.2).1 h3
          exact ⟨k, h4, j, ⟨_, ⟨s, hs', rfl⟩, h5⟩, rfl⟩
    · simp
    · simp

theorem round1_keep (hP : Keeps T P) {alt : List Syn → Syn} (ha : GoodAlt T.orbit P alt) :
    ∀ (ss run : List Syn) (str : List Rune) (f : Bool), (∀ s ∈ ss, P s) →
      (∀ s ∈ run, P s ∧ str <+: (leadingString s).1 ∧ (leadingString s).2 = f) → (2 ≤ run.length → str ≠ []) →
      Keep T.orbit P (run ++ ss) (round1 alt ss run str f)
  | [], run, str, f, _, hr, hs => by
    rw [round1, List.append_nil]; exact endRun1_keep hP ha hr hs
  | s :: ss, run, str, f, hss, hr, hs => by
    rw [round1]
    split
    rename_i istr g e
    split
    · rename_i h
      have := round1_keep hP ha ss (run ++ [s]) (commonRunes str istr) f (fun x hx => hss x (List.mem_cons_of_mem _ hx))
        (fun x hx => by
          rcases List.mem_append.1 hx with hx | hx
          · obtain ⟨h1, h2, h3⟩ := hr x hx
            exact ⟨h1, (commonRunes_left _ _).trans h2, h3⟩
          · rw [List.mem_singleton] at hx
            subst hx
            exact ⟨hss x (by simp), by rw [e]; exact commonRunes_right _ _, by rw [e]; exact h.1⟩)
        (fun _ => h.2)
      rwa [List.append_assoc] at this
    · refine Keep.append (endRun1_keep hP ha hr hs) ?_
      exact round1_keep hP ha ss [s] istr g (fun x hx => hss x (List.mem_cons_of_mem _ hx))
        (fun x hx => by
          rw [List.mem_singleton] at hx
          subst hx
          exact ⟨hss x (by simp), by rw [e]; exact List.prefix_refl _, by rw [e]⟩)
        (fun h => absurd h (by simp))

/-! ## Round 2 -/

theorem removeLeadingRegexp_concat (s : Syn) (t : List Syn) : removeLeadingRegexp (.concat (s :: t)) = rest t := by
  rcases t with _ | ⟨a, _ | ⟨b, t⟩⟩ <;> rfl

theorem leadingRegexp_cases {s a : Syn} (h : leadingRegexp s = some a) :
    (∃ t, s = .concat (a :: t)) ∨ (a = s ∧ removeLeadingRegexp s = .emptyMatch) := by
  unfold leadingRegexp at h
  split at h
  · simp at h
  · simp at h
  · rename_i x t hx
    simp only [Option.some.injEq] at h
    subst h
    exact .inl ⟨t, rfl⟩
  · rename_i h1 h2
    simp only [Option.some.injEq] at h
    subst h
    refine .inr ⟨rfl, ?_⟩
    unfold removeLeadingRegexp
    split
    · rename_i x t h3
      exact absurd rfl (h2 _ _)
    · rfl

theorem removeLeadingRegexp_at {w : Bytes} {s a : Syn} {i j : Nat} (h : leadingRegexp s = some a) :
    SynAt orbit w s i j ↔ ∃ k, SynAt orbit w a i k ∧ SynAt orbit w (removeLeadingRegexp s) k j := by
  rcases leadingRegexp_cases h with ⟨t, rfl⟩ | ⟨rfl, h⟩
  · rw [removeLeadingRegexp_concat, synAt_concat, CatAt]
    simp only [rest_at]
  · rw [h]
    simp only [synAt_empty]
    simp

theorem removeLeadingRegexp_keeps (hP : Keeps T P) {s : Syn} (h : P s) : P (removeLeadingRegexp s) := by
  by_cases hc : ∃ a t, s = .concat (a :: t)
  · obtain ⟨a, t, rfl⟩ := hc
    rw [removeLeadingRegexp_concat]
    exact rest_keeps hP fun x hx => (hP.cat _).1 h x (List.mem_cons_of_mem _ hx)
  · unfold removeLeadingRegexp
    split
    · exact absurd ⟨_, _, rfl⟩ hc
    · exact hP.empty

theorem leadingRegexp_keeps (hP : Keeps T P) {s a : Syn} (h : P s) (ha : leadingRegexp s = some a) : P a := by
  rcases leadingRegexp_cases ha with ⟨t, rfl⟩ | ⟨rfl, -⟩
  · exact (hP.cat _).1 h a (by simp)
  · exact h

/-- The expressions of a run begin with something that matches what `first` does. -/
def Begins (orbit : Rune → List Rune) (first : Option Syn) (s : Syn) : Prop :=
  ∀ a, first = some a → ∃ b, leadingRegexp s = some b ∧ Eqv orbit a b

theorem endRun2_keep (hP : Keeps T P) {alt : List Syn → Syn} (ha : GoodAlt T.orbit P alt) {run : List Syn} {first : Option Syn}
    (hr : ∀ s ∈ run, P s ∧ Begins T.orbit first s) (hf : ∀ a, first = some a → P a) :
    Keep T.orbit P run (endRun2 alt run first) := by
  rcases run with _ | ⟨a, _ | ⟨b, run⟩⟩
  · exact Keep.refl fun s h => (hr s h).1
  · exact Keep.refl fun s h => (hr s h).1
  · rcases first with _ | first
    · rw [endRun2]
      · exact Keep.refl fun s h => (hr s h).1
      · simp
      · simp
    · rw [endRun2]
      · generalize a :: b :: run = rn at *
        obtain ⟨h1, h2⟩ := ha (rn.map removeLeadingRegexp) (fun s h => by
          obtain ⟨t, ht, rfl⟩ := List.mem_map.1 h
          exact removeLeadingRegexp_keeps hP (hr t ht).1)
        refine ⟨?_, fun w i j => ?_⟩
        · intro t ht
          rw [List.mem_singleton] at ht
          subst ht
          refine (hP.cat _).2 fun x hx => ?_
          rcases List.mem_cons.1 hx with rfl | hx
          · exact hf _ rfl
          · rw [List.mem_singleton] at hx; subst hx; exact h1
        · rw [altAt_one, synAt_concat]
          simp only [CatAt, h2]
          simp only [AltAt, List.mem_map]
          constructor
          · rintro ⟨k, h3, l, ⟨s', ⟨s, hs', rfl⟩, h4⟩, rfl⟩
            obtain ⟨c, hc, he⟩ := (hr s hs').2 _ rfl
            exact ⟨s, hs', (removeLeadingRegexp_at hc).2 ⟨k, (he _ _ _).1 h3, h4⟩⟩
          · rintro ⟨s, hs', h3⟩
            obtain ⟨c, hc, he⟩ := (hr s hs').2 _ rfl
            obtain ⟨k, h4, h5⟩ := (removeLeadingRegexp_at hc).1 h3
            exact ⟨k, (he _ _ _).2 h4, j, ⟨_, ⟨s, hs', rfl⟩, h5⟩, rfl⟩
      · simp
      · simp

theorem round2_keep (hP : Keeps T P) (hA : Agrees T P) {alt : List Syn → Syn} (ha : GoodAlt T.orbit P alt) :
    ∀ (ss run : List Syn) (first : Option Syn), (∀ s ∈ ss, P s) → (∀ s ∈ run, P s ∧ Begins T.orbit first s) →
      (∀ a, first = some a → P a) → Keep T.orbit P (run ++ ss) (round2 T alt ss run first)
  | [], run, first, _, hr, hf => by
    rw [round2, List.append_nil]; exact endRun2_keep hP ha hr hf
  | s :: ss, run, first, hss, hr, hf => by
    rw [round2]
    have hs := hss s (by simp)
    split
    · rename_i h
      have := round2_keep hP hA ha ss (run ++ [s]) first (fun x hx => hss x (List.mem_cons_of_mem _ hx))
        (fun x hx => by
          rcases List.mem_append.1 hx with hx | hx
          · exact hr x hx
          · rw [List.mem_singleton] at hx
            subst hx
            refine ⟨hs, fun a e => ?_⟩
            subst e
            unfold continues at h
            cases hl : leadingRegexp x with
            | none => rw [hl] at h; simp at h
            | some b =>
              rw [hl] at h
              exact ⟨b, rfl, hA a b h (hf a rfl) (leadingRegexp_keeps hP hs hl)⟩)
        hf
      rwa [List.append_assoc] at this
    · refine Keep.append (endRun2_keep hP ha hr hf) ?_
      exact round2_keep hP hA ha ss [s] _ (fun x hx => hss x (List.mem_cons_of_mem _ hx))
        (fun x hx => by
          rw [List.mem_singleton] at hx
          subst hx
          exact ⟨hs, fun a e => ⟨a, e, fun _ _ _ => Iff.rfl⟩⟩)
        (fun a e => leadingRegexp_keeps hP hs e)

/-! ## Round 3 -/

/-- The runes a character or class stands for. -/
def CharSet (orbit : Rune → List Rune) : Syn → Rune → Prop
  | .literal [x] f, r => FoldsTo orbit f x r
  | .charClass c, r => InR c r
  | .anyCharNotNL, r => r ≠ 10
  | .anyChar, _ => True
  | _, _ => False

theorem synAt_class {w : Bytes} {c : Ranges} {i j : Nat} : SynAt orbit w (.charClass c) i j ↔ ∃ r, InR c r ∧ RuneAt w r i j := by
  rw [SynAt, Syn.re, MatchAt]
  constructor
  · rintro ⟨p, hp, r, h1, h2, h3⟩; exact ⟨r, ⟨p, hp, h1, h2⟩, h3⟩
  · rintro ⟨r, ⟨p, hp, h1, h2⟩, h3⟩; exact ⟨p, hp, r, h1, h2, h3⟩

theorem charSet_at {w : Bytes} {i j : Nat} {s : Syn} (h : isCharClass s = true) : SynAt orbit w s i j ↔ ∃ r, CharSet orbit s r ∧ RuneAt w r i j := by
  unfold isCharClass at h
  split at h
  · rw [synAt_literal]
    simp only [LitAt, CharSet]
    constructor
    · rintro ⟨r, k, h1, h2, rfl⟩; exact ⟨r, h1, h2⟩
    · rintro ⟨r, h1, h2⟩; exact ⟨r, j, h1, h2, rfl⟩
  · exact synAt_class
  · rw [SynAt, Syn.re, MatchAt]; rfl
  · rw [SynAt, Syn.re, MatchAt]; simp [CharSet]
  · simp at h

theorem appendLiteral_spec (hb : FoldBounds orbit) {r : Ranges} {x : Rune} {f : Bool} (hr : ROk r) (hx : x ≤ maxRune) :
    ROk (appendLiteral orbit r x f) ∧ ∀ y, InR (appendLiteral orbit r x f) y ↔ InR r y ∨ FoldsTo orbit f x y := by
  rw [appendLiteral]
  split
  · rename_i hf
    subst hf
    obtain ⟨h1, h2⟩ := appendFoldedRange_spec hb hr (Nat.le_refl x) hx
    refine ⟨h1, fun y => ?_⟩
    rw [h2, FoldsTo, Folded]
    have e : ∀ z, (x ≤ z ∧ z ≤ x) ↔ z = x := fun z =>
      ⟨fun h => Nat.le_antisymm h.2 h.1, fun h => by rw [h]; exact ⟨Nat.le_refl _, Nat.le_refl _⟩⟩
    simp only [e, exists_eq_left]
  · rename_i hf
    obtain ⟨h1, h2⟩ := appendOne_spec hr hx
    refine ⟨h1, fun y => ?_⟩
    rw [h2, FoldsTo]
    simp [hf]

theorem mergeCharClass_class (a b : Syn) (ha : isCharClass a = true) : isCharClass (mergeCharClass orbit a b) = true := by
  unfold mergeCharClass
  split
  · rfl
  · split <;> rfl
  · rfl
  · rfl
  · split
    · exact ha
    · rfl
  · exact ha

theorem mergeCharClass_rank (a b : Syn) : charRank a ≤ charRank (mergeCharClass orbit a b) := by
  unfold mergeCharClass
  split
  · exact Nat.le_refl _
  · split <;> simp [charRank]
  · exact Nat.le_refl _
  · exact Nat.le_refl _
  · split <;> simp [charRank]
  · exact Nat.le_refl _

theorem matchRune_newline (hb : FoldBounds orbit) {s : Syn} (h : isCharClass s = true) : matchRune s 10 = true ↔ CharSet orbit s 10 := by
  unfold isCharClass at h
  split at h
  · simp only [matchRune, CharSet, FoldsTo, beq_iff_eq]
    constructor
    · exact fun h => .inl h.symm
    · rintro (h | ⟨-, h⟩)
      · exact h.symm
      · exact absurd (hb _ _ h).2.1 (by decide)
  · simp [matchRune, CharSet, InR]
  · simp [matchRune, CharSet]
  · simp [matchRune, CharSet]
  · simp at h

theorem mergeCharClass_set (hb : FoldBounds orbit) {a b : Syn} (ha : isCharClass a = true) (hb' : isCharClass b = true)
    (hr : charRank b ≤ charRank a) (pa : ∀ c, a = .charClass c → ROk c) (pb : ∀ c, b = .charClass c → ROk c)
    (la : ∀ x f, a = .literal [x] f → x ≤ maxRune) (lb : ∀ x f, b = .literal [x] f → x ≤ maxRune) (r : Rune) :
    CharSet orbit (mergeCharClass orbit a b) r ↔ CharSet orbit a r ∨ CharSet orbit b r := by
  have hn := matchRune_newline hb hb'
  unfold isCharClass at ha hb'
  split at ha
  · -- a literal
    rename_i x f
    split at hb'
    · rename_i y g
      simp only [mergeCharClass]
      split
      · rename_i h
        obtain ⟨rfl, rfl⟩ := h
        simp
      · obtain ⟨h1, h2⟩ := appendLiteral_spec hb (f := f) ROk_nil (la x f rfl)
        obtain ⟨-, i2⟩ := appendLiteral_spec hb (f := g) h1 (lb y g rfl)
        simp only [CharSet, i2, h2, InR_nil, false_or]
    · exact absurd hr (by simp [charRank])
    · exact absurd hr (by simp [charRank])
    · exact absurd hr (by simp [charRank])
    · simp at hb'
  · rename_i c
    split at hb'
    · rename_i y g
      obtain ⟨-, i2⟩ := appendLiteral_spec hb (f := g) (pa c rfl) (lb y g rfl)
      simp only [mergeCharClass, CharSet, i2]
    · rename_i d
      obtain ⟨-, i2⟩ := appendClass_spec d (pa c rfl) (pb d rfl)
      simp only [mergeCharClass, CharSet, i2]
    · exact absurd hr (by simp [charRank])
    · exact absurd hr (by simp [charRank])
    · simp at hb'
  · have : mergeCharClass orbit .anyCharNotNL b = if matchRune b 10 then .anyChar else .anyCharNotNL := by
      rw [mergeCharClass]
    rw [this]
    split
    · rename_i h
      refine iff_of_true trivial ?_
      by_cases e : r = 10
      · rw [e]; exact .inr (hn.1 h)
      · exact .inl e
    · rename_i h
      refine ⟨.inl, fun h' => h'.elim id fun h' e => h (hn.2 (e ▸ h'))⟩
  · have : mergeCharClass orbit .anyChar b = .anyChar := by rw [mergeCharClass]
    rw [this]
    simp [CharSet]
  · simp at ha

theorem KeepsOne.class (hP : KeepsOne P) {s : Syn} (h : P s) : (∀ c, s = .charClass c → ROk c) ∧ ∀ x f, s = .literal [x] f → x ≤ maxRune :=
  ⟨fun c e => hP.ranges c (e ▸ h), fun x f e => hP.bound x f (e ▸ h)⟩

theorem merge_fold (hb : FoldBounds T.orbit) (hP : Keeps T P) : ∀ (l : List Syn) (m : Syn), isCharClass m = true → P m →
    (∀ s ∈ l, isCharClass s = true ∧ charRank s ≤ charRank m ∧ P s) →
    isCharClass (l.foldl (mergeCharClass T.orbit) m) = true ∧ P (l.foldl (mergeCharClass T.orbit) m) ∧
      ∀ r, CharSet T.orbit (l.foldl (mergeCharClass T.orbit) m) r ↔ CharSet T.orbit m r ∨ ∃ s ∈ l, CharSet T.orbit s r
  | [], m, hm, pm, _ => ⟨hm, pm, by simp⟩
  | s :: l, m, hm, pm, hl => by
    obtain ⟨h1, h2, h3⟩ := hl s (by simp)
    have hset := mergeCharClass_set hb hm h1 h2 (hP.class pm).1 (hP.class h3).1 (hP.class pm).2 (hP.class h3).2
    obtain ⟨i1, i2, i3⟩ := merge_fold hb hP l (mergeCharClass T.orbit m s) (mergeCharClass_class m s hm) (hP.merge m s hm h1 h2 pm h3)
      (fun t ht => by
        obtain ⟨j1, j2, j3⟩ := hl t (List.mem_cons_of_mem _ ht)
        exact ⟨j1, Nat.le_trans j2 (mergeCharClass_rank m s), j3⟩)
    refine ⟨i1, i2, fun r => ?_⟩
    rw [List.foldl_cons, i3, hset]
    simp [or_assoc]

theorem cleanAlt_keep (hP : KeepsOne P) {s : Syn} (h : P s) : P (cleanAlt s) ∧ Eqv T.orbit (cleanAlt s) s := by
  unfold cleanAlt
  split
  · rename_i c
    obtain ⟨h1, h2, h3⟩ := cleanClass_spec (hP.ranges c h)
    have valid : ∀ {w r i j}, RuneAt w r i j → r ≤ maxRune := fun h => by
      have := h.1
      simp only [validRune, Bool.or_eq_true, Bool.and_eq_true, decide_eq_true_eq] at this
      rcases this with h | ⟨-, h⟩
      · exact Nat.le_trans (Nat.le_of_lt h) (by decide)
      · exact h
    simp only
    split
    · rename_i e
      refine ⟨hP.any, fun w i j => ?_⟩
      rw [synAt_class, SynAt, Syn.re, MatchAt]
      refine exists_congr fun r => ⟨fun h => ⟨?_, h⟩, fun h => h.2⟩
      rw [← h3, e]
      exact InR_cons.2 (.inl ⟨Nat.zero_le _, valid h⟩)
    · split
      · rename_i e
        refine ⟨hP.anyNL, fun w i j => ?_⟩
        rw [synAt_class, SynAt, Syn.re, MatchAt]
        refine exists_congr fun r => and_congr_left fun h => ?_
        rw [← h3, e, InR_cons, InR_cons]
        have h' := valid h
        constructor
        · intro hr
          rcases Nat.lt_or_ge r 10 with h | h
          · exact .inl ⟨Nat.zero_le _, Nat.le_of_lt_succ h⟩
          · exact .inr (.inl ⟨Nat.lt_of_le_of_ne h (Ne.symm hr), h'⟩)
        · rintro (⟨-, h⟩ | ⟨h, -⟩ | h)
          · exact Nat.ne_of_lt (Nat.lt_succ_of_le h)
          · exact Ne.symm (Nat.ne_of_lt h)
          · exact absurd h InR_nil
      · refine ⟨hP.clean c h, fun w i j => ?_⟩
        rw [synAt_class, synAt_class]
        simp only [h3]
  · exact ⟨h, fun _ _ _ => Iff.rfl⟩

theorem maxPlace_spec : ∀ (t pre : List Syn) (best : Nat) (m : Syn), (pre)[best]? = some m → (∀ s ∈ pre, charRank s ≤ charRank m) →
    ∃ m', (pre ++ t)[maxPlace t pre.length best m]? = some m' ∧ ∀ s ∈ pre ++ t, charRank s ≤ charRank m'
  | [], pre, best, m, h, hr => ⟨m, by rw [List.append_nil]; exact h, by rw [List.append_nil]; exact hr⟩
  | s :: t, pre, best, m, h, hr => by
    have e : pre ++ s :: t = (pre ++ [s]) ++ t := by simp
    have el : pre.length + 1 = (pre ++ [s]).length := by simp
    rw [maxPlace]
    split
    · rename_i hc
      have := maxPlace_spec t (pre ++ [s]) pre.length s (by simp) (fun x hx => by
        have hms : charRank m ≤ charRank s := by rcases hc with h | h; exact Nat.le_of_lt h; exact Nat.le_of_eq h.1
        rcases List.mem_append.1 hx with hx | hx
        · exact Nat.le_trans (hr x hx) hms
        · rw [List.mem_singleton] at hx; rw [hx]; exact Nat.le_refl _)
      rw [e, el]
      exact this
    · rename_i hc
      rw [not_or] at hc
      have := maxPlace_spec t (pre ++ [s]) best m (by
          rw [List.getElem?_append_left (by exact (List.getElem?_eq_some_iff.1 h).1)]; exact h) (fun x hx => by
        rcases List.mem_append.1 hx with hx | hx
        · exact hr x hx
        · rw [List.mem_singleton] at hx; rw [hx]; exact Nat.not_lt.1 hc.1)
      rw [e, el]
      exact this

theorem mem_swap {s m : Syn} {t : List Syn} {k : Nat} (h : (s :: t)[k]? = some m) (x : Syn) :
    x = m ∨ x ∈ ((s :: t).set k s).tail ↔ x ∈ s :: t := by
  cases k with
  | zero =>
    simp only [List.getElem?_cons_zero, Option.some.injEq] at h
    subst h
    simp
  | succ k =>
    simp only [List.getElem?_cons_succ] at h
    simp only [List.set_cons_succ, List.tail_cons]
    induction t generalizing k with
    | nil => simp at h
    | cons a t ih =>
      cases k with
      | zero =>
        simp only [List.getElem?_cons_zero, Option.some.injEq] at h
        subst h
        simp only [List.set_cons_zero, List.mem_cons]
        constructor
        · rintro (h | h | h)
          · exact .inr (.inl h)
          · exact .inl h
          · exact .inr (.inr h)
        · rintro (h | h | h)
          · exact .inr (.inl h)
          · exact .inl h
          · exact .inr (.inr h)
      | succ k =>
        simp only [List.getElem?_cons_succ] at h
        have := ih k h
        simp only [List.set_cons_succ, List.mem_cons] at this ⊢
        constructor
        · rintro (h | h | h)
          · rcases this.1 (.inl h) with h | h
            · exact .inl h
            · exact .inr (.inr h)
          · exact .inr (.inl h)
          · rcases this.1 (.inr h) with h | h
            · exact .inl h
            · exact .inr (.inr h)
        · rintro (h | h | h)
          · rcases this.2 (.inl h) with h | h
            · exact .inl h
            · exact .inr (.inr h)
          · exact .inr (.inl h)
          · rcases this.2 (.inr h) with h | h
            · exact .inl h
            · exact .inr (.inr h)

theorem endRun3_keep (hb : FoldBounds T.orbit) (hP : Keeps T P) {run : List Syn} (hr : ∀ s ∈ run, P s ∧ isCharClass s = true) :
    Keep T.orbit P run (endRun3 T run) := by
  rcases run with _ | ⟨s, _ | ⟨b, t⟩⟩
  · exact Keep.refl fun s h => (hr s h).1
  · exact Keep.refl fun s h => (hr s h).1
  · rw [endRun3]
    · generalize b :: t = t at *
      obtain ⟨m, hm, hmax⟩ := maxPlace_spec t [s] 0 s (by simp) (by simp)
      simp only [List.singleton_append, List.length_singleton] at hm hmax
      simp only [hm, Option.getD_some]
      have hmem := mem_swap hm
      have hmrun : m ∈ s :: t := (hmem m).1 (.inl rfl)
      obtain ⟨h1, h2, h3⟩ := merge_fold hb hP ((s :: t).set (maxPlace t 1 0 s) s).tail m (hr m hmrun).2 (hr m hmrun).1
        (fun x hx => by
          have := (hmem x).1 (.inr hx)
          exact ⟨(hr x this).2, hmax x this, (hr x this).1⟩)
      obtain ⟨i1, i2⟩ := cleanAlt_keep hP.toKeepsOne h2
      refine ⟨fun x hx => by rw [List.mem_singleton] at hx; rw [hx]; exact i1, fun w i j => ?_⟩
      rw [altAt_one, i2, charSet_at h1]
      simp only [h3]
      rw [AltAt]
      constructor
      · rintro ⟨r, h | ⟨x, hx, h⟩, ha⟩
        · exact ⟨m, hmrun, (charSet_at (hr m hmrun).2).2 ⟨r, h, ha⟩⟩
        · have := (hmem x).1 (.inr hx)
          exact ⟨x, this, (charSet_at (hr x this).2).2 ⟨r, h, ha⟩⟩
      · rintro ⟨x, hx, h⟩
        obtain ⟨r, h, ha⟩ := (charSet_at (hr x hx).2).1 h
        refine ⟨r, ?_, ha⟩
        rcases (hmem x).2 hx with rfl | hx
        · exact .inl h
        · exact .inr ⟨x, hx, h⟩
    · simp

theorem round3_keep (hb : FoldBounds T.orbit) (hP : Keeps T P) : ∀ (ss run : List Syn), (∀ s ∈ ss, P s) →
    (∀ s ∈ run, P s ∧ isCharClass s = true) → Keep T.orbit P (run ++ ss) (round3 T ss run)
  | [], run, _, hr => by rw [round3, List.append_nil]; exact endRun3_keep hb hP hr
  | s :: ss, run, hss, hr => by
    rw [round3]
    split
    · rename_i h
      have := round3_keep hb hP ss (run ++ [s]) (fun x hx => hss x (List.mem_cons_of_mem _ hx)) (fun x hx => by
        rcases List.mem_append.1 hx with hx | hx
        · exact hr x hx
        · rw [List.mem_singleton] at hx; subst hx; exact ⟨hss x (by simp), h⟩)
      rwa [List.append_assoc] at this
    · have h2 := round3_keep hb hP ss [] (fun x hx => hss x (List.mem_cons_of_mem _ hx)) (by simp)
      rw [List.nil_append] at h2
      have h1 : Keep T.orbit P [s] [s] := Keep.refl (fun x hx => by rw [List.mem_singleton] at hx; subst hx; exact hss x (by simp))
      exact Keep.append (endRun3_keep hb hP hr) (Keep.append h1 h2)

/-! ## Round 4 and the whole -/

theorem round4_mem : ∀ (ss : List Syn) (x : Syn), x ∈ round4 ss ↔ x ∈ ss
  | [], _ => by rw [round4]
  | [s], _ => by rw [round4]
  | s :: t :: rest, x => by
    rw [round4]
    split
    · rename_i h
      rw [round4_mem (t :: rest) x]
      have hs : s = .emptyMatch ∧ t = .emptyMatch := by
        rw [Bool.and_eq_true] at h
        constructor
        · have := h.1; unfold isEmptyMatch at this; split at this; rfl; simp at this
        · have := h.2; unfold isEmptyMatch at this; split at this; rfl; simp at this
      rw [hs.1, hs.2]
      simp
    · rw [List.mem_cons, round4_mem (t :: rest) x, List.mem_cons (a := x) (b := s)]

theorem round4_keep {ss : List Syn} (h : ∀ s ∈ ss, P s) : Keep orbit P ss (round4 ss) := by
  refine ⟨fun t ht => h t ((round4_mem _ _).1 ht), fun w i j => ?_⟩
  simp only [AltAt, round4_mem]

theorem altSubs_keep (hP : Keeps T P) : ∀ {ss : List Syn}, (∀ s ∈ ss, P s) → Keep T.orbit P ss (ss.flatMap altSubs)
  | [], _ => Keep.refl (by simp)
  | s :: ss, h => by
    have h1 : Keep T.orbit P [s] (altSubs s) := by
      have hs := h s (by simp)
      unfold altSubs
      split
      · refine ⟨(hP.alt _).1 hs, fun w i j => ?_⟩
        rw [altAt_one, synAt_alternate]
      · exact Keep.refl (fun x hx => by rw [List.mem_singleton] at hx; subst hx; exact hs)
    have h2 := altSubs_keep hP (ss := ss) (fun x hx => h x (List.mem_cons_of_mem _ hx))
    have := Keep.append h1 h2
    rwa [List.singleton_append, ← List.flatMap_cons] at this

/-- One tree, or an alternation. -/
def oneOr (us : List Syn) : Syn :=
  match us with
  | [s] => s
  | subs => .alternate subs

theorem oneOr_keep (hP : Keeps T P) {ss us : List Syn} (hu : Keep T.orbit P ss us) :
    P (oneOr us) ∧ ∀ w i j, SynAt T.orbit w (oneOr us) i j ↔ AltAt T.orbit w ss i j := by
  unfold oneOr
  split
  · rename_i s
    exact ⟨hu.1 s (by simp), fun w i j => by rw [← hu.2, altAt_one]⟩
  · exact ⟨(hP.alt _).2 hu.1, fun w i j => by rw [← hu.2, synAt_alternate]⟩

/-- `factor` for two trees or more. -/
def factored (T : Tables) (fuel : Nat) (us : List Syn) : List Syn :=
  if us.length < 2 then us
  else round4 (round3 T (round2 T (alternation T fuel) (round1 (alternation T fuel) us [] [] false) [] none) [])

theorem alternation_cases (T : Tables) (fuel : Nat) (ss : List Syn) :
    (∃ s, ss = [s] ∧ alternation T (fuel + 1) ss = s) ∨ alternation T (fuel + 1) ss = oneOr (factored T fuel (ss.flatMap altSubs)) := by
  rcases ss with _ | ⟨a, _ | ⟨b, t⟩⟩
  · exact .inr rfl
  · exact .inl ⟨a, rfl, rfl⟩
  · exact .inr rfl

theorem alternation_good (hb : FoldBounds T.orbit) (hP : Keeps T P) (hA : Agrees T P) : ∀ fuel, GoodAlt T.orbit P (alternation T fuel)
  | 0 => fun ss h => ⟨by rw [alternation]; exact (hP.alt _).2 h, fun w i j => by rw [alternation, synAt_alternate]⟩
  | fuel + 1 => fun ss h => by
    have ih := alternation_good hb hP hA fuel
    rcases alternation_cases T fuel ss with ⟨s, rfl, e⟩ | e
    · rw [e]
      exact ⟨h s (by simp), fun w i j => altAt_one.symm⟩
    · rw [e]
      apply oneOr_keep hP
      have k1 := altSubs_keep hP h
      rw [factored]
      split
      · exact k1
      · have k2 := round1_keep hP ih _ [] [] false k1.1 (by simp) (by simp)
        have k3 := round2_keep hP hA ih _ [] none k2.1 (by simp) (by simp)
        have k4 := round3_keep hb hP _ [] k3.1 (by simp)
        have k5 := round4_keep (orbit := T.orbit) k4.1
        simp only [List.nil_append] at k2 k3 k4
        exact ((((k1.trans k2).trans k3).trans k4).trans k5)

theorem collapseAlt_good (hb : FoldBounds T.orbit) (hP : Keeps T P) (hA : Agrees T P) : GoodAlt T.orbit P (collapseAlt T) :=
  fun ss h => alternation_good hb hP hA _ ss h

theorem catSubs_keep (hP : KeepsOne P) : ∀ {ss : List Syn}, (∀ s ∈ ss, P s) →
    (∀ s ∈ ss.flatMap catSubs, P s) ∧ ∀ w i j, CatAt T.orbit w (ss.flatMap catSubs) i j ↔ CatAt T.orbit w ss i j
  | [], _ => ⟨by simp, fun _ _ _ => Iff.rfl⟩
  | s :: ss, h => by
    have hs := h s (by simp)
    have h1 : (∀ x ∈ catSubs s, P x) ∧ ∀ w i j, CatAt T.orbit w (catSubs s) i j ↔ SynAt T.orbit w s i j := by
      unfold catSubs
      split
      · exact ⟨(hP.cat _).1 hs, fun w i j => synAt_concat.symm⟩
      · exact ⟨fun x hx => by rw [List.mem_singleton] at hx; subst hx; exact hs, fun w i j => catAt_one⟩
    obtain ⟨i1, i2⟩ := catSubs_keep hP (ss := ss) (fun x hx => h x (List.mem_cons_of_mem _ hx))
    refine ⟨fun x hx => ?_, fun w i j => ?_⟩
    · rw [List.flatMap_cons] at hx
      exact (List.mem_append.1 hx).elim (h1.1 x) (i1 x)
    · rw [List.flatMap_cons, catAt_append, CatAt]
      simp only [h1.2, i2]

theorem collapseConcat_good (hP : KeepsOne P) {ss : List Syn} (h : ∀ s ∈ ss, P s) :
    P (collapseConcat ss) ∧ ∀ w i j, SynAt T.orbit w (collapseConcat ss) i j ↔ CatAt T.orbit w ss i j := by
  unfold collapseConcat
  split
  · exact ⟨h _ (by simp), fun w i j => catAt_one.symm⟩
  · obtain ⟨h1, h2⟩ := catSubs_keep hP h
    exact ⟨(hP.cat _).2 h1, fun w i j => by rw [synAt_concat, h2]⟩

end Hound.GoRe
