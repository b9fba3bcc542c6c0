import Verif.Proofs.ParseAccept
import Verif.Proofs.ParseKeep

/-!
Every text is parsed or refused, and every tree that comes out has code points only: for any text at all, also one that is
no pattern, and without conditions on how `factor` compares.
-/
namespace Hound.GoRe
open Hound.Spec Hound.Spec.Pat

variable {T : Tables} {P : Syn → Prop} {uni : Bytes → Option (Rune → Prop)}

/-! ## A property of trees that the operations keep, on the stack -/

theorem endRun1_all (hP : Keeps T P) {alt : List Syn → Syn} (ha : ∀ ss, (∀ s ∈ ss, P s) → P (alt ss)) {run : List Syn} {str : List Rune} {f : Bool}
    (hr : ∀ s ∈ run, P s ∧ str <+: (leadingString s).1 ∧ (leadingString s).2 = f) (hs : 2 ≤ run.length → str ≠ []) :
    ∀ t ∈ endRun1 alt run str f, P t := by
  rcases run with _ | ⟨a, _ | ⟨b, run⟩⟩
  · exact fun s h => (hr s h).1
  · exact fun s h => (hr s h).1
  · rw [endRun1]
    · generalize hrun : a :: b :: run = rn at *
      intro t ht
      rw [List.mem_singleton] at ht
      subst ht
      refine (hP.cat _).2 fun x hx => ?_
      rcases List.mem_cons.1 hx with rfl | hx
      · obtain ⟨ha1, ha2, ha3⟩ := hr a (by rw [← hrun]; simp)
        have hne := hs (by rw [← hrun]; simp)
        have := leadingString_keeps hP ha1 (fun e => hne (List.prefix_nil.1 (e ▸ ha2)))
        rw [ha3] at this
        exact literal_prefix hP this ha2
      · rw [List.mem_singleton] at hx
        subst hx
        refine ha _ (fun s h => ?_)
        obtain ⟨t, ht, rfl⟩ := List.mem_map.1 h
        exact removeLeadingString_keeps hP (hr t ht).1
    · simp
    · simp

theorem round1_all (hP : Keeps T P) {alt : List Syn → Syn} (ha : ∀ ss, (∀ s ∈ ss, P s) → P (alt ss)) :
    ∀ (ss run : List Syn) (str : List Rune) (f : Bool), (∀ s ∈ ss, P s) →
      (∀ s ∈ run, P s ∧ str <+: (leadingString s).1 ∧ (leadingString s).2 = f) → (2 ≤ run.length → str ≠ []) →
      ∀ t ∈ round1 alt ss run str f, P t
  | [], run, str, f, _, hr, hs => by
    rw [round1]; exact endRun1_all hP ha hr hs
  | s :: ss, run, str, f, hss, hr, hs => by
    rw [round1]
    split
    rename_i istr g e
    split
    · rename_i h
      exact round1_all hP ha ss (run ++ [s]) (commonRunes str istr) f (fun x hx => hss x (List.mem_cons_of_mem _ hx))
        (fun x hx => by
          rcases List.mem_append.1 hx with hx | hx
          · obtain ⟨h1, h2, h3⟩ := hr x hx
            exact ⟨h1, (commonRunes_left _ _).trans h2, h3⟩
          · rw [List.mem_singleton] at hx
            subst hx
            exact ⟨hss x (by simp), by rw [e]; exact commonRunes_right _ _, by rw [e]; exact h.1⟩)
        (fun _ => h.2)
    · intro t ht
      rcases List.mem_append.1 ht with ht | ht
      · exact endRun1_all hP ha hr hs t ht
      · exact round1_all hP ha ss [s] istr g (fun x hx => hss x (List.mem_cons_of_mem _ hx))
          (fun x hx => by
            rw [List.mem_singleton] at hx
            subst hx
            exact ⟨hss x (by simp), by rw [e]; exact List.prefix_refl _, by rw [e]⟩)
          (fun h => absurd h (by simp)) t ht

theorem endRun2_all (hP : Keeps T P) {alt : List Syn → Syn} (ha : ∀ ss, (∀ s ∈ ss, P s) → P (alt ss)) {run : List Syn} {first : Option Syn}
    (hr : ∀ s ∈ run, P s) (hf : ∀ a, first = some a → P a) : ∀ t ∈ endRun2 alt run first, P t := by
  rcases run with _ | ⟨a, _ | ⟨b, run⟩⟩
  · exact hr
  · exact hr
  · rcases first with _ | first
    · rw [endRun2]
      · exact hr
      · simp
      · simp
    · rw [endRun2]
      · generalize a :: b :: run = rn at *
        intro t ht
        rw [List.mem_singleton] at ht
        subst ht
        refine (hP.cat _).2 fun x hx => ?_
        rcases List.mem_cons.1 hx with rfl | hx
        · exact hf _ rfl
        · rw [List.mem_singleton] at hx
          subst hx
          refine ha _ (fun s h => ?_)
          obtain ⟨t, ht, rfl⟩ := List.mem_map.1 h
          exact removeLeadingRegexp_keeps hP (hr t ht)
      · simp
      · simp

theorem round2_all (hP : Keeps T P) {alt : List Syn → Syn} (ha : ∀ ss, (∀ s ∈ ss, P s) → P (alt ss)) :
    ∀ (ss run : List Syn) (first : Option Syn), (∀ s ∈ ss, P s) → (∀ s ∈ run, P s) →
      (∀ a, first = some a → P a) → ∀ t ∈ round2 T alt ss run first, P t
  | [], run, first, _, hr, hf => by
    rw [round2]; exact endRun2_all hP ha hr hf
  | s :: ss, run, first, hss, hr, hf => by
    rw [round2]
    have hs := hss s (by simp)
    split
    · exact round2_all hP ha ss (run ++ [s]) first (fun x hx => hss x (List.mem_cons_of_mem _ hx))
        (fun x hx => by
          rcases List.mem_append.1 hx with hx | hx
          · exact hr x hx
          · rw [List.mem_singleton] at hx
            subst hx
            exact hs) hf
    · intro t ht
      rcases List.mem_append.1 ht with ht | ht
      · exact endRun2_all hP ha hr hf t ht
      · exact round2_all hP ha ss [s] _ (fun x hx => hss x (List.mem_cons_of_mem _ hx))
          (fun x hx => by
            rw [List.mem_singleton] at hx
            subst hx
            exact hs)
          (fun a e => leadingRegexp_keeps hP hs e) t ht

theorem alternation_all (hb : FoldBounds T.orbit) (hP : Keeps T P) : ∀ fuel ss, (∀ s ∈ ss, P s) → P (alternation T fuel ss)
  | 0, ss, h => by rw [alternation]; exact (hP.alt _).2 h
  | fuel + 1, ss, h => by
    have ih := alternation_all hb hP fuel
    rcases alternation_cases T fuel ss with ⟨s, rfl, e⟩ | e
    · rw [e]
      exact h s (by simp)
    · rw [e]
      have k1 := (altSubs_keep hP h).1
      have key : ∀ t ∈ factored T fuel (ss.flatMap altSubs), P t := by
        rw [factored]
        split
        · exact k1
        · have k2 := round1_all hP ih _ [] [] false k1 (by simp) (by simp)
          have k3 := round2_all hP ih _ [] none k2 (by simp) (by simp)
          have k4 := (round3_keep hb hP _ [] k3 (by simp)).1
          exact (round4_keep (orbit := T.orbit) k4).1
      unfold oneOr
      split
      · rename_i s e'
        exact key s (by rw [e']; simp)
      · exact (hP.alt _).2 key

/-- All expressions on the stack have the property. -/
def OnStack (P : Syn → Prop) (st : Stack) : Prop := ∀ s, Item.re s ∈ st → P s

theorem onStack_nil : OnStack P [] := by simp [OnStack]

theorem onStack_re {s : Syn} {st : Stack} : OnStack P (.re s :: st) ↔ P s ∧ OnStack P st := by
  simp [OnStack]

theorem onStack_bar {st : Stack} : OnStack P (.bar :: st) ↔ OnStack P st := by
  simp [OnStack]

theorem onStack_paren {fl : PFlags} {cap : Option (Nat × Bytes)} {st : Stack} : OnStack P (.paren fl cap :: st) ↔ OnStack P st := by
  simp [OnStack]

theorem onStack_maybeConcat (hP : KeepsOne P) {st : Stack} (h : OnStack P st) : OnStack P (maybeConcat st) := by
  unfold maybeConcat
  split
  · rename_i r1 f1 r2 f2 st
    split
    · rename_i hf
      subst hf
      rw [onStack_re, onStack_re] at h
      exact onStack_re.2 ⟨(hP.lits _ _ _).2 ⟨h.2.1, h.1⟩, h.2.2⟩
    · exact h
  · exact h

theorem onStack_push (hA : KeepsAll T P) {s : Syn} {st : Stack} (hs : P s) (h : OnStack P st) : OnStack P (push T s st) := by
  rw [push, onStack_re]
  exact ⟨asLiteral_keeps hA hs, onStack_maybeConcat hA.toKeepsOne h⟩

theorem onStack_pop : ∀ {st : Stack} {acc : List Syn}, OnStack P st → (∀ s ∈ acc, P s) →
    (∀ s ∈ (popExprs st acc).1, P s) ∧ OnStack P (popExprs st acc).2
  | [], acc, h, ha => ⟨ha, h⟩
  | .bar :: st, acc, h, ha => ⟨ha, h⟩
  | .paren _ _ :: st, acc, h, ha => ⟨ha, h⟩
  | .re s :: st, acc, h, ha => by
    rw [onStack_re] at h
    rw [popExprs]
    exact onStack_pop h.2 (fun x hx => (List.mem_cons.1 hx).elim (fun e => e ▸ h.1) (ha x))

theorem onStack_concatTop (hA : KeepsAll T P) {st : Stack} (h : OnStack P st) : OnStack P (concatTop T st) := by
  rw [concatTop]
  obtain ⟨h1, h2⟩ := onStack_pop (acc := []) (onStack_maybeConcat hA.toKeepsOne h) (by simp)
  refine onStack_push hA ?_ h2
  split
  · exact hA.empty
  · exact (collapseConcat_good (T := T) hA.toKeepsOne h1).1

theorem cleanLast_all (hP : KeepsOne P) : ∀ {ss : List Syn}, (∀ s ∈ ss, P s) → ∀ s ∈ cleanLast ss, P s
  | [], h => h
  | [s], h => by
    intro x hx
    rw [cleanLast, List.mem_singleton] at hx
    subst hx
    exact (cleanAlt_keep (T := ⟨fun _ => [], fun _ => none, true⟩) hP (h s (by simp))).1
  | s :: b :: t, h => by
    intro x hx
    rw [cleanLast] at hx
    · rcases List.mem_cons.1 hx with rfl | hx
      · exact h x (by simp)
      · exact cleanLast_all hP (fun y hy => h y (List.mem_cons_of_mem _ hy)) x hx
    · simp

theorem onStack_alternateTop (hb : FoldBounds T.orbit) (hA : KeepsAll T P) (hP : Keeps T P) {st : Stack} (h : OnStack P st) :
    OnStack P (alternateTop T st) := by
  rw [alternateTop]
  obtain ⟨h1, h2⟩ := onStack_pop (acc := []) h (by simp)
  refine onStack_push hA ?_ h2
  split
  · exact hA.none
  · exact alternation_all hb hP _ _ (cleanLast_all hA.toKeepsOne h1)

theorem onStack_swap (hP : Keeps T P) {st st' : Stack} (h : OnStack P st) (e : swapVerticalBar T st = some st') : OnStack P st' := by
  unfold swapVerticalBar at e
  split at e
  · rename_i r1 r3 st
    rw [onStack_re, onStack_bar, onStack_re] at h
    split at e
    · rename_i hc
      rw [Bool.and_eq_true] at hc
      cases e
      rw [onStack_bar, onStack_re]
      refine ⟨?_, h.2.2⟩
      split
      · exact hP.merge _ _ hc.1 hc.2 (by omega) h.1 h.2.1
      · exact hP.merge _ _ hc.2 hc.1 (by omega) h.2.1 h.1
    · cases e
      rw [onStack_bar, onStack_re, onStack_re]
      exact ⟨h.1, (cleanAlt_keep (T := T) hP.toKeepsOne h.2.1).1, h.2.2⟩
  · cases e
    rw [onStack_re, onStack_bar] at h
    rw [onStack_bar, onStack_re]
    exact h
  · cases e

theorem onStack_verticalBar (hA : KeepsAll T P) (hP : Keeps T P) {st : Stack} (h : OnStack P st) : OnStack P (verticalBar T st) := by
  rw [verticalBar]
  have h1 := onStack_concatTop hA h
  cases e : swapVerticalBar T (concatTop T st) with
  | none => exact onStack_bar.2 (onStack_maybeConcat hA.toKeepsOne h1)
  | some st' => exact onStack_swap hP h1 e

theorem onStack_closeGroup (hb : FoldBounds T.orbit) (hA : KeepsAll T P) (hP : Keeps T P) {st : Stack} (h : OnStack P st) :
    OnStack P (closeGroup T st) := by
  rw [closeGroup]
  have h1 := onStack_concatTop hA h
  refine onStack_alternateTop hb hA hP ?_
  cases e : swapVerticalBar T (concatTop T st) with
  | none => exact h1
  | some st' => exact fun s hs => onStack_swap hP h1 e s (List.mem_of_mem_tail hs)

theorem onStack_rightParen (hb : FoldBounds T.orbit) (hA : KeepsAll T P) (hP : Keeps T P) (hcap : ∀ n name s, P s → P (.capture n name s))
    {st st' : Stack} {fl : PFlags} (h : OnStack P st) (e : rightParen T st = .ok (fl, st')) : OnStack P st' := by
  unfold rightParen at e
  have h1 := onStack_closeGroup hb hA hP h
  split at e
  · rename_i s fl' cap rest he
    rw [he, onStack_re, onStack_paren] at h1
    simp only [Except.ok.injEq, Prod.mk.injEq] at e
    obtain ⟨-, rfl⟩ := e
    split
    · exact onStack_push hA h1.1 h1.2
    · exact onStack_push hA (hcap _ _ _ h1.1) h1.2
  · cases e

/-! ## Nothing goes wrong inside, and every step advances -/

/-- A result is no internal error, and if it is no error then it is right. -/
def Sound {α : Type} (Q : α → Prop) (x : Except PErr α) : Prop :=
  (∀ e, x = .error e → e ≠ .internal) ∧ ∀ a, x = .ok a → Q a

theorem Sound.err {α : Type} {Q : α → Prop} {e : PErr} (h : e ≠ .internal) : Sound Q (.error e) :=
  ⟨fun e' he => (by cases he; exact h), fun a ha => (by cases ha)⟩

theorem Sound.ok {α : Type} {Q : α → Prop} {a : α} (h : Q a) : Sound Q (.ok a) :=
  ⟨fun e he => (by cases he), fun b hb => (by cases hb; exact h)⟩

theorem Sound.ite {α : Type} {Q : α → Prop} {c : Prop} [Decidable c] {x y : Except PErr α} (h : c → Sound Q x) (h' : ¬ c → Sound Q y) :
    Sound Q (if c then x else y) := by
  split
  · exact h ‹_›
  · exact h' ‹_›

theorem Sound.err_of {α β : Type} {Q : α → Prop} {R : β → Prop} {x : Except PErr α} {e : PErr} (h : Sound Q x) (he : x = .error e) :
    Sound R (.error e) := Sound.err (h.1 e he)

theorem nextRune_sound (s : Bytes) : Sound (fun x : Rune × Bytes => s ≠ [] → x.2.length < s.length ∧ x.1 ≤ maxRune) (nextRune s) := by
  refine ⟨fun e he => ?_, fun a ha hs => ?_⟩
  · unfold nextRune at he
    simp only at he
    split at he
    · cases he; decide
    · cases he
  · obtain ⟨r, t⟩ := a
    obtain ⟨h1, h2⟩ := nextRune_back hs ha
    refine ⟨?_, Ui.valid_le h1⟩
    have : 0 < (encodeRaw r).length := by
      unfold encodeRaw
      repeat' split
      all_goals simp
    rw [h2, List.length_append]
    simp only
    omega

theorem bracedHex_sound : ∀ (fuel : Nat) (t : Bytes) (n : Nat) (r : Rune), Sound (fun _ => True) (bracedHex fuel t n r)
  | 0, _, _, _ => Sound.err (by decide)
  | fuel + 1, t, n, r => by
    rw [bracedHex]
    split
    · exact Sound.err (by decide)
    split
    · rename_i e he
      exact (nextRune_sound t).err_of he
    split
    · split
      · exact Sound.err (by decide)
      · exact Sound.ok trivial
    split
    · exact Sound.err (by decide)
    split
    · exact Sound.err (by decide)
    · exact bracedHex_sound fuel _ _ _

theorem parseEscape_noInternal (t : Bytes) : Sound (fun _ => True) (parseEscape t) := by
  unfold parseEscape
  split
  · exact Sound.err (by decide)
  split
  · rename_i e he
    exact (nextRune_sound t).err_of he
  split
  · split
    · split
      · exact Sound.ok trivial
      · exact Sound.err (by decide)
    · exact Sound.err (by decide)
  split
  · exact Sound.ok trivial
  split
  · split
    · exact Sound.err (by decide)
    split
    · rename_i e he
      exact (nextRune_sound _).err_of he
    split
    · exact bracedHex_sound _ _ _ _
    split
    · rename_i e he
      exact (nextRune_sound _).err_of he
    split
    · exact Sound.ok trivial
    · exact Sound.err (by decide)
  repeat' split
  all_goals first
    | exact Sound.ok trivial
    | exact Sound.err (by decide)

theorem written_ne_nil (w : Written) : w.text ≠ [] := by
  cases w with
  | plain r =>
    rw [Written.text]
    unfold encodeRaw
    repeat' split
    all_goals simp
  | _ => simp [Written.text]

theorem length_back {s u rest : Bytes} (h : s = u ++ rest) (hu : u ≠ []) : rest.length < s.length := by
  subst h
  have := List.length_pos_iff.2 hu
  rw [List.length_append]
  omega

theorem parseEscape_sound (t : Bytes) : Sound (fun x : Rune × Bytes => x.2.length ≤ t.length ∧ x.1 ≤ maxRune) (parseEscape t) := by
  refine ⟨(parseEscape_noInternal t).1, ?_⟩
  rintro ⟨c, rest⟩ h
  obtain ⟨w, -, w2, w3, w4⟩ := parseEscape_back h
  have := length_back w3 (written_ne_nil w)
  rw [List.length_cons] at this
  exact ⟨by simp only; omega, by rw [← w4]; exact written_le w2⟩

theorem parseClassChar_sound (s : Bytes) : Sound (fun x : Rune × Bytes => x.2.length < s.length ∧ x.1 ≤ maxRune) (parseClassChar s) := by
  refine ⟨?_, ?_⟩
  · intro e he
    unfold parseClassChar at he
    split at he
    · cases he; decide
    · exact (parseEscape_noInternal _).1 e he
    · exact (nextRune_sound _).1 e he
  · rintro ⟨c, rest⟩ h
    obtain ⟨w, w2, w3, w4, -⟩ := parseClassChar_back h
    exact ⟨length_back w3 (written_ne_nil w), by rw [← w4]; exact written_le w2⟩

theorem parseRange_noInternal (fold : Bool) (r : Ranges) (s : Bytes) : Sound (fun _ => True) (parseRange T fold r s) := by
  unfold parseRange
  simp only
  split
  · rename_i e he
    exact (parseClassChar_sound s).err_of he
  · split
    · exact Sound.ok trivial
    split
    · rename_i e he
      exact (parseClassChar_sound _).err_of he
    · split
      · exact Sound.err (by decide)
      · exact Sound.ok trivial
  · exact Sound.ok trivial

theorem parseUnicodeClass_noInternal {fold : Bool} {r : Ranges} {s : Bytes} {x : Except PErr (Ranges × Bytes)}
    (h : parseUnicodeClass T fold r s = some x) : Sound (fun _ => True) x := by
  unfold parseUnicodeClass at h
  split at h
  · split at h
    · split at h
      · rename_i e he
        cases h
        exact (nextRune_sound _).err_of he
      · simp only at h
        split at h
        · cases h; exact Sound.err (by decide)
        split at h
        · split at h
          · cases h; exact Sound.err (by decide)
          · cases h; exact Sound.ok trivial
        · cases h; exact Sound.err (by decide)
    · cases h
  · cases h

theorem parseNamedClass_noInternal {fold : Bool} {r : Ranges} {s : Bytes} {x : Except PErr (Ranges × Bytes)}
    (h : parseNamedClass T fold r s = some x) : Sound (fun _ => True) x := by
  unfold parseNamedClass at h
  split at h
  · split at h
    · cases h
    · split at h
      · cases h; exact Sound.err (by decide)
      · cases h; exact Sound.ok trivial
  · cases h

theorem member_ne_nil (m : Member) {first : Bool} {rest : Bytes} (h : m.Ok uni first rest) : m.text ≠ [] := by
  cases m with
  | named n =>
    cases n <;> simp [Member.text, Named.text]
  | posix neg name => simp [Member.text]
  | one c => simpa [Member.text] using written_ne_nil c
  | range a b => simp [Member.text]

theorem parseClassItem_sound (hn : NamesOnly T uni) (fold : Bool) (r : Ranges) (s : Bytes) :
    Sound (fun x : Ranges × Bytes => x.2.length < s.length) (parseClassItem T fold r s) := by
  refine ⟨?_, ?_⟩
  · intro e he
    unfold parseClassItem at he
    split at he
    · rename_i x hx
      exact (parseNamedClass_noInternal hx).1 e he
    split at he
    · rename_i x hx
      exact (parseUnicodeClass_noInternal hx).1 e he
    split at he
    · cases he
    · exact (parseRange_noInternal _ _ _).1 e he
  · rintro ⟨r', rest⟩ h
    obtain ⟨c, c1, c2⟩ := item_back hn (first := true) (fun _ => rfl) h
    exact length_back c2 (member_ne_nil c c1)

theorem parseClassLoop_noInternal (hn : NamesOnly T uni) (fold : Bool) : ∀ (fuel : Nat) (first : Bool) (r : Ranges) (s : Bytes), s.length < fuel →
    Sound (fun _ => True) (parseClassLoop T fold fuel first r s)
  | 0, _, _, _, h => absurd h (Nat.not_lt_zero _)
  | fuel + 1, first, r, s, h => by
    rw [parseClassLoop]
    split
    · exact Sound.ok trivial
    split
    · rename_i e he
      exact (parseClassItem_sound hn fold r s).err_of he
    · rename_i r' s' he
      have := (parseClassItem_sound hn fold r s).2 _ he
      simp only at this
      exact parseClassLoop_noInternal hn fold fuel false r' s' (by omega)

theorem parseClass_sound (hb : FoldBounds T.orbit) (hn : NamesOnly T uni) (hd : Describes T uni) (fold : Bool) (s : Bytes) :
    Sound (fun x : Syn × Bytes => x.2.length ≤ s.length ∧ ∃ r, x.1 = .charClass r ∧ ROk r) (parseClass T fold s) := by
  refine ⟨?_, ?_⟩
  · intro e he
    unfold parseClass at he
    split at he
    · rename_i e' he'
      cases he
      exact (parseClassLoop_noInternal hn fold _ _ _ _ (Nat.lt_succ_self _)).1 _ he'
    · cases he
  · rintro ⟨x, rest⟩ h
    obtain ⟨neg, ms, ⟨h1, h2, h3⟩, h4⟩ := class_back hn h
    have hlen := length_back h4 (by simp [Atom.text])
    rw [List.length_cons] at hlen
    refine ⟨by simp only; omega, ?_⟩
    obtain ⟨r, r1, r2, -⟩ := class_read hb hd (fold := fold) (next := rest) h1 h2 h3
    have e : s = (if neg then [94] else []) ++ membersText ms ++ 93 :: rest := by
      have : 91 :: s = 91 :: ((if neg then [94] else []) ++ membersText ms ++ 93 :: rest) := by
        rw [h4]; simp [Atom.text]
      exact (List.cons.inj this).2
    rw [← e, h] at r1
    cases r1
    exact ⟨r, rfl, r2.1⟩

theorem named_sound (hb : FoldBounds T.orbit) (hd : Describes T uni) {fold : Bool} {r : Ranges} {s rest : Bytes} {n : Named} (hn : n.Ok uni)
    (e : s = n.text ++ rest) (h : ReadsNamed T fold [] s r rest) : rest.length < s.length ∧ ROk r := by
  refine ⟨length_back e (by cases n <;> simp [Named.text]), ?_⟩
  obtain ⟨r', h1, h2, -⟩ := named_read hb hd hn (fold := fold) ROk_nil rest
  rw [← e] at h1
  have : r' = r := by
    rcases h with h | ⟨h, h'⟩ <;> rcases h1 with h1 | ⟨h1, h1'⟩
    · rw [h] at h1; cases h1; rfl
    · rw [h] at h1; cases h1
    · rw [h] at h1; cases h1
    · rw [h'] at h1'; cases h1'; rfl
  rw [← this]
  exact h2.1

/-- What the trees that any text gives have: their code points are at most U+10FFFF. -/
abbrev Coded : Syn → Prop := Made True anyL anyC

theorem coded_all (hc : FoldCycles T.orbit) : KeepsAll T Coded := (made_keeper hc (marks_any _)).toKeepsAll

theorem coded_keeps (hc : FoldCycles T.orbit) : Keeps T Coded where
  toKeepsOne := (coded_all hc).toKeepsOne
  alt ss := by rw [Coded, Made, madeAll_iff]
  merge _ _ ha hb hr h1 h2 := made_merge hc (marks_any _) ha hb hr h1 h2

theorem coded_class {r : Ranges} (h : ROk r) : Coded (.charClass r) := by rw [Coded, Made]; exact ⟨h, trivial⟩

/-- A state all of whose expressions are of code points. -/
abbrev StateOk (st : PState) : Prop := OnStack Coded st.stack

theorem ok_put (hc : FoldCycles T.orbit) {st : PState} {s : Syn} (h : StateOk st) (hs : Coded s) : StateOk (st.put T s) :=
  onStack_push (coded_all hc) hs h

theorem ok_pushLiteral (hc : FoldCycles T.orbit) {fl : PFlags} {st : Stack} {c : Rune} (h : OnStack Coded st) (hc' : c ≤ maxRune) :
    OnStack Coded (pushLiteral T fl c st) := by
  refine onStack_push (coded_all hc) ?_ h
  simp only [Coded, Made, List.mem_singleton, forall_eq]
  refine ⟨?_, trivial⟩
  split
  · exact Nat.le_trans (minFoldRune_le _ _) hc'
  · exact hc'

theorem ok_char (hc : FoldCycles T.orbit) {st : PState} {c : Rune} (h : StateOk st) (hc' : c ≤ maxRune) : StateOk (st.char T c) :=
  ok_pushLiteral hc h hc'

theorem pushQuote_sound (hc : FoldCycles T.orbit) {fl : PFlags} : ∀ (n : Nat) (s : Bytes) (st : Stack), s.length ≤ n → OnStack Coded st →
    Sound (OnStack Coded) (pushQuote T fl n s st)
  | n, [], st, _, h => by
    have : pushQuote T fl n [] st = .ok st := by cases n <;> rfl
    rw [this]
    exact Sound.ok h
  | 0, _ :: _, _, hl, _ => absurd hl (by simp)
  | n + 1, b :: s, st, hl, h => by
    rw [pushQuote]
    · split
      · rename_i e he
        exact (nextRune_sound _).err_of he
      · rename_i c t he
        obtain ⟨h1, h2⟩ := (nextRune_sound _).2 _ he (by simp)
        simp only at h1
        exact pushQuote_sound hc n t _ (by omega) (ok_pushLiteral hc h h2)
    · simp

/-- What a step of the parser does: it is no internal error, what is left is no longer, and the state stays one of code points. -/
abbrev StepOk (t : Bytes) (x : Except PErr (PState × Bytes)) : Prop :=
  Sound (fun x : PState × Bytes => x.2.length ≤ t.length ∧ StateOk x.1) x

theorem stepClass_sound (hc : FoldCycles T.orbit) (hn : NamesOnly T uni) (hd : Describes T uni) {st : PState} (h : StateOk st) (t : Bytes) :
    StepOk t (stepClass T st t) := by
  unfold stepClass
  split
  · rename_i e he
    exact Sound.err ((parseUnicodeClass_noInternal he).1 e rfl)
  · rename_i r rest he
    obtain ⟨n, n1, n2⟩ := unicode_back hn he
    obtain ⟨h1, h2⟩ := named_sound hc.bounds hd n1 n2 (.inl he)
    rw [List.length_cons] at h1
    exact Sound.ok ⟨by simp only; omega, ok_put hc h (coded_class h2)⟩
  · rename_i he0
    split
    · rename_i r rest he
      obtain ⟨n, n1, n2⟩ := perl_back (uni := uni) he
      obtain ⟨h1, h2⟩ := named_sound hc.bounds hd n1 n2 (.inr ⟨he0, he⟩)
      rw [List.length_cons] at h1
      exact Sound.ok ⟨by simp only; omega, ok_put hc h (coded_class h2)⟩
    · split
      · rename_i e he
        exact (parseEscape_sound t).err_of he
      · rename_i c rest he
        obtain ⟨h1, h2⟩ := (parseEscape_sound t).2 _ he
        exact Sound.ok ⟨h1, ok_char hc h h2⟩

theorem cutQuote_length (t : Bytes) : (cutQuote t).2.length ≤ t.length := by
  rcases (cutQuote_back t).2 with h | ⟨-, h⟩
  · conv => rhs; rw [h]
    simp only [List.length_append, List.length_cons]
    omega
  · rw [h]; simp

theorem stepEscape_sound (hc : FoldCycles T.orbit) (hn : NamesOnly T uni) (hd : Describes T uni) {st : PState} (h : StateOk st) (t : Bytes) :
    StepOk t (stepEscape T st t) := by
  have put : ∀ (s : Syn) (c : UInt8) (t' : Bytes), t = c :: t' → Coded s → StepOk t (.ok (st.put T s, t')) := by
    intro s c t' e hs
    subst e
    exact Sound.ok ⟨by simp, ok_put hc h hs⟩
  unfold stepEscape
  split
  · rename_i c t'
    split
    · exact put _ _ _ rfl (by simp [Coded, Made])
    split
    · exact put _ _ _ rfl (by simp [Coded, Made])
    split
    · exact put _ _ _ rfl (by simp [Coded, Made])
    split
    · exact Sound.err (by decide)
    split
    · split
      · rename_i e he
        exact (pushQuote_sound hc _ _ _ (Nat.le_refl _) h).err_of he
      · rename_i stack he
        refine Sound.ok ⟨?_, (pushQuote_sound hc _ _ _ (Nat.le_refl _) h).2 _ he⟩
        have := cutQuote_length t'
        simp only [List.length_cons]
        omega
    split
    · exact put _ _ _ rfl (by simp [Coded, Made])
    · exact stepClass_sound hc hn hd h _
  · exact stepClass_sound hc hn hd h _

theorem cutLazy_length (t : Bytes) : (cutLazy t).2.length ≤ t.length := by
  unfold cutLazy
  split <;> simp

theorem stepRepeat_sound {st : PState} (h : StateOk st) {node : Bool → Syn → Syn} (hnode : ∀ ng s, Coded s → Coded (node ng s))
    {counted : Bool} {after t : Bytes} (hl : after.length ≤ t.length) : StepOk t (stepRepeat st node counted after) := by
  unfold stepRepeat repeatTop
  split
  · rename_i e he
    refine Sound.err ?_
    split at he
    · cases he; decide
    · split at he
      · simp only at he
        split at he
        · cases he; decide
        · cases he
      · cases he; decide
  · rename_i after' stack he
    split at he
    · cases he
    · split at he
      · rename_i s st' hst
        simp only at he
        split at he
        · cases he
        · cases he
          have h' : OnStack Coded (.re s :: st') := by rw [← hst]; exact h
          rw [onStack_re] at h'
          refine Sound.ok ⟨Nat.le_trans (cutLazy_length _) hl, ?_⟩
          exact onStack_re.2 ⟨hnode _ _ h'.1, h'.2⟩
      · cases he

theorem cutAt_length {c : UInt8} {t name rest : Bytes} (h : cutAt c t = some (name, rest)) : rest.length ≤ t.length := by
  obtain ⟨h, -⟩ := cutAt_back h
  subst h
  simp only [List.length_append, List.length_cons]
  omega

theorem perlFlagsLoop_sound : ∀ (fuel : Nat) (t : Bytes) (fl : PFlags) (neg saw : Bool),
    Sound (fun x : PFlags × Bool × Bytes => x.2.2.length ≤ t.length) (perlFlagsLoop fuel t fl neg saw)
  | 0, _, _, _, _ => Sound.err (by decide)
  | fuel + 1, t, fl, neg, saw => by
    have wider : ∀ {t' : Bytes} (fl : PFlags) (neg saw : Bool), t'.length < t.length →
        Sound (fun x : PFlags × Bool × Bytes => x.2.2.length ≤ t.length) (perlFlagsLoop fuel t' fl neg saw) := by
      intro t' fl neg saw hl
      obtain ⟨h1, h2⟩ := perlFlagsLoop_sound fuel t' fl neg saw
      exact ⟨h1, fun a ha => by have := h2 a ha; omega⟩
    rw [perlFlagsLoop]
    split
    · exact Sound.err (by decide)
    · rename_i hne
      split
      · rename_i e he
        exact (nextRune_sound t).err_of he
      · rename_i c t' he
        have hl := ((nextRune_sound t).2 _ he hne).1
        simp only at hl
        split
        · exact wider _ _ _ hl
        split
        · exact wider _ _ _ hl
        split
        · exact wider _ _ _ hl
        split
        · exact wider _ _ _ hl
        split
        · split
          · exact Sound.err (by decide)
          · exact wider _ _ _ hl
        split
        · split
          · exact Sound.err (by decide)
          · exact Sound.ok (by simp only; omega)
        · exact Sound.err (by decide)

theorem stepOpen_sound (hc : FoldCycles T.orbit) {st : PState} (h : StateOk st) (t : Bytes) : StepOk t (stepOpen st t) := by
  have h1 : OnStack Coded (maybeConcat st.stack) := onStack_maybeConcat (coded_all hc).toKeepsOne h
  unfold stepOpen
  split
  · rename_i t'
    have key : StepOk t' (parsePerlFlags st t') := by
      unfold parsePerlFlags
      split
      · rename_i t''
        split
        · exact Sound.err (by decide)
        split
        · exact Sound.err (by decide)
        · rename_i name rest he
          split
          · have := cutAt_length he
            exact Sound.ok ⟨by simp only [List.length_cons]; omega, onStack_paren.2 h1⟩
          · exact Sound.err (by decide)
      · split
        · rename_i e he
          exact (perlFlagsLoop_sound _ _ _ _ _).err_of he
        · rename_i flags group rest he
          have := (perlFlagsLoop_sound _ _ _ _ _).2 _ he
          refine Sound.ok ⟨this, ?_⟩
          show OnStack Coded (if group then _ else _)
          split
          · exact onStack_paren.2 h1
          · exact h
    split
    · rename_i e he
      exact key.err_of he
    · rename_i st' rest he
      obtain ⟨k1, k2⟩ := key.2 _ he
      simp only at k1
      exact Sound.ok ⟨by simp only [List.length_cons]; omega, k2⟩
  · exact Sound.ok ⟨Nat.le_refl _, onStack_paren.2 h1⟩

theorem parseInt_length {s t : Bytes} {v : Option Nat} (h : parseInt s = some (v, t)) : t.length ≤ s.length := by
  unfold parseInt at h
  split at h
  · cases h
  · split at h
    · cases h
    split at h
    · cases h
    · simp only [Option.some.injEq, Prod.mk.injEq] at h
      rw [← h.2]
      exact (List.dropWhile_suffix _).length_le

theorem parseRepeat_length {s after : Bytes} {x : Option (Nat × Option Nat)} (h : parseRepeat s = some (x, after)) : after.length ≤ s.length := by
  unfold parseRepeat at h
  split at h
  · cases h
  · rename_i lo t he
    have := parseInt_length he
    cases h
    simp only [List.length_cons] at this; omega
  · rename_i lo t he
    have := parseInt_length he
    cases h
    simp only [List.length_cons] at this; omega
  · rename_i lo t _ he
    have h1 := parseInt_length he
    split at h
    · rename_i hi t' he'
      have h2 := parseInt_length he'
      cases h
      simp only [List.length_cons] at h1 h2; omega
    · cases h
  · cases h

theorem stepBrace_sound (hc : FoldCycles T.orbit) {st : PState} (h : StateOk st) (t : Bytes) : StepOk t (stepBrace T st t) := by
  unfold stepBrace
  split
  · exact Sound.ok ⟨Nat.le_refl _, ok_char hc h (by decide)⟩
  · exact Sound.err (by decide)
  · rename_i lo hi after he
    refine Sound.ite (fun _ => Sound.err (by decide)) (fun hb => ?_)
    refine stepRepeat_sound h ?_ (parseRepeat_length he)
    intro ng s hs
    rw [Coded, Made]
    refine ⟨?_, hs⟩
    rintro x rfl
    simp only [Bool.or_eq_true, decide_eq_true_eq] at hb
    omega

/-- Every step of the parser is right, whatever the text. -/
theorem step_sound (hc : FoldCycles T.orbit) (hn : NamesOnly T uni) (hd : Describes T uni) {st : PState} (h : StateOk st) (b : UInt8) (t : Bytes) :
    StepOk t (step T st b t) := by
  have put : ∀ (s : Syn), Coded s → StepOk t (.ok (st.put T s, t)) := fun s hs => Sound.ok ⟨Nat.le_refl _, ok_put hc h hs⟩
  rw [step]
  refine Sound.ite (fun _ => ?_) (fun _ => ?_)
  · exact stepOpen_sound hc h t
  refine Sound.ite (fun _ => ?_) (fun _ => ?_)
  · exact Sound.ok ⟨Nat.le_refl _, onStack_verticalBar (coded_all hc) (coded_keeps hc) h⟩
  refine Sound.ite (fun _ => ?_) (fun _ => ?_)
  · split
    · rename_i e he
      refine Sound.err ?_
      unfold rightParen at he
      split at he
      · cases he
      · cases he; decide
    · rename_i fl stack he
      exact Sound.ok ⟨Nat.le_refl _, onStack_rightParen hc.bounds (coded_all hc) (coded_keeps hc)
        (fun n name s hs => by rwa [Coded, Made]) h he⟩
  refine Sound.ite (fun _ => ?_) (fun _ => ?_)
  · refine put _ ?_
    split <;> simp [Coded, Made]
  refine Sound.ite (fun _ => ?_) (fun _ => ?_)
  · refine put _ ?_
    split <;> simp [Coded, Made]
  refine Sound.ite (fun _ => ?_) (fun _ => ?_)
  · refine put _ ?_
    split <;> simp [Coded, Made]
  refine Sound.ite (fun _ => ?_) (fun _ => ?_)
  · split
    · rename_i e he
      exact (parseClass_sound hc.bounds hn hd _ _).err_of he
    · rename_i s rest he
      obtain ⟨h1, r, rfl, h3⟩ := (parseClass_sound hc.bounds hn hd _ _).2 _ he
      exact Sound.ok ⟨h1, ok_put hc h (coded_class h3)⟩
  refine Sound.ite (fun _ => ?_) (fun _ => ?_)
  · exact stepRepeat_sound h (fun ng s hs => by rwa [Coded, Made]) (Nat.le_refl _)
  refine Sound.ite (fun _ => ?_) (fun _ => ?_)
  · exact stepRepeat_sound h (fun ng s hs => by rwa [Coded, Made]) (Nat.le_refl _)
  refine Sound.ite (fun _ => ?_) (fun _ => ?_)
  · exact stepRepeat_sound h (fun ng s hs => by rwa [Coded, Made]) (Nat.le_refl _)
  refine Sound.ite (fun _ => ?_) (fun _ => ?_)
  · exact stepBrace_sound hc h t
  refine Sound.ite (fun _ => ?_) (fun _ => ?_)
  · exact stepEscape_sound hc hn hd h t
  split
  · rename_i e he
    exact (nextRune_sound _).err_of he
  · rename_i c rest he
    obtain ⟨h1, h2⟩ := (nextRune_sound _).2 _ he (by simp)
    simp only [List.length_cons] at h1
    exact Sound.ok ⟨by simp only; omega, ok_char hc h h2⟩

theorem parseLoop_sound (hc : FoldCycles T.orbit) (hn : NamesOnly T uni) (hd : Describes T uni) : ∀ (fuel : Nat) (st : PState) (t : Bytes),
    t.length ≤ fuel → StateOk st → Sound StateOk (parseLoop T fuel st t)
  | fuel, st, [], _, h => by
    have : parseLoop T fuel st [] = .ok st := by cases fuel <;> rfl
    rw [this]
    exact Sound.ok h
  | 0, _, _ :: _, hl, _ => absurd hl (by simp)
  | fuel + 1, st, b :: t, hl, h => by
    rw [parseLoop]
    split
    · rename_i e he
      exact (step_sound hc hn hd h b t).err_of he
    · rename_i st' t' he
      obtain ⟨h1, h2⟩ := (step_sound hc hn hd h b t).2 _ he
      simp only [List.length_cons] at hl h1
      exact parseLoop_sound hc hn hd fuel st' t' (by omega) h2

/-- The parser gives a tree of code points, or says what is wrong with the text. -/
theorem parse_sound (hc : FoldCycles T.orbit) (hn : NamesOnly T uni) (hd : Describes T uni) (text : Bytes) : Sound Coded (parse T text) := by
  have h0 := parseLoop_sound hc hn hd text.length { flags := perlFlags0 } text (Nat.le_refl _) onStack_nil
  unfold parse
  split
  · rename_i e he
    exact h0.err_of he
  · rename_i st he
    have h1 := onStack_closeGroup hc.bounds (coded_all hc) (coded_keeps hc) (h0.2 _ he)
    split
    · rename_i s hs
      rw [hs, onStack_re] at h1
      exact Sound.ok h1.1
    · exact Sound.err (by decide)

end Hound.GoRe
