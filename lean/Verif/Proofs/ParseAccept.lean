import Verif.Proofs.ParseBack

/-!
# What Go's parser accepts is properly written: the loop
-/

namespace Hound.GoRe
open Hound.Spec Hound.Spec.Pat

variable {T : Tables} {uni : Bytes → Option (Rune → Prop)}

/-! ## Flags, numbers, quotes -/

theorem flags_neg_back : ∀ (fuel : Nat) {t rest : Bytes} {fl flags : PFlags} {saw group : Bool},
    perlFlagsLoop fuel t fl true saw = .ok (flags, group, rest) →
    ∃ cs e, (∀ c ∈ cs, c ∈ b!"imsU") ∧ t = cs ++ e :: rest ∧ (e = 58 ∨ e = 41) ∧ group = (e == 58) ∧ (saw = true ∨ cs ≠ [])
  | 0, t, rest, fl, flags, saw, group, h => by simp [perlFlagsLoop] at h
  | fuel + 1, t, rest, fl, flags, saw, group, h => by
    rw [perlFlagsLoop] at h
    split at h
    · simp at h
    rename_i ht
    split at h
    · simp at h
    rename_i c t1 e
    have go : ∀ d : UInt8, c = d.toNat → d < 128 → d ∈ b!"imsU" → (∃ fl', perlFlagsLoop fuel t1 fl' true true = .ok (flags, group, rest)) →
        ∃ cs e, (∀ c ∈ cs, c ∈ b!"imsU") ∧ t = cs ++ e :: rest ∧ (e = 58 ∨ e = 41) ∧ group = (e == 58) ∧ (saw = true ∨ cs ≠ []) := by
      rintro d hd hl hm ⟨fl', h⟩
      obtain ⟨d', -, hd', rfl⟩ := nextRune_byte ht e (by rw [hd]; exact hl)
      have : d' = d := UInt8.toNat_inj.1 (by rw [hd', hd])
      subst this
      obtain ⟨cs, e, g1, g2, g3, g4, -⟩ := flags_neg_back fuel h
      refine ⟨d' :: cs, e, ?_, by rw [g2]; rfl, g3, g4, .inr (by simp)⟩
      intro c hc
      rcases List.mem_cons.1 hc with rfl | hc
      · exact hm
      · exact g1 c hc
    split at h
    · rename_i hc; exact go 105 hc (by decide) (by decide) ⟨_, h⟩
    split at h
    · rename_i hc; exact go 109 hc (by decide) (by decide) ⟨_, h⟩
    split at h
    · rename_i hc; exact go 115 hc (by decide) (by decide) ⟨_, h⟩
    split at h
    · rename_i hc; exact go 85 hc (by decide) (by decide) ⟨_, h⟩
    split at h
    · simp at h
    split at h
    · rename_i hc
      split at h
      · simp at h
      · rename_i hs
        simp only [if_true, Except.ok.injEq, Prod.mk.injEq] at h
        obtain ⟨-, h2, rfl⟩ := h
        obtain ⟨d, -, rfl, rfl⟩ := nextRune_byte ht e (by rcases hc with rfl | rfl <;> decide)
        refine ⟨[], d, by simp, rfl, ?_, ?_, .inl ?_⟩
        · rcases hc with hc | hc
          · exact .inl (UInt8.toNat_inj.1 hc)
          · exact .inr (UInt8.toNat_inj.1 hc)
        · rw [← h2]
          rcases hc with hc | hc
          · have : d = 58 := UInt8.toNat_inj.1 hc
            subst this; rfl
          · have : d = 41 := UInt8.toNat_inj.1 hc
            subst this; rfl
        · simpa using hs
    · simp at h

theorem flags_back : ∀ (fuel : Nat) {t rest : Bytes} {fl flags : PFlags} {saw group : Bool},
    perlFlagsLoop fuel t fl false saw = .ok (flags, group, rest) →
    ∃ (f : Flags) (e : UInt8), f.Ok ∧ t = f.text ++ e :: rest ∧ (e = 58 ∨ e = 41) ∧ group = (e == 58)
  | 0, t, rest, fl, flags, saw, group, h => by simp [perlFlagsLoop] at h
  | fuel + 1, t, rest, fl, flags, saw, group, h => by
    rw [perlFlagsLoop] at h
    split at h
    · simp at h
    rename_i ht
    split at h
    · simp at h
    rename_i c t1 e
    have go : ∀ d : UInt8, c = d.toNat → d < 128 → d ∈ b!"imsU" → (∃ fl', perlFlagsLoop fuel t1 fl' false true = .ok (flags, group, rest)) →
        ∃ (f : Flags) (e : UInt8), f.Ok ∧ t = f.text ++ e :: rest ∧ (e = 58 ∨ e = 41) ∧ group = (e == 58) := by
      rintro d hd hl hm ⟨fl', h⟩
      obtain ⟨d', -, hd', rfl⟩ := nextRune_byte ht e (by rw [hd]; exact hl)
      have : d' = d := UInt8.toNat_inj.1 (by rw [hd', hd])
      subst this
      obtain ⟨f, e, g1, g2, g3, g4⟩ := flags_back fuel h
      refine ⟨⟨d' :: f.on, f.off⟩, e, ⟨?_, g1.2⟩, by rw [g2]; rfl, g3, g4⟩
      intro c hc
      rcases List.mem_cons.1 hc with rfl | hc
      · exact hm
      · exact g1.1 c hc
    split at h
    · rename_i hc; exact go 105 hc (by decide) (by decide) ⟨_, h⟩
    split at h
    · rename_i hc; exact go 109 hc (by decide) (by decide) ⟨_, h⟩
    split at h
    · rename_i hc; exact go 115 hc (by decide) (by decide) ⟨_, h⟩
    split at h
    · rename_i hc; exact go 85 hc (by decide) (by decide) ⟨_, h⟩
    split at h
    · rename_i hc
      simp only [Bool.false_eq_true, if_false] at h
      subst hc
      obtain ⟨d, -, hd, rfl⟩ := nextRune_byte ht e (by decide)
      have : d = 45 := UInt8.toNat_inj.1 hd
      subst this
      obtain ⟨cs, e, g1, g2, g3, g4, g5⟩ := flags_neg_back fuel h
      refine ⟨⟨[], some cs⟩, e, ⟨by simp, ?_⟩, by rw [g2]; rfl, g3, g4⟩
      rintro o ho
      cases ho
      exact ⟨g5.resolve_left (by decide), g1⟩
    split at h
    · rename_i hc
      simp only [Bool.false_and, Bool.false_eq_true, if_false, Except.ok.injEq, Prod.mk.injEq] at h
      obtain ⟨-, h2, rfl⟩ := h
      obtain ⟨d, -, rfl, rfl⟩ := nextRune_byte ht e (by rcases hc with rfl | rfl <;> decide)
      refine ⟨⟨[], none⟩, d, ⟨by simp, by simp⟩, rfl, ?_, ?_⟩
      · rcases hc with hc | hc
        · exact .inl (UInt8.toNat_inj.1 hc)
        · exact .inr (UInt8.toNat_inj.1 hc)
      · rw [← h2]
        rcases hc with hc | hc
        · have : d = 58 := UInt8.toNat_inj.1 hc
          subst this; rfl
        · have : d = 41 := UInt8.toNat_inj.1 hc
          subst this; rfl
    · simp at h

theorem fold_none : ∀ ds : Bytes,
    ds.foldl (fun n c => n.bind fun n => if n ≥ 100000000 then none else some (n * 10 + (c.toNat - 48))) (none : Option Nat) = none
  | [] => rfl
  | _ :: ds => fold_none ds

theorem value_back : ∀ (ds : Bytes) {n v : Nat}, (∀ c ∈ ds, Pat.isDigit c = true) →
    ds.foldl (fun n c => n.bind fun n => if n ≥ 100000000 then none else some (n * 10 + (c.toNat - 48))) (some n) = some v →
    numeralFrom 10 n ds = v
  | [], n, v, _, h => by simpa [numeralFrom] using h
  | c :: ds, n, v, hd, h => by
    simp only [List.foldl_cons, Option.bind_some] at h
    split at h
    · rw [fold_none] at h
      simp at h
    · rw [dec_digit (hd c (by simp))] at h
      exact value_back ds (fun c hc => hd c (List.mem_cons_of_mem _ hc)) h

theorem parseInt_back {s : Bytes} {v : Nat} {t : Bytes} (h : parseInt s = some (some v, t)) : ∃ n, Decimal n ∧ s = n ++ t ∧ numeral 10 n = v := by
  obtain ⟨n, h1, h2⟩ := parseInt_some h
  subst h2
  refine ⟨n, h1, rfl, ?_⟩
  cases n with
  | nil => exact absurd rfl h1.1
  | cons c n =>
    rw [List.cons_append, parseInt] at h
    split at h
    · simp at h
    · split at h
      · simp at h
      · simp only [Option.some.injEq, Prod.mk.injEq] at h
        obtain ⟨h3, h4⟩ := h
        have e1 : (c :: (n ++ t)).takeWhile isDec ++ t = c :: (n ++ t) := by
          conv => rhs; rw [← List.takeWhile_append_dropWhile (p := isDec) (l := c :: (n ++ t)), h4]
        have e2 : (c :: (n ++ t)).takeWhile isDec = c :: n := by
          rw [← List.cons_append] at e1
          exact List.append_cancel_right e1
        rw [e2] at h3
        exact value_back _ h1.2.1 h3

theorem parseInt_decimal {n : Bytes} (hd : Decimal n) {c : UInt8} (hc : isDec c = false) (t : Bytes) :
    ∃ v, parseInt (n ++ c :: t) = some (v, c :: t) := by
  obtain ⟨h1, h2, h3⟩ := hd
  have h2' : ∀ d ∈ n, isDec d = true := h2
  cases n with
  | nil => exact absurd rfl h1
  | cons d ds =>
    obtain ⟨t1, t2⟩ := takeWhile_digits (c := c) t h2' hc
    have hd := h2' d (by simp)
    rw [List.cons_append] at t1 t2 ⊢
    rw [parseInt]
    rw [if_neg (by simp [hd])]
    rw [if_neg]
    · simp only [t2]
      exact ⟨_, rfl⟩
    · rintro ⟨rfl, hx⟩
      have hl := h3 rfl
      have : ds = [] := by simpa using hl
      subst this
      simp [hc] at hx

theorem notCounted_back {s : Bytes} (h : parseRepeat s = none) : ¬ LooksCounted s := by
  rintro ⟨n, rest, hn, hs⟩
  unfold parseRepeat at h
  rcases hs with rfl | rfl | ⟨m, hm, rfl⟩
  · obtain ⟨v, e⟩ := parseInt_decimal hn (c := 125) (by decide) rest
    rw [e] at h
    simp at h
  · obtain ⟨v, e⟩ := parseInt_decimal hn (c := 44) (by decide) (125 :: rest)
    rw [e] at h
    simp at h
  · obtain ⟨v, e⟩ := parseInt_decimal hn (c := 44) (by decide) (m ++ 125 :: rest)
    obtain ⟨v', e'⟩ := parseInt_decimal hm (c := 125) (by decide) rest
    rw [e] at h
    split at h
    · rename_i e1; simp at e1
    · rename_i e1; simp at e1
    · simp at h
    · rename_i e1
      simp only [Option.some.injEq, Prod.mk.injEq, List.cons.injEq, true_and] at e1
      obtain ⟨-, rfl⟩ := e1
      rw [e'] at h
      simp at h
    · rename_i hne e1
      simp only [Option.some.injEq] at e1
      subst e1
      exact hne _ _ rfl

theorem parseRepeat_back {s : Bytes} {lo : Nat} {hi : Option Nat} {after : Bytes} (h : parseRepeat s = some (some (lo, hi), after))
    (hlo : lo ≤ 1000) (hhi : ∀ x, hi = some x → x ≤ 1000 ∧ lo ≤ x) : ∃ t : Times, Counted t ∧ t.Ok ∧ 123 :: s = t.text ++ after := by
  unfold parseRepeat at h
  split at h
  · simp at h
  · rename_i v t e
    cases v with
    | none => simp at h
    | some v =>
      simp only [Option.map_some, Option.some.injEq, Prod.mk.injEq] at h
      obtain ⟨⟨rfl, -⟩, rfl⟩ := h
      obtain ⟨n, h1, rfl, rfl⟩ := parseInt_back e
      exact ⟨.exactly n, trivial, ⟨h1, hlo⟩, by simp [Times.text]⟩
  · rename_i v t e
    cases v with
    | none => simp at h
    | some v =>
      simp only [Option.map_some, Option.some.injEq, Prod.mk.injEq] at h
      obtain ⟨⟨rfl, -⟩, rfl⟩ := h
      obtain ⟨n, h1, rfl, rfl⟩ := parseInt_back e
      exact ⟨.atLeast n, trivial, ⟨h1, hlo⟩, by simp [Times.text]⟩
  · rename_i v t hne e
    split at h
    · rename_i v' t' e'
      cases v with
      | none => simp at h
      | some v =>
        cases v' with
        | none => simp at h
        | some v' =>
          simp only [Option.bind_some, Option.map_some, Option.some.injEq, Prod.mk.injEq] at h
          obtain ⟨⟨rfl, rfl⟩, rfl⟩ := h
          obtain ⟨n, h1, rfl, rfl⟩ := parseInt_back e
          obtain ⟨m, h2, rfl, rfl⟩ := parseInt_back e'
          obtain ⟨h3, h4⟩ := hhi _ rfl
          exact ⟨.between n m, trivial, ⟨h1, h2, h4, h3⟩, by simp [Times.text]⟩
    · simp at h
  · simp at h

theorem cutLazy_back (t : Bytes) : t = (if (cutLazy t).1 then [63] else []) ++ (cutLazy t).2 := by
  unfold cutLazy
  split <;> simp

theorem cutQuote_back : ∀ (t : Bytes), ¬ [92, 69] <:+: (cutQuote t).1 ∧
    (t = (cutQuote t).1 ++ 92 :: 69 :: (cutQuote t).2 ∨ (t = (cutQuote t).1 ∧ (cutQuote t).2 = [])) := by
  intro t
  induction t with
  | nil => exact ⟨by simp [cutQuote], .inr ⟨rfl, rfl⟩⟩
  | cons b t ih =>
    unfold cutQuote
    split
    · rename_i t' e
      refine ⟨by simp, .inl ?_⟩
      rw [e]
      rfl
    · rename_i b' t' hn e
      simp only [List.cons.injEq] at e
      obtain ⟨rfl, rfl⟩ := e
      refine ⟨?_, ?_⟩
      · intro hi
        rw [List.infix_cons_iff] at hi
        rcases hi with hi | hi
        · rw [List.cons_prefix_cons] at hi
          obtain ⟨rfl, hp⟩ := hi
          obtain ⟨v, hv⟩ := hp
          rcases ih.2 with e | ⟨e, -⟩
          · rw [← hv] at e
            exact hn (v ++ 92 :: 69 :: (cutQuote t).2) rfl (e.trans (by simp))
          · rw [← hv] at e
            exact hn v rfl e
        · exact ih.1 hi
      · rcases ih.2 with e | ⟨e, e'⟩
        · left
          conv => lhs; rw [e]
          rfl
        · right
          exact ⟨by conv => lhs; rw [e], e'⟩
    · rename_i e; simp at e

/-! ## The stack -/

/-- The open parentheses. -/
def parens : Stack → Nat
  | [] => 0
  | .re _ :: st => parens st
  | .bar :: st => parens st
  | .paren _ _ :: st => parens st + 1

theorem maybeConcat_parens (st : Stack) : parens (maybeConcat st) = parens st := by
  unfold maybeConcat
  split
  · split <;> rfl
  · rfl

theorem push_parens (s : Syn) (st : Stack) : parens (push T s st) = parens st := by
  rw [push, parens, maybeConcat_parens]

theorem popExprs_parens : ∀ (st : Stack) (acc : List Syn), parens (popExprs st acc).2 = parens st := by
  intro st
  induction st with
  | nil => intro acc; rfl
  | cons x st ih =>
    intro acc
    cases x with
    | re s => rw [popExprs, ih]; rfl
    | bar => rfl
    | paren _ _ => rfl

theorem concatTop_parens (st : Stack) : parens (concatTop T st) = parens st := by
  rw [concatTop]
  have := popExprs_parens (maybeConcat st) []
  generalize popExprs (maybeConcat st) [] = x at this
  obtain ⟨subs, rest⟩ := x
  rw [push_parens, this, maybeConcat_parens]

theorem alternateTop_parens (st : Stack) : parens (alternateTop T st) = parens st := by
  rw [alternateTop]
  have := popExprs_parens st []
  generalize popExprs st [] = x at this
  obtain ⟨subs, rest⟩ := x
  rw [push_parens, this]

theorem swap_parens {st st' : Stack} (h : swapVerticalBar T st = some st') : parens st' = parens st ∧ ∃ x, st' = .bar :: x := by
  unfold swapVerticalBar at h
  split at h
  · split at h <;>
    · simp only [Option.some.injEq] at h
      subst h
      exact ⟨rfl, _, rfl⟩
  · simp only [Option.some.injEq] at h
    subst h
    exact ⟨rfl, _, rfl⟩
  · simp at h

theorem verticalBar_parens (st : Stack) : parens (verticalBar T st) = parens st ∧ ∃ x, verticalBar T st = .bar :: x := by
  rw [verticalBar]
  cases h : swapVerticalBar T (concatTop T st) with
  | none => exact ⟨by rw [Option.getD_none, parens, maybeConcat_parens, concatTop_parens], _, rfl⟩
  | some st' =>
    obtain ⟨h1, h2⟩ := swap_parens h
    exact ⟨by rw [Option.getD_some, h1, concatTop_parens], h2⟩

theorem closeGroup_parens (st : Stack) : parens (closeGroup T st) = parens st := by
  rw [closeGroup]
  rw [alternateTop_parens]
  cases h : swapVerticalBar T (concatTop T st) with
  | none => rw [Option.elim_none, concatTop_parens]
  | some st' =>
    obtain ⟨h1, x, rfl⟩ := swap_parens h
    rw [Option.elim_some, List.tail_cons, ← concatTop_parens (T := T) st, ← h1]
    rfl

theorem rightParen_parens {st st' : Stack} {fl : PFlags} (h : rightParen T st = .ok (fl, st')) : parens st = parens st' + 1 := by
  unfold rightParen at h
  split at h
  · rename_i s fl' cap rest e
    have h1 := closeGroup_parens (T := T) st
    rw [e] at h1
    simp only [parens] at h1
    simp only [Except.ok.injEq, Prod.mk.injEq] at h
    rw [← h1, ← h.2]
    cases cap with
    | none => simp only; rw [push_parens]
    | some x => simp only; rw [push_parens]
  · simp at h

theorem pushQuote_back {fl : PFlags} : ∀ (n : Nat) {s : Bytes} {st st' : Stack}, pushQuote T fl n s st = .ok st' →
    (∃ rs : List Rune, (∀ r ∈ rs, validRune r = true) ∧ s = rs.flatMap encodeRaw) ∧ parens st' = parens st
  | n, [], st, st', h => by
    rw [pushQuote.eq_def] at h
    simp only [Except.ok.injEq] at h
    subst h
    exact ⟨⟨[], by simp, rfl⟩, rfl⟩
  | 0, _ :: _, st, st', h => by simp [pushQuote] at h
  | n + 1, b :: t, st, st', h => by
    rw [pushQuote] at h
    · split at h
      · simp at h
      · rename_i c t' e
        obtain ⟨h1, h2⟩ := nextRune_back (by simp) e
        obtain ⟨⟨rs, i1, i2⟩, i3⟩ := pushQuote_back n h
        refine ⟨⟨c :: rs, ?_, by rw [h2, i2]; rfl⟩, by rw [i3, pushLiteral, push_parens]⟩
        intro r hr
        rcases List.mem_cons.1 hr with rfl | hr
        · exact h1
        · exact i1 r hr
    · simp

/-! ## What is left -/

/-- The text begins with a repetition, and the rest is as said. -/
def Repeated (R : Bytes → Prop) (t : Bytes) : Prop :=
  ∃ (tm : Times) (lz : Bool) (u : Bytes), tm.Ok ∧ t = tm.text ++ (if lz then [63] else []) ++ u ∧ R u

/-- The text goes on with alternatives and what `After` them. -/
def Rest (uni : Bytes → Option (Rune → Prop)) (After : Bytes → Prop) (t : Bytes) : Prop :=
  ∃ (a : Alts) (next : Bytes), a.Ok uni next ∧ t = a.text ++ next ∧ After next

/-- What follows the alternatives inside of `n` open parentheses. -/
def After (uni : Bytes → Option (Rune → Prop)) : Nat → Bytes → Prop
  | 0, next => next = []
  | n + 1, next => ∃ u, next = 41 :: u ∧ (Rest uni (After uni n) u ∨ Repeated (Rest uni (After uni n)) u)

theorem rest_piece {A : Bytes → Prop} {p : Piece} {t : Bytes} (hp : p.Ok uni t) (h : Rest uni A t) : Rest uni A (p.text ++ t) := by
  obtain ⟨a, next, h1, rfl, h3⟩ := h
  cases a with
  | one s => exact ⟨.one (.cons p s), next, ⟨hp, h1⟩, by simp [Alts.text, Seq.text], h3⟩
  | or s more =>
    refine ⟨.or (.cons p s) more, next, ⟨⟨?_, h1.1⟩, h1.2⟩, by simp [Alts.text, Seq.text], h3⟩
    simpa [Alts.text] using hp

theorem rest_atom {A : Bytes → Prop} {a : Atom} {t : Bytes} (ha : a.Ok uni t) (h : Rest uni A t ∨ Repeated (Rest uni A) t) :
    Rest uni A (a.text ++ t) := by
  rcases h with h | ⟨tm, lz, u, h1, rfl, h3⟩
  · exact rest_piece (p := .once a) ha h
  · have := rest_piece (p := .times a tm lz) ⟨ha, h1⟩ h3
    simpa [Piece.text] using this

theorem rest_group {n : Nat} {o : Opening} {t : Bytes} (ho : o.Ok) (h : Rest uni (After uni (n + 1)) t) :
    Rest uni (After uni n) (o.text ++ t) := by
  obtain ⟨a, next, h1, rfl, u, rfl, h4⟩ := h
  have := rest_atom (a := .group o a) (t := u) ⟨ho, h1⟩ h4
  simpa [Atom.text] using this

theorem rest_bar {A : Bytes → Prop} {t : Bytes} (h : Rest uni A t) : Rest uni A (124 :: t) := by
  obtain ⟨a, next, h1, rfl, h3⟩ := h
  exact ⟨.or .nil a, next, ⟨trivial, h1⟩, rfl, h3⟩

theorem rest_close {n : Nat} {t : Bytes} (h : Rest uni (After uni n) t ∨ Repeated (Rest uni (After uni n)) t) :
    Rest uni (After uni (n + 1)) (41 :: t) := ⟨.one .nil, 41 :: t, trivial, rfl, t, rfl, h⟩

/-- What the rest of the loop says of the text that is left. -/
def Left (uni : Bytes → Option (Rune → Prop)) (st : PState) (t : Bytes) : Prop :=
  LooseRepeat t ∨ Rest uni (After uni (parens st.stack)) t ∨
    (st.last = false ∧ (∃ s x, st.stack = .re s :: x) ∧ Repeated (Rest uni (After uni (parens st.stack))) t)

theorem loose_append {t : Bytes} (u : Bytes) (h : LooseRepeat t) : LooseRepeat (u ++ t) := by
  obtain ⟨a, b, p, tm, h1, h2, rfl⟩ := h
  exact ⟨u ++ a, b, p, tm, h1, h2, by simp⟩

theorem Left.any {t : Bytes} {st : PState} (h : Left uni st t) :
    LooseRepeat t ∨ Rest uni (After uni (parens st.stack)) t ∨ Repeated (Rest uni (After uni (parens st.stack))) t :=
  h.imp_right (fun h => h.imp_right (fun h => h.2.2))

theorem times_ne_nil (t : Times) : t.text ≠ [] := by cases t <;> simp [Times.text]

theorem left_atom {t : Bytes} {st st1 : PState} {a : Atom} (hp : parens st1.stack = parens st.stack) (ha : a.Ok uni t)
    (h : Left uni st1 t) : Left uni st (a.text ++ t) := by
  rcases h.any with h | h
  · exact .inl (loose_append _ h)
  · rw [hp] at h
    exact .inr (.inl (rest_atom ha h))

theorem left_loose {t : Bytes} {st st1 : PState} {p : Piece} (hp : parens st1.stack = parens st.stack) (ha : p.Ok uni t)
    (hl : t ≠ [] → p.Loose) (h : Left uni st1 t) : Left uni st (p.text ++ t) := by
  rcases h.any with h | h | ⟨tm, lz, u, h1, h2, -⟩
  · exact .inl (loose_append _ h)
  · rw [hp] at h
    exact .inr (.inl (rest_piece ha h))
  · left
    refine ⟨[], (if lz then [63] else []) ++ u, p, tm, hl ?_, h1, by rw [h2]; simp⟩
    intro e
    rw [h2] at e
    simp at e
    exact times_ne_nil tm e.1

theorem left_repeat {t : Bytes} {st : PState} {node : Bool → Syn → Syn} {counted : Bool} {after : Bytes} {st1 : PState} {tm : Times} (ht : tm.Ok)
    (e : stepRepeat st node counted after = .ok (st1, t)) (h : Left uni st1 t) : Left uni st (tm.text ++ after) := by
  unfold stepRepeat at e
  split at e
  · simp at e
  · rename_i after' stack' e'
    simp only [Except.ok.injEq, Prod.mk.injEq] at e
    obtain ⟨rfl, rfl⟩ := e
    unfold repeatTop at e'
    split at e'
    · simp at e'
    · rename_i hlast
      split at e'
      · rename_i s x hst
        simp only at e'
        split at e'
        · simp at e'
        · simp only [Except.ok.injEq, Prod.mk.injEq] at e'
          obtain ⟨rfl, rfl⟩ := e'
          have hp : parens st.stack = parens x := by rw [hst]; rfl
          rcases h with h | h | ⟨h, -⟩
          · refine .inl ?_
            conv => arg 1; rw [cutLazy_back after, ← List.append_assoc]
            exact loose_append _ h
          · refine .inr (.inr ⟨by simpa using hlast, ⟨s, x, hst⟩, tm, (cutLazy after).1, (cutLazy after).2, ht, ?_, ?_⟩)
            · rw [List.append_assoc, ← cutLazy_back]
            · rw [hp]; exact h
          · exact absurd h (by simp)
      · simp at e'

theorem put_parens (st : PState) (s : Syn) : parens (st.put T s).stack = parens st.stack := push_parens s st.stack

theorem char_parens (st : PState) (c : Rune) : parens (st.char T c).stack = parens st.stack := push_parens _ st.stack

theorem left_class (hn : NamesOnly T uni) {t t1 : Bytes} {st st1 : PState} (e : stepClass T st t = .ok (st1, t1)) (h : Left uni st1 t1) :
    Left uni st (92 :: t) := by
  unfold stepClass at e
  split at e
  · simp at e
  · rename_i r t' e'
    simp only [Except.ok.injEq, Prod.mk.injEq] at e
    obtain ⟨rfl, rfl⟩ := e
    obtain ⟨n, n1, n2⟩ := unicode_back hn e'
    rw [n2]
    exact left_atom (a := .named n) (put_parens _ _) n1 h
  · split at e
    · rename_i r t' e'
      simp only [Except.ok.injEq, Prod.mk.injEq] at e
      obtain ⟨rfl, rfl⟩ := e
      obtain ⟨n, n1, n2⟩ := perl_back (uni := uni) e'
      rw [n2]
      exact left_atom (a := .named n) (put_parens _ _) n1 h
    · split at e
      · simp at e
      · rename_i c t' e'
        simp only [Except.ok.injEq, Prod.mk.injEq] at e
        obtain ⟨rfl, rfl⟩ := e
        obtain ⟨w, w1, w2, w3, w4⟩ := parseEscape_back e'
        rw [w3]
        refine left_atom (a := .char w) (char_parens _ _) ⟨w2, ?_⟩ h
        rintro r rfl
        exact absurd w1 id

theorem left_escape (hn : NamesOnly T uni) {t t1 : Bytes} {st st1 : PState}
    (e : stepEscape T st t = .ok (st1, t1)) (h : Left uni st1 t1) : Left uni st (92 :: t) := by
  unfold stepEscape at e
  split at e
  · rename_i c t'
    split at e
    · rename_i hc
      simp only [Except.ok.injEq, Prod.mk.injEq] at e
      obtain ⟨rfl, rfl⟩ := e
      rw [hc]
      exact left_atom (a := .textStart) (put_parens _ _) trivial h
    split at e
    · rename_i hc
      simp only [Except.ok.injEq, Prod.mk.injEq] at e
      obtain ⟨rfl, rfl⟩ := e
      rw [hc]
      exact left_atom (a := .edge) (put_parens _ _) trivial h
    split at e
    · rename_i hc
      simp only [Except.ok.injEq, Prod.mk.injEq] at e
      obtain ⟨rfl, rfl⟩ := e
      rw [hc]
      exact left_atom (a := .noEdge) (put_parens _ _) trivial h
    split at e
    · simp at e
    split at e
    · rename_i hc
      subst hc
      split at e
      · simp at e
      · rename_i stack' e'
        simp only [Except.ok.injEq, Prod.mk.injEq] at e
        obtain ⟨rfl, rfl⟩ := e
        obtain ⟨⟨rs, q1, q2⟩, q3⟩ := pushQuote_back _ e'
        obtain ⟨c1, c2⟩ := cutQuote_back t'
        rw [q2] at c1 c2
        rcases c2 with c2 | ⟨c2, c3⟩
        · have et : 92 :: 81 :: t' = (Piece.quoted rs true).text ++ (cutQuote t').2 := by
            conv => lhs; rw [c2]
            simp [Piece.text]
          rw [et]
          exact left_loose (p := .quoted rs true) (by exact q3) ⟨q1, c1, by simp⟩ (fun _ => ⟨q1, rfl⟩) h
        · have et : 92 :: 81 :: t' = (Piece.quoted rs false).text ++ (cutQuote t').2 := by
            rw [c3]
            conv => lhs; rw [c2]
            simp [Piece.text]
          rw [et]
          exact left_loose (p := .quoted rs false) (by exact q3) ⟨q1, c1, fun _ => c3⟩ (fun hne => absurd c3 hne) h
    split at e
    · rename_i hc
      simp only [Except.ok.injEq, Prod.mk.injEq] at e
      obtain ⟨rfl, rfl⟩ := e
      rw [hc]
      exact left_atom (a := .textEnd) (put_parens _ _) trivial h
    · exact left_class hn e h
  · exact left_class hn e h

theorem left_open {t t1 : Bytes} {st st1 : PState}
    (e : stepOpen st t = .ok (st1, t1)) (h : Left uni st1 t1) : Left uni st (40 :: t) := by
  have grp : ∀ (o : Opening) (fl : PFlags) (cap : Option (Nat × Bytes)) (rest : Bytes), o.Ok → 40 :: t = o.text ++ rest → t1 = rest →
      st1.stack = .paren fl cap :: maybeConcat st.stack → Left uni st (40 :: t) := by
    intro o fl cap rest ho et e1 e2
    subst e1
    rcases h with h | h | ⟨-, ⟨s, x, h⟩, -⟩
    · exact .inl (by rw [et]; exact loose_append _ h)
    · rw [e2, parens, maybeConcat_parens] at h
      rw [et]
      exact .inr (.inl (rest_group ho h))
    · rw [e2] at h
      simp at h
  unfold stepOpen at e
  split at e
  · rename_i t'
    split at e
    · simp at e
    · rename_i st2 t2 e2
      simp only [Except.ok.injEq, Prod.mk.injEq] at e
      obtain ⟨rfl, rfl⟩ := e
      unfold parsePerlFlags at e2
      split at e2
      · rename_i t3
        split at e2
        · simp at e2
        · split at e2
          · simp at e2
          · rename_i name rest e3
            split at e2
            · rename_i hv
              simp only [Except.ok.injEq, Prod.mk.injEq] at e2
              obtain ⟨rfl, rfl⟩ := e2
              obtain ⟨c1, c2⟩ := cutAt_back e3
              refine grp (.name name) _ _ rest ?_ ?_ rfl rfl
              · unfold isValidCaptureName at hv
                simp only [Bool.and_eq_true, Bool.not_eq_true', List.all_eq_true, Bool.or_eq_true, beq_iff_eq] at hv
                refine ⟨?_, fun c hc => ?_⟩
                · rintro rfl
                  exact absurd hv.1 (by decide)
                · rcases hv.2 c hc with h | h
                  · exact .inr h
                  · exact .inl h
              · rw [c1]; simp [Opening.text]
            · simp at e2
      · rename_i hne
        split at e2
        · simp at e2
        · rename_i flags group rest e3
          simp only [Except.ok.injEq, Prod.mk.injEq] at e2
          obtain ⟨rfl, rfl⟩ := e2
          obtain ⟨f, x, f1, f2, f3, f4⟩ := flags_back _ e3
          rcases f3 with rfl | rfl
          · have : group = true := f4
            subst this
            exact grp (.flags f) _ _ rest f1 (by rw [f2]; simp [Opening.text]) rfl rfl
          · have : group = false := f4
            subst this
            have et : 40 :: 63 :: t' = (Piece.flags f).text ++ rest := by rw [f2]; simp [Piece.text]
            rw [et]
            exact left_loose (p := .flags f) (by rfl) f1 (fun _ => f1) h
  · simp only [Except.ok.injEq, Prod.mk.injEq] at e
    obtain ⟨rfl, rfl⟩ := e
    exact grp .capture _ _ t trivial rfl rfl rfl

theorem left_brace {t t1 : Bytes} {st st1 : PState} (e : stepBrace T st t = .ok (st1, t1)) (h : Left uni st1 t1) :
    Left uni st (123 :: t) := by
  unfold stepBrace at e
  split at e
  · rename_i e1
    simp only [Except.ok.injEq, Prod.mk.injEq] at e
    obtain ⟨rfl, rfl⟩ := e
    refine left_atom (a := .char (.plain 123)) (char_parens _ _) ⟨by rfl, ?_⟩ h
    rintro r hr
    cases hr
    exact ⟨by decide, fun _ => notCounted_back e1⟩
  · simp at e
  · rename_i lo hi after e1
    have key : lo ≤ 1000 ∧ (∀ x, hi = some x → x ≤ 1000 ∧ lo ≤ x) ∧ ∃ node counted, stepRepeat st node counted after = .ok (st1, t1) := by
      cases hi with
      | none =>
        simp only [Bool.or_false, decide_eq_true_eq] at e
        split at e
        · simp at e
        · exact ⟨by omega, by simp, _, _, e⟩
      | some x =>
        simp only [Bool.or_eq_true, decide_eq_true_eq] at e
        split at e
        · simp at e
        · refine ⟨by omega, ?_, _, _, e⟩
          rintro y hy
          cases hy
          omega
    obtain ⟨k1, k2, node, counted, k3⟩ := key
    obtain ⟨tm, g1, g2, g3⟩ := parseRepeat_back e1 k1 k2
    rw [g3]
    exact left_repeat g2 k3 h

theorem left_step (hn : NamesOnly T uni) {t t1 : Bytes} {b : UInt8} {st st1 : PState}
    (e : step T st b t = .ok (st1, t1)) (h : Left uni st1 t1) : Left uni st (b :: t) := by
  rw [step] at e
  by_cases b40 : b = 40
  · rw [if_pos b40] at e
    subst b40
    exact left_open e h
  rw [if_neg b40] at e
  by_cases b124 : b = 124
  · rw [if_pos b124] at e
    subst b124
    simp only [Except.ok.injEq, Prod.mk.injEq] at e
    obtain ⟨rfl, rfl⟩ := e
    obtain ⟨h1, x, h2⟩ := verticalBar_parens (T := T) st.stack
    rcases h with h | h | ⟨-, ⟨s, y, h⟩, -⟩
    · exact .inl (loose_append [124] h)
    · simp only [h1] at h
      exact .inr (.inl (rest_bar h))
    · simp only [h2] at h
      simp at h
  rw [if_neg b124] at e
  by_cases b41 : b = 41
  · rw [if_pos b41] at e
    subst b41
    split at e
    · simp at e
    · rename_i fl stack e'
      simp only [Except.ok.injEq, Prod.mk.injEq] at e
      obtain ⟨rfl, rfl⟩ := e
      have hp := rightParen_parens e'
      rcases h.any with h | h
      · exact .inl (loose_append [41] h)
      · refine .inr (.inl ?_)
        rw [hp]
        exact rest_close h
  rw [if_neg b41] at e
  by_cases b94 : b = 94
  · rw [if_pos b94] at e
    subst b94
    simp only [Except.ok.injEq, Prod.mk.injEq] at e
    obtain ⟨rfl, rfl⟩ := e
    exact left_atom (a := .caret) (put_parens _ _) trivial h
  rw [if_neg b94] at e
  by_cases b36 : b = 36
  · rw [if_pos b36] at e
    subst b36
    simp only [Except.ok.injEq, Prod.mk.injEq] at e
    obtain ⟨rfl, rfl⟩ := e
    exact left_atom (a := .dollar) (put_parens _ _) trivial h
  rw [if_neg b36] at e
  by_cases b46 : b = 46
  · rw [if_pos b46] at e
    subst b46
    simp only [Except.ok.injEq, Prod.mk.injEq] at e
    obtain ⟨rfl, rfl⟩ := e
    exact left_atom (a := .dot) (put_parens _ _) trivial h
  rw [if_neg b46] at e
  by_cases b91 : b = 91
  · rw [if_pos b91] at e
    subst b91
    split at e
    · simp at e
    · rename_i s t' e'
      simp only [Except.ok.injEq, Prod.mk.injEq] at e
      obtain ⟨rfl, rfl⟩ := e
      obtain ⟨neg, ms, c1, c2⟩ := class_back hn e'
      rw [c2]
      exact left_atom (put_parens _ _) c1 h
  rw [if_neg b91] at e
  by_cases b42 : b = 42
  · rw [if_pos b42] at e
    subst b42
    exact left_repeat (tm := .star) trivial e h
  rw [if_neg b42] at e
  by_cases b43 : b = 43
  · rw [if_pos b43] at e
    subst b43
    exact left_repeat (tm := .plus) trivial e h
  rw [if_neg b43] at e
  by_cases b63 : b = 63
  · rw [if_pos b63] at e
    subst b63
    exact left_repeat (tm := .quest) trivial e h
  rw [if_neg b63] at e
  by_cases b123 : b = 123
  · rw [if_pos b123] at e
    subst b123
    exact left_brace e h
  rw [if_neg b123] at e
  by_cases b92 : b = 92
  · rw [if_pos b92] at e
    subst b92
    exact left_escape hn e h
  rw [if_neg b92] at e
  split at e
  · simp at e
  · rename_i c t' e'
    simp only [Except.ok.injEq, Prod.mk.injEq] at e
    obtain ⟨rfl, rfl⟩ := e
    obtain ⟨h1, h2⟩ := nextRune_back (by simp) e'
    rw [h2]
    have hne : ∀ d : UInt8, d < 128 → b ≠ d → c ≠ d.toNat := by
      rintro d hd hb rfl
      rw [raw_byte (r := d.toNat) hd] at h2
      simp only [List.cons_append, List.cons.injEq] at h2
      exact hb (by rw [h2.1]; simp)
    refine left_atom (a := .char (.plain c)) (char_parens _ _) ⟨h1, ?_⟩ h
    rintro r hr
    cases hr
    refine ⟨?_, fun hc => absurd hc (hne 123 (by decide) b123)⟩
    intro hm
    simp only [special, List.mem_cons, List.not_mem_nil, or_false] at hm
    rcases hm with hm | hm | hm | hm | hm | hm | hm | hm | hm | hm | hm
    · exact hne 92 (by decide) b92 hm
    · exact hne 46 (by decide) b46 hm
    · exact hne 43 (by decide) b43 hm
    · exact hne 42 (by decide) b42 hm
    · exact hne 63 (by decide) b63 hm
    · exact hne 40 (by decide) b40 hm
    · exact hne 41 (by decide) b41 hm
    · exact hne 124 (by decide) b124 hm
    · exact hne 91 (by decide) b91 hm
    · exact hne 94 (by decide) b94 hm
    · exact hne 36 (by decide) b36 hm

theorem left_loop (hn : NamesOnly T uni) : ∀ (fuel : Nat) {st st' : PState} {t : Bytes},
    parseLoop T fuel st t = .ok st' → parens st'.stack = 0 → Left uni st t
  | _, st, st', [], h, h0 => by
    rw [parseLoop_nil] at h
    simp only [Except.ok.injEq] at h
    subst h
    exact .inr (.inl ⟨.one .nil, [], trivial, rfl, by rw [h0]; rfl⟩)
  | 0, st, st', _ :: _, h, _ => by simp [parseLoop] at h
  | fuel + 1, st, st', b :: t, h, h0 => by
    rw [parseLoop] at h
    split at h
    · simp at h
    · rename_i st1 t1 e
      exact left_step hn e (left_loop hn fuel h h0)

/-- What the loop accepts from an empty stack on. -/
theorem accept_back (hn : NamesOnly T uni) {fuel : Nat} {st st' : PState} {t : Bytes} {s : Syn} (h0 : st.stack = [])
    (h : parseLoop T fuel st t = .ok st') (hc : closeGroup T st'.stack = [.re s]) :
    LooseRepeat t ∨ ∃ p : Alts, p.Ok uni [] ∧ p.text = t := by
  have hp : parens st'.stack = 0 := by
    rw [← closeGroup_parens (T := T), hc]
    rfl
  rcases left_loop hn _ h hp with h | ⟨a, next, h1, h2, h3⟩ | ⟨-, ⟨_, _, h⟩, -⟩
  · exact .inl h
  · rw [h0] at h3
    have : next = [] := h3
    subst this
    rw [List.append_nil] at h2
    exact .inr ⟨a, h1, h2.symm⟩
  · rw [h0] at h
    simp at h

theorem parse_back (hn : NamesOnly T uni) {expr : Bytes} {s : Syn} (h : parse T expr = .ok s) :
    LooseRepeat expr ∨ ∃ p : Alts, p.Ok uni [] ∧ p.text = expr := by
  rw [parse] at h
  split at h
  · simp at h
  · rename_i st e
    split at h
    · exact accept_back hn rfl e (by assumption)
    · simp at h

/-- How flags in front are written. -/
def writtenFlags (fs : List Bytes) : Bytes := fs.flatMap fun f => [40, 63] ++ f ++ [41]

theorem flags_run : ∀ (fs : List Bytes), (∀ f ∈ fs, ∀ c ∈ f, c ∈ b!"imsU") → ∀ (st : PState) (t : Bytes),
    ∃ st', Runs T st (writtenFlags fs ++ t) st' t ∧ st'.stack = st.stack
  | [], _, st, t => ⟨st, .done _ _, rfl⟩
  | f :: fs, h, st, t => by
    obtain ⟨fl', h1, -⟩ := step_flags (T := T) (f := ⟨f, none⟩) ⟨h f (by simp), by simp⟩ (writtenFlags fs ++ t) st
    obtain ⟨st', h2, h3⟩ := flags_run fs (fun g hg => h g (List.mem_cons_of_mem _ hg)) { st with flags := fl', last := false } t
    refine ⟨st', ?_, h3⟩
    have e : writtenFlags (f :: fs) ++ t = 40 :: 63 :: ((Flags.mk f none).text ++ 41 :: (writtenFlags fs ++ t)) := by
      simp [writtenFlags, Flags.text]
    rw [e]
    exact .step h1 (by simp only [List.length_cons, List.length_append]; omega) h2

theorem parse_flags_back (hn : NamesOnly T uni) {fs : List Bytes} (hf : ∀ f ∈ fs, ∀ c ∈ f, c ∈ b!"imsU") {expr : Bytes} {s : Syn}
    (h : parse T (writtenFlags fs ++ expr) = .ok s) : LooseRepeat expr ∨ ∃ p : Alts, p.Ok uni [] ∧ p.text = expr := by
  rw [parse] at h
  split at h
  · simp at h
  · rename_i st e
    split at h
    · rename_i hc
      obtain ⟨st1, h1, h2⟩ := flags_run (T := T) fs hf { flags := perlFlags0 } expr
      obtain ⟨fuel', -, g⟩ := h1.loop _ (Nat.le_refl _)
      rw [g] at e
      exact accept_back hn h2 e hc
    · simp at h

end Hound.GoRe
