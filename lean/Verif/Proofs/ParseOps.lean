import Verif.Proofs.ParseSet

/-!
# Flags, quotations, repetitions and names as Go's parser reads them
-/

namespace Hound.GoRe
open Hound.Spec Hound.Spec.Pat

variable {T : Tables} {uni : Bytes → Option (Rune → Prop)}

/-! ## Flags -/

/-- The flags of the parser are those of the mode. -/
def ModeOf (m : Mode) (fl : PFlags) : Prop := fl.fold = m.caseless ∧ fl.oneLine = !m.multiline ∧ fl.dotNL = m.dotAll

/-- One flag letter. -/
def setFlag (fl : PFlags) (c : UInt8) : PFlags :=
  if c = 105 then { fl with fold := true } else if c = 109 then { fl with oneLine := false } else if c = 115 then { fl with dotNL := true }
  else { fl with nonGreedy := true }

theorem flag_cases {c : UInt8} (h : c ∈ b!"imsU") : c = 105 ∨ c = 109 ∨ c = 115 ∨ c = 85 := by
  revert h
  refine u8_forall (P := fun c => c ∈ b!"imsU" → c = 105 ∨ c = 109 ∨ c = 115 ∨ c = 85) ?_ c
  decide +kernel

theorem perlFlagsLoop_on (rest : Bytes) : ∀ (cs : Bytes) (fuel : Nat) (fl : PFlags) (neg saw : Bool), (∀ c ∈ cs, c ∈ b!"imsU") →
    perlFlagsLoop (cs.length + fuel) (cs ++ rest) fl neg saw = perlFlagsLoop fuel rest (cs.foldl setFlag fl) neg (saw || !cs.isEmpty)
  | [], fuel, fl, neg, saw, _ => by simp
  | c :: cs, fuel, fl, neg, saw, h => by
    have ih := perlFlagsLoop_on rest cs fuel (setFlag fl c) neg true (fun d hd => h d (List.mem_cons_of_mem _ hd))
    have e : (c :: cs).length + fuel = (cs.length + fuel) + 1 := by simp only [List.length_cons]; omega
    have es : (saw || !(c :: cs).isEmpty) = (true || !cs.isEmpty) := by simp
    rw [e, es, List.foldl_cons, ← ih, List.cons_append]
    rcases flag_cases (h c (by simp)) with rfl | rfl | rfl | rfl <;>
    · rw [perlFlagsLoop, if_neg (by simp), nextRune_ascii (by decide)]
      rfl

theorem setFlags_fold : ∀ (cs : Bytes) (fl : PFlags), (cs.foldl setFlag fl).fold = (fl.fold || decide (105 ∈ cs))
  | [], fl => by simp
  | c :: cs, fl => by
    rw [List.foldl_cons, setFlags_fold cs]
    by_cases h : c = 105
    · simp [setFlag, h]
    · have : (setFlag fl c).fold = fl.fold := by
        unfold setFlag
        rw [if_neg h]
        repeat' split
        all_goals rfl
      have hn : ¬ 105 = c := fun e => h e.symm
      rw [this]
      simp [hn]

theorem setFlags_line : ∀ (cs : Bytes) (fl : PFlags), (cs.foldl setFlag fl).oneLine = (fl.oneLine && !decide (109 ∈ cs))
  | [], fl => by simp
  | c :: cs, fl => by
    rw [List.foldl_cons, setFlags_line cs]
    by_cases h : c = 109
    · simp [setFlag, h]
    · have : (setFlag fl c).oneLine = fl.oneLine := by
        simp only [setFlag, h, if_false]
        repeat' split
        all_goals rfl
      have hn : ¬ 109 = c := fun e => h e.symm
      rw [this]
      simp [hn]

theorem setFlags_dot : ∀ (cs : Bytes) (fl : PFlags), (cs.foldl setFlag fl).dotNL = (fl.dotNL || decide (115 ∈ cs))
  | [], fl => by simp
  | c :: cs, fl => by
    rw [List.foldl_cons, setFlags_dot cs]
    by_cases h : c = 115
    · simp [setFlag, h]
    · have : (setFlag fl c).dotNL = fl.dotNL := by
        simp only [setFlag, h, if_false]
        repeat' split
        all_goals rfl
      have hn : ¬ 115 = c := fun e => h e.symm
      rw [this]
      simp [hn]

theorem perlFlagsLoop_end (fuel : Nat) (rest : Bytes) {c : UInt8} (hc : c = 58 ∨ c = 41) (fl : PFlags) (neg saw : Bool) (h : neg = true → saw = true) :
    perlFlagsLoop (fuel + 1) (c :: rest) fl neg saw = .ok (if neg then fl.inv else fl, c == 58, rest) := by
  have hn : (neg && !saw) = false := by cases neg <;> simp_all
  rcases hc with rfl | rfl <;>
  · rw [perlFlagsLoop, if_neg (by simp), nextRune_ascii (by decide)]
    simp only [hn]
    rfl

theorem perlFlags_read {f : Flags} (h : f.Ok) {c : UInt8} (hc : c = 58 ∨ c = 41) (fl : PFlags) (rest : Bytes) :
    ∃ fl', perlFlagsLoop ((f.text ++ c :: rest).length + 1) (f.text ++ c :: rest) fl false false = .ok (fl', c == 58, rest) ∧
      ∀ m, ModeOf m fl → ModeOf (f.mode m) fl' := by
  obtain ⟨on, off⟩ := f
  obtain ⟨h1, h2⟩ := h
  simp only at h1 h2
  cases off with
  | none =>
    have e1 : (Flags.mk on none).text ++ c :: rest = on ++ c :: rest := by simp [Flags.text]
    have e : (on ++ c :: rest).length + 1 = on.length + ((rest.length + 1) + 1) := by simp only [List.length_append, List.length_cons]; omega
    rw [e1, e, perlFlagsLoop_on _ on _ _ _ _ h1, perlFlagsLoop_end _ _ hc _ _ _ (by simp)]
    refine ⟨_, rfl, fun m hm => ?_⟩
    obtain ⟨m1, m2, m3⟩ := hm
    simp only [Bool.false_eq_true, if_false]
    refine ⟨?_, ?_, ?_⟩
    · rw [setFlags_fold, m1]
      simp only [Flags.mode, Flags.set, Option.getD_none, List.not_mem_nil, if_false]
      by_cases hx : 105 ∈ on <;> simp [hx]
    · rw [setFlags_line, m2]
      simp only [Flags.mode, Flags.set, Option.getD_none, List.not_mem_nil, if_false]
      by_cases hx : 109 ∈ on <;> simp [hx]
    · rw [setFlags_dot, m3]
      simp only [Flags.mode, Flags.set, Option.getD_none, List.not_mem_nil, if_false]
      by_cases hx : 115 ∈ on <;> simp [hx]
  | some o =>
    obtain ⟨h3, h4⟩ := h2 o rfl
    have e1 : (Flags.mk on (some o)).text ++ c :: rest = on ++ 45 :: (o ++ c :: rest) := by simp [Flags.text]
    have e : (on ++ 45 :: (o ++ c :: rest)).length + 1 = on.length + ((o.length + ((rest.length + 1) + 1)) + 1) := by
      simp only [List.length_append, List.length_cons]; omega
    rw [e1, e, perlFlagsLoop_on _ on _ _ _ _ h1, perlFlagsLoop, if_neg (by simp), nextRune_ascii (by decide)]
    have hs : (false || !o.isEmpty) = true := by
      cases o with
      | nil => exact absurd rfl h3
      | cons a b => rfl
    have ho := perlFlagsLoop_on (c :: rest) o (rest.length + 1 + 1) (on.foldl setFlag fl).inv true false h4
    rw [perlFlagsLoop_end _ _ hc _ _ _ (fun _ => hs)] at ho
    refine ⟨_, ho, fun m hm => ?_⟩
    obtain ⟨m1, m2, m3⟩ := hm
    simp only [if_true]
    refine ⟨?_, ?_, ?_⟩
    · simp only [PFlags.inv]
      rw [setFlags_fold, setFlags_fold, m1]
      simp only [Flags.mode, Flags.set, Option.getD_some]
      by_cases hx : 105 ∈ on <;> by_cases hy : 105 ∈ o <;> simp [hx, hy]
    · simp only [PFlags.inv]
      rw [setFlags_line, setFlags_line, m2]
      simp only [Flags.mode, Flags.set, Option.getD_some]
      by_cases hx : 109 ∈ on <;> by_cases hy : 109 ∈ o <;> simp [hx, hy]
    · simp only [PFlags.inv]
      rw [setFlags_dot, setFlags_dot, m3]
      simp only [Flags.mode, Flags.set, Option.getD_some]
      by_cases hx : 115 ∈ on <;> by_cases hy : 115 ∈ o <;> simp [hx, hy]

/-! ## Quotations -/

theorem cutQuote_read (next : Bytes) : ∀ {s : Bytes}, ¬ [92, 69] <:+: s → cutQuote (s ++ 92 :: 69 :: next) = (s, next)
  | [], _ => rfl
  | b :: s, h => by
    have ih := cutQuote_read next (s := s) (fun hi => h (List.IsInfix.trans hi ⟨[b], [], by simp⟩))
    rw [List.cons_append, cutQuote, ih]
    intro t e1 e2
    subst e1
    cases s with
    | nil => simp at e2
    | cons c s =>
      simp only [List.cons_append, List.cons.injEq] at e2
      rw [e2.1] at h
      exact h ⟨[], s, by simp⟩

theorem cutQuote_all : ∀ {s : Bytes}, ¬ [92, 69] <:+: s → cutQuote s = (s, [])
  | [], _ => rfl
  | b :: s, h => by
    have ih := cutQuote_all (s := s) (fun hi => h (List.IsInfix.trans hi ⟨[b], [], by simp⟩))
    rw [cutQuote, ih]
    intro t e1 e2
    subst e1
    subst e2
    exact h ⟨[], t, by simp⟩

theorem raw_ne_nil {r : Rune} (h : validRune r = true) : encodeRaw r ≠ [] := by
  obtain ⟨b, t, e, -⟩ := raw_head h
  rw [e]
  simp

theorem pushQuote_read (fl : PFlags) : ∀ (rs : List Rune) (n : Nat) (st : Stack), (∀ r ∈ rs, validRune r = true) →
    (rs.flatMap encodeRaw).length ≤ n → pushQuote T fl n (rs.flatMap encodeRaw) st = .ok (rs.foldl (fun st r => pushLiteral T fl r st) st)
  | [], n, st, _, _ => by cases n <;> rfl
  | r :: rs, n, st, h, hn => by
    have hr := h r (by simp)
    obtain ⟨b, t, e, -⟩ := raw_head hr
    have hl : 1 ≤ (encodeRaw r).length := by rw [e]; simp
    rw [List.flatMap_cons] at hn ⊢
    rw [List.length_append] at hn
    cases n with
    | zero => omega
    | succ n =>
      have hx : encodeRaw r ++ rs.flatMap encodeRaw = b :: (t ++ rs.flatMap encodeRaw) := by rw [e]; rfl
      rw [hx, pushQuote, ← hx, nextRune_raw hr]
      · exact pushQuote_read fl rs n _ (fun x hx => h x (List.mem_cons_of_mem _ hx)) (by omega)
      · simp

/-! ## Numbers -/

theorem isDec_eq (c : UInt8) : isDec c = Pat.isDigit c := rfl

theorem dec_digit {c : UInt8} (h : Pat.isDigit c = true) : c.toNat - 48 = digitVal c := by
  revert h
  refine u8_forall (P := fun c => Pat.isDigit c = true → c.toNat - 48 = digitVal c) ?_ c
  decide +kernel

theorem value_read : ∀ (ds : Bytes) (n : Nat), (∀ c ∈ ds, Pat.isDigit c = true) → numeralFrom 10 n ds ≤ 1000 →
    ds.foldl (fun n c => n.bind fun n => if n ≥ 100000000 then none else some (n * 10 + (c.toNat - 48))) (some n) = some (numeralFrom 10 n ds)
  | [], n, _, _ => rfl
  | c :: ds, n, h, hn => by
    have e : numeralFrom 10 n (c :: ds) = numeralFrom 10 (n * 10 + digitVal c) ds := rfl
    rw [e] at hn ⊢
    have hle := numeralFrom_le (base := 10) (by decide) ds (n * 10 + digitVal c)
    have hlt : ¬ n ≥ 100000000 := by omega
    rw [List.foldl_cons, Option.bind_some, if_neg hlt, dec_digit (h c (by simp))]
    exact value_read ds _ (fun d hd => h d (List.mem_cons_of_mem _ hd)) hn

theorem takeWhile_digits {ds : Bytes} {c : UInt8} (t : Bytes) (h : ∀ d ∈ ds, isDec d = true) (hc : isDec c = false) :
    (ds ++ c :: t).takeWhile isDec = ds ∧ (ds ++ c :: t).dropWhile isDec = c :: t := by
  induction ds with
  | nil => simp [hc]
  | cons d ds ih =>
    obtain ⟨i1, i2⟩ := ih (fun x hx => h x (List.mem_cons_of_mem _ hx))
    simp [h d (by simp), i1, i2]

theorem parseInt_read {n : Bytes} (hd : Decimal n) (hn : numeral 10 n ≤ 1000) {c : UInt8} (hc : isDec c = false) (t : Bytes) :
    parseInt (n ++ c :: t) = some (some (numeral 10 n), c :: t) := by
  obtain ⟨h1, h2, h3⟩ := hd
  obtain ⟨i1, i2⟩ := takeWhile_digits t (c := c) (fun d hd => (isDec_eq d).trans (h2 d hd)) hc
  have hv := value_read n 0 h2 hn
  cases n with
  | nil => exact absurd rfl h1
  | cons d ds =>
    have hd := h2 d (by simp)
    rw [List.cons_append] at i1 i2 ⊢
    rw [parseInt, isDec_eq, hd, if_neg (by simp), if_neg]
    · simp only [i1, i2, hv]
      rfl
    · rintro ⟨rfl, hx⟩
      have hl := h3 rfl
      have : ds = [] := by simpa using hl
      subst this
      simp [hc] at hx

theorem parseInt_some {s : Bytes} {v : Option Nat} {t : Bytes} (h : parseInt s = some (v, t)) : ∃ n, Decimal n ∧ s = n ++ t := by
  cases s with
  | nil => simp [parseInt] at h
  | cons c s =>
    rw [parseInt] at h
    split at h
    · simp at h
    · rename_i hc
      split at h
      · simp at h
      · rename_i hz
        simp only [Option.some.injEq, Prod.mk.injEq] at h
        refine ⟨(c :: s).takeWhile isDec, ⟨?_, ?_, ?_⟩, ?_⟩
        · have : isDec c = true := by simpa using hc
          simp [this]
        · intro d hd
          rw [← isDec_eq]
          exact (List.all_eq_true.1 (List.all_takeWhile (l := c :: s) (p := isDec))) d hd
        · have hc' : isDec c = true := by simpa using hc
          simp only [List.takeWhile_cons, hc', if_true, List.head?_cons, Option.some.injEq]
          rintro rfl
          cases s with
          | nil => rfl
          | cons d s =>
            have : isDec d = false := by
              cases hd : isDec d with
              | false => rfl
              | true => exact absurd ⟨rfl, by simp [hd]⟩ hz
            simp [this]
        · rw [← h.2, List.takeWhile_append_dropWhile]

theorem parseRepeat_some {s : Bytes} {x : Option (Nat × Option Nat) × Bytes} (h : parseRepeat s = some x) : LooksCounted s := by
  unfold parseRepeat at h
  split at h
  · simp at h
  · rename_i lo t e
    obtain ⟨n, hn, rfl⟩ := parseInt_some e
    exact ⟨n, t, hn, .inl rfl⟩
  · rename_i lo t e
    obtain ⟨n, hn, rfl⟩ := parseInt_some e
    exact ⟨n, t, hn, .inr (.inl rfl)⟩
  · rename_i lo t hne e
    obtain ⟨n, hn, rfl⟩ := parseInt_some e
    split at h
    · rename_i hi t' e'
      obtain ⟨k, hk, rfl⟩ := parseInt_some e'
      exact ⟨n, t', hn, .inr (.inr ⟨k, hk, rfl⟩)⟩
    · simp at h
  · simp at h

theorem parseRepeat_none {s : Bytes} (h : ¬ LooksCounted s) : parseRepeat s = none := by
  cases e : parseRepeat s with
  | none => rfl
  | some x => exact absurd (parseRepeat_some e) h

/-- The repetitions with numbers. -/
def Counted : Times → Prop
  | .star => False
  | .plus => False
  | .quest => False
  | _ => True

theorem decimal_head {m : Bytes} (h : Decimal m) (t : Bytes) : ∃ d r, m ++ t = d :: r ∧ d ≠ 125 := by
  obtain ⟨h1, h2, -⟩ := h
  cases m with
  | nil => exact absurd rfl h1
  | cons d m =>
    refine ⟨d, m ++ t, rfl, ?_⟩
    rintro rfl
    exact absurd (h2 125 (by simp)) (by decide)

theorem parseRepeat_read {t : Times} (hc : Counted t) (h : t.Ok) (next : Bytes) :
    ∃ s, t.text = 123 :: s ∧ parseRepeat (s ++ next) = some (some (t.least, t.most), next) ∧ t.least ≤ 1000 ∧
      ∀ k, t.most = some k → t.least ≤ k ∧ k ≤ 1000 := by
  cases t with
  | star => exact absurd hc id
  | plus => exact absurd hc id
  | quest => exact absurd hc id
  | exactly n =>
    refine ⟨n ++ [125], rfl, ?_, h.2, ?_⟩
    · rw [List.append_assoc, List.singleton_append, parseRepeat, parseInt_read h.1 h.2 (by decide)]
      rfl
    · intro k e
      simp only [Times.most, Option.some.injEq] at e
      rw [← e]
      exact ⟨Nat.le_refl _, h.2⟩
  | atLeast n =>
    refine ⟨n ++ [44, 125], rfl, ?_, h.2, fun k e => by simp [Times.most] at e⟩
    rw [List.append_assoc, List.cons_append, List.singleton_append, parseRepeat, parseInt_read h.1 h.2 (by decide)]
    rfl
  | between n m =>
    obtain ⟨h1, h2, h3, h4⟩ := h
    refine ⟨n ++ 44 :: (m ++ [125]), rfl, ?_, Nat.le_trans h3 h4, ?_⟩
    · have e : n ++ 44 :: (m ++ [125]) ++ next = n ++ 44 :: (m ++ 125 :: next) := by simp
      obtain ⟨d, r, e2, hd⟩ := decimal_head h2 (125 :: next)
      rw [e, parseRepeat, parseInt_read h1 (Nat.le_trans h3 h4) (by decide)]
      have hx := parseInt_read h2 h4 (c := 125) (by decide) next
      rw [e2] at hx ⊢
      split
      · rename_i e3; simp at e3
      · rename_i e3; simp at e3
      · rename_i e3
        simp only [Option.some.injEq, Prod.mk.injEq, List.cons.injEq, true_and] at e3
        exact absurd e3.2.1 hd
      · rename_i e3
        simp only [Option.some.injEq, Prod.mk.injEq, List.cons.injEq, true_and] at e3
        obtain ⟨rfl, rfl⟩ := e3
        rw [hx]
        rfl
      · rename_i h3 h4 e3
        simp only [Option.some.injEq] at e3
        exact absurd e3.symm (h4 _ _)
    · intro k e
      simp only [Times.most, Option.some.injEq] at e
      rw [← e]
      exact ⟨h3, h4⟩

theorem cutLazy_read {lazy : Bool} {next : Bytes} (h : next.head? ≠ some 63) :
    cutLazy ((if lazy then [63] else []) ++ next) = (lazy, next) := by
  cases lazy with
  | true => rfl
  | false =>
    simp only [Bool.false_eq_true, if_false, List.nil_append]
    unfold cutLazy
    split
    · exact absurd rfl h
    · rfl

/-! ## How things begin -/

theorem named_head (n : Named) : ∃ t, n.text = 92 :: t := by
  cases n with
  | perl c => exact ⟨_, rfl⟩
  | letter neg c => exact ⟨_, rfl⟩
  | word neg caret name => exact ⟨_, rfl⟩

theorem opening_head (o : Opening) : ∃ t, o.text = 40 :: t := by
  cases o with
  | capture => exact ⟨_, rfl⟩
  | name n => exact ⟨_, rfl⟩
  | flags f => exact ⟨_, rfl⟩

theorem atom_head {a : Atom} {next : Bytes} (h : a.Ok uni next) : ∃ b t, a.text = b :: t ∧ b ≠ 63 := by
  cases a with
  | char c =>
    rw [Atom.Ok] at h
    obtain ⟨d, t, e, hd⟩ := written_head h.1
    rw [Atom.text]
    refine ⟨d, t, e, ?_⟩
    rintro rfl
    exact (h.2 _ (hd (by decide) (by decide))).1 (by decide)
  | named n => rw [Atom.text]; obtain ⟨t, e⟩ := named_head n; exact ⟨92, t, e, by decide⟩
  | set neg ms => rw [Atom.text]; exact ⟨91, _, rfl, by decide⟩
  | group o body => rw [Atom.text]; obtain ⟨t, e⟩ := opening_head o; exact ⟨40, _, by rw [e]; rfl, by decide⟩
  | _ => rw [Atom.text]; exact ⟨_, _, rfl, by decide⟩

theorem piece_head {p : Piece} {next : Bytes} (h : p.Ok uni next) : ∃ b t, p.text = b :: t ∧ b ≠ 63 := by
  cases p with
  | once a => rw [Piece.Ok] at h; rw [Piece.text]; exact atom_head h
  | times a t lazy =>
    rw [Piece.Ok] at h
    obtain ⟨b, r, e, hb⟩ := atom_head h.1
    rw [Piece.text, e]
    exact ⟨b, _, rfl, hb⟩
  | flags f => rw [Piece.text]; exact ⟨40, _, rfl, by decide⟩
  | quoted rs closed => rw [Piece.text]; exact ⟨92, _, rfl, by decide⟩

theorem seq_head {s : Seq} {next : Bytes} (h : s.Ok uni next) (hn : next.head? ≠ some 63) : (s.text ++ next).head? ≠ some 63 := by
  cases s with
  | nil => rw [Seq.text]; exact hn
  | cons p s =>
    rw [Seq.Ok] at h
    obtain ⟨b, t, e, hb⟩ := piece_head h.1
    rw [Seq.text, e]
    simpa using hb

theorem alts_head {a : Alts} {next : Bytes} (h : a.Ok uni next) (hn : next.head? ≠ some 63) : (a.text ++ next).head? ≠ some 63 := by
  cases a with
  | one s => rw [Alts.Ok] at h; rw [Alts.text]; exact seq_head h hn
  | or s more =>
    rw [Alts.Ok] at h
    rw [Alts.text, List.append_assoc, List.cons_append]
    exact seq_head h.1 (by simp)

/-! ## Names of groups -/

theorem alnum_eq (c : UInt8) : Hound.isAlnum c = Pat.isAlnum c := rfl

theorem captureName_read {n : Bytes} (h1 : n ≠ []) (h2 : ∀ c ∈ n, Pat.isAlnum c = true ∨ c = 95) (next : Bytes) :
    isValidCaptureName n = true ∧ cutAt 62 (n ++ 62 :: next) = some (n, next) := by
  refine ⟨?_, cutAt_read next fun d hd => ?_⟩
  · rw [isValidCaptureName, Bool.and_eq_true]
    refine ⟨by cases n <;> simp_all, List.all_eq_true.2 fun c hc => ?_⟩
    rw [Bool.or_eq_true, beq_iff_eq, alnum_eq]
    exact (h2 c hc).symm
  · rintro rfl
    exact absurd (h2 62 hd) (by decide)

end Hound.GoRe
