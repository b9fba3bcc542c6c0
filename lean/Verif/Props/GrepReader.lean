import Verif.Model.GrepReader
import Verif.Spec.Stream
import Verif.Proofs.Grep
import Verif.Proofs.Client
import Verif.Props.BufferedIO
import Verif.Props.Matcher

/-!
# Searching a stream: C70
-/

namespace Hound.Stream
open Spec

/-! ### Lines -/

theorem fullLines_nl {p : Bytes} (h : NL ∉ p) (b : Bytes) : fullLines (p ++ NL :: b) = (p ++ [NL]) :: fullLines b := by
  induction p with
  | nil => simp [fullLines, NL]
  | cons c p ih =>
    have hc : c ≠ 10 := fun e => h (by simp [e, NL])
    rw [List.cons_append, fullLines, if_neg hc, ih (fun hm => h (List.mem_cons_of_mem _ hm))]
    rfl

theorem fullLines_last {p : Bytes} (h : NL ∉ p) (hp : p ≠ []) : fullLines p = [p] := by
  induction p with
  | nil => exact absurd rfl hp
  | cons c p ih =>
    have hc : c ≠ 10 := fun e => h (by simp [e, NL])
    rw [fullLines, if_neg hc]
    by_cases hp : p = []
    · rw [hp]; rfl
    · rw [ih (fun hm => h (List.mem_cons_of_mem _ hm)) hp]

theorem getLast_free {p : Bytes} (h : NL ∉ p) : p.getLast? ≠ some 10 := fun e => h (List.mem_of_getLast? e)

theorem lineBody_free {p : Bytes} (h : NL ∉ p) : lineBody p = p := by rw [lineBody, if_neg (getLast_free h)]

theorem lineBody_nl (p : Bytes) : lineBody (p ++ [NL]) = p := by simp [lineBody, NL]

/-- The text ends with a newline, or is empty. -/
def Whole (b : Bytes) : Prop := b = [] ∨ b.getLast? = some 10

theorem whole_tail {a b : Bytes} (h : Whole (a ++ b)) : Whole b := by
  by_cases hb : b = []
  · exact .inl hb
  · rcases h with h | h
    · exact .inl (List.append_eq_nil_iff.1 h).2
    · right
      rw [List.getLast?_append] at h
      cases hg : b.getLast? with
      | none => exact absurd (List.getLast?_eq_none_iff.1 hg) hb
      | some x => rw [hg] at h; exact h

theorem first_full {acc : LineAcc} (hne : NoEmptyLine acc) {bt et : Bool} : ∀ (ps : List Bytes) (f : Bool) (n off : Nat),
    ps ≠ [] → (∀ p ∈ ps, NL ∉ p) → (et = true ∨ Whole (unpieces ps)) →
    (firstEnd (fun f l p => acc (f && bt) (l && et) p) f ps off = none ∧
      report acc (f && bt) n (fullLines (unpieces ps)) = []) ∨
    ∃ pre p tl post, unpieces ps = nlTerm pre ++ (p ++ (tl ++ post)) ∧ (∀ q ∈ pre, NL ∉ q) ∧ NL ∉ p ∧ p ≠ [] ∧
      (tl = [NL] ∨ (tl = [] ∧ post = [])) ∧ (et = true ∨ Whole post) ∧
      firstEnd (fun f l p => acc (f && bt) (l && et) p) f ps off = some (off + (nlTerm pre).length + p.length) ∧
      report acc (f && bt) n (fullLines (unpieces ps)) =
        (n + pre.length, p ++ tl) :: report acc false (n + pre.length + 1) (fullLines post) := by
  intro ps
  induction ps with
  | nil => intro _ _ _ h; exact absurd rfl h
  | cons p ps ih =>
    intro f n off _ hfree hw
    have hp : NL ∉ p := hfree p (by simp)
    cases ps with
    | nil =>
      by_cases hpe : p = []
      · left
        subst hpe
        simp [firstEnd, hne _ _, unpieces, fullLines, report]
      · have het : et = true := hw.resolve_right fun hw => hw.elim hpe (getLast_free hp)
        subst het
        simp only [firstEnd, unpieces, fullLines_last hp hpe, report, lineBody_free hp, getLast_free hp, ne_eq,
          not_false_eq_true, decide_true, Bool.and_true, List.append_nil]
        by_cases ha : acc (f && bt) true p = true
        · right
          refine ⟨[], p, [], [], by simp [nlTerm], by simp, hp, hpe, .inr ⟨rfl, rfl⟩, .inl trivial, by simp [ha, nlTerm], ?_⟩
          simp [ha, fullLines, report]
        · left
          simp [ha]
    | cons q ps =>
      have hu : unpieces (p :: q :: ps) = p ++ NL :: unpieces (q :: ps) := rfl
      have hw' : et = true ∨ Whole (unpieces (q :: ps)) := by
        rcases hw with h | h
        · exact .inl h
        · right
          rw [hu, show p ++ NL :: unpieces (q :: ps) = (p ++ [NL]) ++ unpieces (q :: ps) by simp] at h
          exact whole_tail h
      rw [hu, fullLines_nl hp]
      simp only [firstEnd, report, lineBody_nl, Bool.false_and]
      rw [show (p ++ [NL]).getLast? = some 10 by simp [NL]]
      simp only [ne_eq, not_true_eq_false, decide_false]
      by_cases ha : acc (f && bt) false p = true
      · right
        have hpe : p ≠ [] := fun e => by rw [e, hne] at ha; cases ha
        refine ⟨[], p, [NL], unpieces (q :: ps), by simp [nlTerm], by simp, hp, hpe, .inl rfl, hw', by simp [ha, nlTerm], ?_⟩
        simp [ha]
      · rcases ih false (n + 1) (off + p.length + 1) (by simp) (fun x hx => hfree x (by simp [hx])) hw' with
          ⟨h1, h2⟩ | ⟨pre, p', tl, post, h1, h2, h3, h4, h5, h6, h7, h8⟩
        · left
          rw [Bool.false_and] at h2
          simp [ha, h1, h2]
        · right
          rw [Bool.false_and] at h8
          refine ⟨p :: pre, p', tl, post, by rw [h1]; simp [nlTerm], ?_, h3, h4, h5, h6, ?_, ?_⟩
          · intro x hx
            rcases List.mem_cons.1 hx with rfl | hx
            · exact hp
            · exact h2 x hx
          · simp only [ha, h7, nlTerm, List.length_append, List.length_cons, Bool.false_eq_true, if_false, Option.some.injEq]
            omega
          · rw [h8]
            simp only [ha, Bool.false_eq_true, if_false, List.nil_append, List.length_cons]
            rw [show n + 1 + pre.length = n + (pre.length + 1) by omega]

theorem indexByte_split {b : Bytes} {i : Nat} (h : indexByte b NL = some i) :
    b.count NL = 1 + (b.drop (i + 1)).count NL := by
  induction b generalizing i with
  | nil => cases h
  | cons c b ih =>
    rw [indexByte] at h
    by_cases hc : c = NL
    · rw [if_pos hc] at h
      cases h
      rw [hc, List.count_cons_self]
      simp [Nat.add_comm]
    · rw [if_neg hc] at h
      cases hb : indexByte b NL with
      | none => rw [hb] at h; cases h
      | some j =>
        rw [hb] at h
        cases h
        rw [List.count_cons_of_ne (fun e => hc e), ih hb]
        rfl

theorem indexByte_none_count {b : Bytes} (h : indexByte b NL = none) : b.count NL = 0 := by
  induction b with
  | nil => rfl
  | cons c b ih =>
    rw [indexByte] at h
    by_cases hc : c = NL
    · rw [if_pos hc] at h; cases h
    · rw [if_neg hc] at h
      cases hb : indexByte b NL with
      | none => rw [List.count_cons_of_ne (fun e => hc e), ih hb]
      | some j => rw [hb] at h; cases h

theorem countLinesAux_count : ∀ (fuel : Nat) (b : Bytes) (n : Nat), b.length ≤ fuel → countLinesAux fuel b n = n + b.count NL := by
  intro fuel
  induction fuel with
  | zero => intro b n h; rw [List.length_eq_zero_iff.1 (by omega : b.length = 0)]; rfl
  | succ fuel ih =>
    intro b n h
    rw [countLinesAux]
    cases hb : indexByte b NL with
    | none => simp only [indexByte_none_count hb, Nat.add_zero]
    | some i =>
      simp only
      rw [ih _ _ (by rw [List.length_drop]; cases b with
        | nil => cases hb
        | cons c b => simp at h ⊢; omega), indexByte_split hb]
      omega

theorem countLines_count (b : Bytes) : countLines b = b.count NL := by
  rw [countLines, countLinesAux_count _ _ _ (Nat.le_refl _), Nat.zero_add]

theorem countLines_append (a b : Bytes) : countLines (a ++ b) = countLines a + countLines b := by
  simp only [countLines_count, List.count_append]

theorem afterLastNL_line {pre : List Bytes} {p : Bytes} (hp : NL ∉ p) :
    afterLastNL (nlTerm pre ++ p) = (nlTerm pre).length := by
  unfold afterLastNL
  rcases List.eq_nil_or_concat pre with rfl | ⟨qs, q, rfl⟩
  · simp [nlTerm, lastIndexByte_none hp]
  · rw [List.concat_eq_append, nlTerm_concat, List.append_assoc, List.singleton_append, lastIndexByte_append _ _ hp]
    simp

section
variable {σ : Type} {mt : Bytes → Bool → Bool → Option Nat} {fn : σ → Nat → Bytes → σ × Bool} {acc : LineAcc}

theorem inner_spec (hmt : IsStreamMatcher mt acc) (hne : NoEmptyLine acc) {et : Bool} : ∀ (fuel : Nat) (R : Bytes) (n : Nat)
    (bt : Bool) (st : σ), R.length ≤ fuel → (et = true ∨ Whole R) →
    ((inner mt fn et fuel R n bt st).st, (inner mt fn et fuel R n bt st).more) =
      handOver fn (report acc bt n (fullLines R)) st ∧
    ((inner mt fn et fuel R n bt st).more = true →
      (Whole R → (inner mt fn et fuel R n bt st).lineno + countLines (inner mt fn et fuel R n bt st).rest = n + countLines R) ∧
      (inner mt fn et fuel R n bt st).begin = (bt && R.isEmpty)) := by
  intro fuel
  induction fuel with
  | zero =>
    intro R n bt st h _
    rw [List.length_eq_zero_iff.1 (by omega : R.length = 0)]
    simp [inner, fullLines, report, handOver]
  | succ fuel ih =>
    intro R n bt st hf hw
    by_cases hR : R = []
    · subst hR
      simp [inner, fullLines, report, handOver]
    · have hl : ¬ R.length = 0 := fun e => hR (List.length_eq_zero_iff.1 e)
      have hRe : R.isEmpty = false := by cases R with
        | nil => exact absurd rfl hR
        | cons => rfl
      have hm := hmt R bt et hR
      have hu : R = unpieces (pieces R) := (unpieces_pieces R).symm
      have hff := first_full (bt := bt) (et := et) hne (pieces R) true n 0 (pieces_ne_nil R) (pieces_nlfree R)
        (by rw [← hu]; exact hw)
      rw [← hu] at hff
      rw [Bool.true_and] at hff
      rw [inner, if_neg hl, hm]
      rcases hff with ⟨h1, h2⟩ | ⟨pre, p, tl, post, h1, h2, h3, h4, h5, h6, h7, h8⟩
      · rw [h1, h2]
        simp [handOver, hRe]
      · rw [h7, h8, Nat.zero_add]
        have htm : R.take ((nlTerm pre).length + p.length) = nlTerm pre ++ p := by
          rw [h1, ← List.append_assoc, ← List.length_append, List.take_left]
        have hts : R.take (nlTerm pre).length = nlTerm pre := by rw [h1, List.take_left]
        simp only [htm, afterLastNL_line h3, hts, countLines_nlTerm h2]
        have hfin : (if (nlTerm pre).length + p.length + 1 > R.length then R.length
            else (nlTerm pre).length + p.length + 1) = (nlTerm pre ++ (p ++ tl)).length := by
          have : R.length = (nlTerm pre).length + (p.length + (tl.length + post.length)) := by
            rw [h1]; simp
          rcases h5 with rfl | ⟨rfl, rfl⟩
          · rw [if_neg (by simp at this; omega)]; simp; omega
          · rw [if_pos (by simp at this; omega)]; simp at this ⊢; omega
        have hR2 : R = (nlTerm pre ++ (p ++ tl)) ++ post := by rw [h1]; simp
        have htf : R.take (nlTerm pre ++ (p ++ tl)).length = nlTerm pre ++ (p ++ tl) := by
          rw [hR2, List.take_left]
        have hdf : R.drop (nlTerm pre ++ (p ++ tl)).length = post := by
          rw [hR2, List.drop_left]
        rw [hfin, htf, hdf, List.drop_left]
        simp only [handOver]
        by_cases hmore : (fn st (n + pre.length) (p ++ tl)).2 = true
        · rw [if_pos hmore, if_pos hmore]
          have hpl : 0 < p.length := List.length_pos_iff.2 h4
          obtain ⟨i1, i2⟩ := ih post (n + pre.length + 1) false (fn st (n + pre.length) (p ++ tl)).1
            (by have := congrArg List.length h1; simp at this; omega) h6
          refine ⟨i1, fun hm => ?_⟩
          obtain ⟨i3, i4⟩ := i2 hm
          refine ⟨fun hwR => ?_, by rw [i4, hRe]; simp⟩
          have hwp : tl = [NL] ∧ Whole post := by
            rcases h5 with rfl | ⟨rfl, rfl⟩
            · refine ⟨rfl, ?_⟩
              rw [h1, ← List.append_assoc, ← List.append_assoc] at hwR
              exact whole_tail hwR
            · exfalso
              rw [h1, List.append_nil, List.append_nil] at hwR
              rcases hwR with h | h
              · exact h4 (List.append_eq_nil_iff.1 h).2
              · rw [List.getLast?_append] at h
                cases hg : p.getLast? with
                | none => exact h4 (List.getLast?_eq_none_iff.1 hg)
                | some x => rw [hg] at h; exact getLast_free h3 (hg.trans h)
          rw [i3 hwp.2, h1, countLines_append, countLines_append, countLines_append, countLines_nlTerm h2]
          have : countLines p = 0 := by rw [countLines_count, List.count_eq_zero]; exact h3
          rw [this]
          rw [hwp.1, show countLines [NL] = 1 by decide]
          omega
        · rw [if_neg hmore, if_neg hmore]
          exact ⟨by simp, fun h => by cases h⟩

/-! ### The stream -/

theorem readFull_take {fails : Bool} (cs : List Bytes) (want : Nat) :
    (readFull fails cs want).1 = cs.flatten.take want ∧ (readFull fails cs want).2.1.flatten = cs.flatten.drop want ∧
    ((readFull fails cs want).2.2 = .full ↔ want ≤ cs.flatten.length) ∧
    ((readFull fails cs want).2.2 ≠ .full → (readFull fails cs want).2.2 = if fails then .err else .eof) := by
  induction cs generalizing want with
  | nil =>
    by_cases h : want = 0
    · simp [readFull, h]
    · cases fails <;> simp [readFull, h]
  | cons c cs ih =>
    rw [readFull]
    by_cases h : want = 0
    · simp [h]
    · rw [if_neg h]
      by_cases hc : c.length ≤ want
      · rw [if_pos hc]
        obtain ⟨i1, i2, i3, i4⟩ := ih (want - c.length)
        refine ⟨?_, ?_, ?_, i4⟩
        · rw [List.flatten_cons, List.take_append, List.take_of_length_le hc, ← i1]
        · rw [List.flatten_cons, List.drop_append, List.drop_eq_nil_of_le hc, List.nil_append, ← i2]
        · rw [i3, List.flatten_cons, List.length_append]; omega
      · rw [if_neg hc]
        have : want ≤ c.length := by omega
        refine ⟨?_, ?_, ?_, fun h => absurd rfl h⟩
        · rw [List.flatten_cons, List.take_append_of_le_length this]
        · rw [List.flatten_cons, List.flatten_cons, List.drop_append_of_le_length this]
        · simp; omega

theorem afterLast_split (b : Bytes) : ∃ a t, b = a ++ t ∧ a.length = afterLastNL b ∧ Whole a ∧ NL ∉ t := by
  induction b with
  | nil => exact ⟨[], [], rfl, rfl, .inl rfl, by simp⟩
  | cons c b ih =>
    obtain ⟨a, t, h1, h2, h3, h4⟩ := ih
    unfold afterLastNL at h2 ⊢
    rw [lastIndexByte]
    cases hb : lastIndexByte b NL with
    | some i =>
      rw [hb] at h2
      refine ⟨c :: a, t, by rw [h1]; rfl, by simp at h2 ⊢; omega, ?_, h4⟩
      right
      rcases h3 with rfl | h3
      · simp at h2
      · rw [List.getLast?_cons, h3]; rfl
    | none =>
      rw [hb] at h2
      have ha : a = [] := List.length_eq_zero_iff.1 h2
      subst ha
      by_cases hc : c = NL
      · rw [if_pos hc]
        exact ⟨[c], t, by rw [h1]; rfl, rfl, .inr (by rw [hc]; rfl), h4⟩
      · rw [if_neg hc]
        refine ⟨[], c :: t, by rw [h1]; rfl, rfl, .inl rfl, ?_⟩
        intro hm
        rcases List.mem_cons.1 hm with e | hm
        · exact hc e.symm
        · exact h4 hm

theorem whole_cons {c : UInt8} {a : Bytes} (h : Whole (c :: a)) : (a = [] ∧ c = NL) ∨ (a ≠ [] ∧ Whole a) := by
  by_cases ha : a = []
  · left
    subst ha
    rcases h with h | h
    · cases h
    · simp at h; exact ⟨rfl, h⟩
  · right
    exact ⟨ha, whole_tail (a := [c]) h⟩

theorem fullLines_ne {a : Bytes} (h : a ≠ []) : fullLines a ≠ [] := by
  cases a with
  | nil => exact absurd rfl h
  | cons c a =>
    rw [fullLines]
    split
    · simp
    · split <;> simp

theorem fullLines_append {a : Bytes} (h : Whole a) (b : Bytes) : fullLines (a ++ b) = fullLines a ++ fullLines b := by
  induction a with
  | nil => rfl
  | cons c a ih =>
    rcases whole_cons h with ⟨rfl, rfl⟩ | ⟨ha, hw⟩
    · rfl
    · rw [List.cons_append, fullLines, fullLines, ih hw]
      split
      · rfl
      · cases hf : fullLines a with
        | nil => exact absurd hf (fullLines_ne ha)
        | cons l ls => rfl

theorem lines_append {a : Bytes} (h : Whole a) (b : Bytes) : lines (a ++ b) = lines a ++ lines b := by
  induction a with
  | nil => rfl
  | cons c a ih =>
    rcases whole_cons h with ⟨rfl, rfl⟩ | ⟨ha, hw⟩
    · rfl
    · rw [List.cons_append, lines, lines, ih hw]
      split
      · rfl
      · cases hf : lines a with
        | nil =>
          cases a with
          | nil => exact absurd rfl ha
          | cons c a => exact absurd hf (lines_cons_ne c a)
        | cons l ls => rfl

theorem lines_long {p : Bytes} (h : NL ∉ p) (hp : p ≠ []) (b : Bytes) : ∃ l ∈ lines (p ++ b), p.length ≤ l.length := by
  have : ∃ l ls, lines (p ++ b) = l :: ls ∧ p.length ≤ l.length := by
    induction p with
    | nil => exact absurd rfl hp
    | cons c p ih =>
      have hc : c ≠ 10 := fun e => h (by simp [e, NL])
      rw [List.cons_append, lines, if_neg hc]
      by_cases hpe : p = []
      · subst hpe
        cases lines ([] ++ b) with
        | nil => exact ⟨_, _, rfl, by simp⟩
        | cons l ls => exact ⟨_, _, rfl, by simp⟩
      · obtain ⟨l, ls, h1, h2⟩ := ih (fun hm => h (List.mem_cons_of_mem _ hm)) hpe
        rw [h1]
        exact ⟨_, _, rfl, by simp; omega⟩
  obtain ⟨l, ls, h1, h2⟩ := this
  exact ⟨l, by rw [h1]; exact List.mem_cons_self .., h2⟩

theorem fullLines_count {a : Bytes} (h : Whole a) : (fullLines a).length = countLines a := by
  rw [countLines_count]
  induction a with
  | nil => rfl
  | cons c a ih =>
    rcases whole_cons h with ⟨rfl, rfl⟩ | ⟨ha, hw⟩
    · rfl
    · rw [fullLines]
      by_cases hc : c = 10
      · rw [if_pos hc, List.length_cons, ih hw, hc]
        exact (List.count_cons_self (a := NL) (l := a)).symm
      · rw [if_neg hc, List.count_cons_of_ne hc, ← ih hw]
        cases hf : fullLines a with
        | nil => exact absurd hf (fullLines_ne ha)
        | cons l ls => rfl

theorem report_append (acc : LineAcc) : ∀ (xs ys : List Bytes) (f : Bool) (n : Nat),
    report acc f n (xs ++ ys) = report acc f n xs ++ report acc (f && xs.isEmpty) (n + xs.length) ys := by
  intro xs
  induction xs with
  | nil => intro ys f n; simp [report]
  | cons x xs ih =>
    intro ys f n
    rw [List.cons_append, report, report, ih, List.append_assoc, List.isEmpty_cons, Bool.and_false, Bool.false_and,
      List.length_cons, Nat.add_right_comm, Nat.add_assoc]

theorem handOver_append (fn : σ → Nat → Bytes → σ × Bool) : ∀ (xs ys : List (Nat × Bytes)) (st : σ),
    handOver fn (xs ++ ys) st = if (handOver fn xs st).2 then handOver fn ys (handOver fn xs st).1 else handOver fn xs st := by
  intro xs
  induction xs with
  | nil => intro ys st; simp [handOver]
  | cons x xs ih =>
    intro ys st
    rw [List.cons_append, handOver, handOver]
    split
    · exact ih _ _
    · rfl

/-- The outcome of handing over lines to the end of the stream. -/
def outcome (fails : Bool) (h : σ × Bool) : σ × Ended :=
  (h.1, if h.2 then if fails then .failed else .eof else .stopped)

theorem outer_spec (hmt : IsStreamMatcher mt acc) (hne : NoEmptyLine acc) {cap : Nat} (hcap : 0 < cap) {fails : Bool} :
    ∀ (fuel : Nat) (chunks : List Bytes) (buf : Bytes) (n : Nat) (bt : Bool) (st : σ),
    (buf ++ chunks.flatten).length < fuel → buf.length < cap → (∀ l ∈ lines (buf ++ chunks.flatten), l.length < cap) →
    outer mt fn cap fails fuel chunks buf n bt st =
      some (outcome fails (handOver fn (report acc bt n (fullLines (buf ++ chunks.flatten))) st)) := by
  intro fuel
  induction fuel with
  | zero => intro chunks buf n bt st h; exact absurd h (by omega)
  | succ fuel ih =>
    intro chunks buf n bt st hf hb hl
    obtain ⟨r1, r2, r3, r4⟩ := readFull_take (fails := fails) chunks (cap - buf.length)
    rw [outer]
    generalize readFull fails chunks (cap - buf.length) = r at r1 r2 r3 r4
    obtain ⟨d, cs, e⟩ := r
    simp only at r1 r2 r3 r4 ⊢
    have hT : buf ++ chunks.flatten = (buf ++ d) ++ cs.flatten := by
      rw [r1, r2, List.append_assoc, List.take_append_drop]
    by_cases he : e = .full
    · have hlen : (buf ++ d).length = cap := by
        have := r3.1 he
        rw [r1, List.length_append, List.length_take]
        omega
      simp only [he, if_true, ne_eq, not_true_eq_false, and_false, if_false, decide_false]
      obtain ⟨a, t, h1, h2, h3, h4⟩ := afterLast_split (buf ++ d)
      have ha : a ≠ [] := by
        intro ha
        subst ha
        have : buf ++ d ≠ [] := fun e => by rw [e] at hlen; simp at hlen; omega
        obtain ⟨l, hm, hle⟩ := lines_long (p := buf ++ d) (by rw [h1]; exact h4) this cs.flatten
        rw [← hT] at hm
        have := hl l hm
        omega
      have hap : 0 < a.length := List.length_pos_iff.2 ha
      rw [← h2, show (buf ++ d).take a.length = a by rw [h1, List.take_left],
        show (buf ++ d).drop a.length = t by rw [h1, List.drop_left]]
      obtain ⟨i1, i2⟩ := inner_spec (fn := fn) hmt hne (et := false) a.length a n bt st (Nat.le_refl _) (.inr h3)
      have hT2 : buf ++ chunks.flatten = a ++ (t ++ cs.flatten) := by rw [hT, h1, List.append_assoc]
      rw [hT2, fullLines_append h3, report_append, handOver_append, ← i1]
      cases hm : (inner mt fn false a.length a n bt st).more with
      | false => simp [outcome]
      | true =>
        obtain ⟨i3, i4⟩ := i2 hm
        simp only [if_true]
        have hae : (fullLines a).isEmpty = false := by
          cases hfl : fullLines a with
          | nil => exact absurd hfl (fullLines_ne ha)
          | cons => rfl
        have hae' : a.isEmpty = false := by
          cases a with
          | nil => exact absurd rfl ha
          | cons => rfl
        rw [i3 h3, i4, hae, hae', fullLines_count h3]
        refine ih cs t _ _ _ ?_ ?_ ?_
        · rw [hT2] at hf
          simp only [List.length_append] at hf ⊢
          omega
        · have := congrArg List.length h1
          rw [hlen, List.length_append] at this
          omega
        · intro l hm
          refine hl l ?_
          rw [hT2, lines_append h3]
          exact List.mem_append_right _ hm
    · have hd : d = chunks.flatten := by
        rw [r1]
        refine List.take_of_length_le ?_
        have : ¬ cap - buf.length ≤ chunks.flatten.length := fun h => he (r3.2 h)
        omega
      simp only [he, if_false, ne_eq, not_false_eq_true, and_true, decide_true]
      obtain ⟨i1, i2⟩ := inner_spec (fn := fn) hmt hne (et := true) (buf ++ d).length (buf ++ d) n bt st (Nat.le_refl _)
        (.inl rfl)
      rw [List.take_length, List.drop_length, ← hd, ← i1]
      cases hm : (inner mt fn true (buf ++ d).length (buf ++ d) n bt st).more with
      | false => simp [outcome]
      | true =>
        simp only [List.length_nil, if_true, outcome]
        have he2 := r4 he
        cases fails
        · simp [show e = .eof from he2]
        · simp [show e = .err from he2]

/-! ### C70 -/

/-- C70: the pieces in which the stream arrives make no difference. -/
theorem grep_pieces (mt : Bytes → Bool → Bool → Option Nat) (fn : σ → Nat → Bytes → σ × Bool) (cap fuel : Nat)
    {cs cs' : List Bytes} (fails : Bool) (st : σ) (h : cs.flatten = cs'.flatten) :
    grep mt fn cap fuel ⟨cs, fails⟩ st = grep mt fn cap fuel ⟨cs', fails⟩ st := by
  have : ∀ (fuel : Nat) (cs cs' : List Bytes) (buf : Bytes) (n : Nat) (bt : Bool) (st : σ), cs.flatten = cs'.flatten →
      outer mt fn cap fails fuel cs buf n bt st = outer mt fn cap fails fuel cs' buf n bt st := by
    intro fuel
    induction fuel with
    | zero => intros; rfl
    | succ fuel ih =>
      intro cs cs' buf n bt st h
      obtain ⟨r1, r2, r3, r4⟩ := readFull_take (fails := fails) cs (cap - buf.length)
      obtain ⟨s1, s2, s3, s4⟩ := readFull_take (fails := fails) cs' (cap - buf.length)
      rw [outer, outer]
      generalize readFull fails cs (cap - buf.length) = r at r1 r2 r3 r4
      generalize readFull fails cs' (cap - buf.length) = r' at s1 s2 s3 s4
      obtain ⟨d, cs1, e⟩ := r
      obtain ⟨d', cs1', e'⟩ := r'
      simp only at r1 r2 r3 r4 s1 s2 s3 s4
      have hd : d = d' := by rw [r1, s1, h]
      have hc : cs1.flatten = cs1'.flatten := by rw [r2, s2, h]
      have he : e = e' := by
        by_cases hf : e = .full
        · rw [hf, s3.2 (h ▸ r3.1 hf)]
        · have hf' : e' ≠ .full := fun x => hf (r3.2 (h.symm ▸ s3.1 x))
          rw [r4 hf, s4 hf']
      subst hd he
      simp only [ih cs1 cs1' _ _ _ _ hc]
  exact this fuel cs cs' [] 1 true st h

/-- C70: if every line is shorter than the buffer and the pattern accepts no empty line, exactly the accepted lines are
handed over, in order, with their numbers and with the newline that ends them, until the receiver says stop; the search
ends, and a read error is reported after the lines that could be read. -/
theorem grep_lines_partial {mt : Bytes → Bool → Bool → Option Nat} {acc : LineAcc} (hmt : IsStreamMatcher mt acc)
    (hne : NoEmptyLine acc) (fn : σ → Nat → Bytes → σ × Bool) {cap fuel : Nat} (hcap : 0 < cap) (r : Reader) (st : σ)
    (hfit : ∀ l ∈ lines r.chunks.flatten, l.length < cap) (hfuel : r.chunks.flatten.length < fuel) :
    grep mt fn cap fuel r st =
      some (outcome r.fails (handOver fn (report acc true 1 (fullLines r.chunks.flatten)) st)) :=
  outer_spec hmt hne hcap fuel r.chunks [] 1 true st hfuel hcap hfit

/-- The full claim of C70, for a buffer of any size. -/
def GrepLinesFull : Prop := ∀ (mt : Bytes → Bool → Bool → Option Nat) (acc : LineAcc), IsStreamMatcher mt acc →
  ∀ (cap : Nat) (r : Reader), 0 < cap → ∃ fuel, grep mt (fun st n l => (st ++ [(n, l)], true)) cap fuel r [] =
    some (report acc true 1 (fullLines r.chunks.flatten), if r.fails then .failed else .eof)

/-- C70: a line that does not fit into the buffer makes the search run for ever, whatever the pattern. -/
theorem grep_hangs (mt : Bytes → Bool → Bool → Option Nat) (fn : σ → Nat → Bytes → σ × Bool) {cap fuel : Nat} (r : Reader)
    (st : σ) (hp : NL ∉ r.chunks.flatten.take cap) (hl : cap ≤ r.chunks.flatten.length) :
    grep mt fn cap fuel r st = none := by
  have key : ∀ b : Bytes, NL ∉ b → afterLastNL b = 0 := by
    intro b hb
    rw [afterLastNL, lastIndexByte_none hb]
  have stuck : ∀ (fuel : Nat) (cs : List Bytes) (b : Bytes) (n : Nat) (bt : Bool) (st : σ), NL ∉ b → b.length = cap →
      outer mt fn cap r.fails fuel cs b n bt st = none := by
    intro fuel
    induction fuel with
    | zero => intros; rfl
    | succ fuel ih =>
      intro cs b n bt st hb hlen
      obtain ⟨r1, r2, r3, r4⟩ := readFull_take (fails := r.fails) cs (cap - b.length)
      rw [outer]
      generalize readFull r.fails cs (cap - b.length) = x at r1 r2 r3 r4
      obtain ⟨d, cs1, e⟩ := x
      simp only at r1 r3
      rw [hlen, Nat.sub_self] at r1 r3
      have he := r3.2 (Nat.zero_le _)
      rw [List.take_zero] at r1
      subst r1 he
      simp only [List.append_nil, if_true, key b hb, inner, ne_eq, not_true_eq_false, and_false, if_false, List.drop_zero]
      exact ih _ _ _ _ _ hb hlen
  unfold grep
  cases fuel with
  | zero => rfl
  | succ fuel =>
    obtain ⟨r1, r2, r3, r4⟩ := readFull_take (fails := r.fails) r.chunks cap
    rw [outer, List.length_nil, Nat.sub_zero]
    generalize readFull r.fails r.chunks cap = x at r1 r2 r3 r4
    obtain ⟨d, cs1, e⟩ := x
    simp only at r1 r3
    have he := r3.2 hl
    subst r1 he
    simp only [List.nil_append, if_true, key _ hp, inner, ne_eq, not_true_eq_false, and_false, if_false, List.drop_zero]
    exact stuck _ _ _ _ _ _ hp (by rw [List.length_take]; omega)

/-- The matcher for a set of lines. -/
def matcherOf (acc : LineAcc) : Bytes → Bool → Bool → Option Nat :=
  fun buf bt et => firstEnd (fun f l p => acc (f && bt) (l && et) p) true (pieces buf) 0

theorem matcherOf_ok (acc : LineAcc) : IsStreamMatcher (matcherOf acc) acc := fun _ _ _ _ => rfl

theorem not_grepLinesFull : ¬ GrepLinesFull := by
  intro h
  obtain ⟨fuel, hf⟩ := h _ _ (matcherOf_ok fun _ _ _ => false) 2 ⟨[b!"abc"], false⟩ (by decide)
  rw [grep_hangs _ _ _ _ (by decide) (by decide)] at hf
  cases hf

/-- C70: with a pattern that accepts empty lines, an empty line that does not exist is handed over where the buffer ends,
and the lines after it get wrong numbers. (The text is `a`, `b` and an empty line; the buffer has two bytes.) -/
theorem grep_phantom : grep (matcherOf fun _ _ l => l.isEmpty) (fun st n l => (st ++ [(n, l)], true)) 2 9
    ⟨[b!"a\nb\n\n"], false⟩ ([] : List (Nat × Bytes)) = some ([(2, []), (4, []), (5, [10])], .eof) ∧
    report (fun _ _ l => l.isEmpty) true 1 (fullLines b!"a\nb\n\n") = [(3, [10])] := by
  constructor <;> decide +kernel

/-- C70: hound's matcher, after any history, is a matcher for the accepted lines of its program. -/
theorem matcher_is_stream_matcher {p : Prog} (hp : ProgOK p) {M M' : Matcher} {history : List (Bytes × Bool × Bool)}
    (hi : Matcher.init p = some M) (hh : M.calls p history = some M') {acc : LineAcc}
    (hacc : ∀ bot eot l, acc bot eot l = true ↔ Accepts p bot eot l) :
    IsStreamMatcher (fun b bt et => ((M'.run p b bt et).map (·.2)).join) acc := by
  intro b bt et _
  obtain ⟨M0, h1, h2⟩ := matcher_total hp
  rw [hi] at h1; cases h1
  obtain ⟨M1, h3, h4⟩ := h2 history
  rw [hh] at h3; cases h3
  obtain ⟨M2, r, h5⟩ := h4 b bt et
  simp only [h5, Option.map_some, Option.join]
  exact match_first_line hp hi hh h5 fun f l x => hacc _ _ _

theorem handOver_print (g : Flags) (name : Bytes) : ∀ (xs : List (Nat × Bytes)) (p : Printed),
    handOver (print g name) xs p =
      if g.l then if xs = [] then (p, true) else ({ p with out := p.out ++ name ++ [NL], found := true }, false)
      else if g.c then ({ p with count := p.count + xs.length, found := p.found || !xs.isEmpty }, true)
      else ({ p with
        out := p.out ++ (xs.map fun x => (if g.h then [] else name ++ [58]) ++
          (if g.n then Client.natDigits x.1 ++ [58] else []) ++ x.2).flatten
        found := p.found || !xs.isEmpty }, true) := by
  intro xs
  induction xs with
  | nil => intro p; cases g.l <;> cases g.c <;> simp [handOver]
  | cons x xs ih =>
    intro p
    rw [handOver]
    cases hl : g.l
    · cases hc : g.c
      · have : print g name p x.1 x.2 = ({ p with
            out := p.out ++ ((if g.h then [] else name ++ [58]) ++ (if g.n then Client.natDigits x.1 ++ [58] else []) ++ x.2)
            found := true }, true) := by
          simp only [print, hl, hc]
          cases g.n <;> simp
        rw [this]
        simp only [if_true]
        rw [ih]
        simp [hl, hc]
      · simp only [print, hl, hc, if_true, Bool.false_eq_true, if_false]
        rw [ih]
        simp [hl, hc, Nat.add_comm, Nat.add_left_comm]
    · simp [print, hl]

/-- C70: what is printed for a file. -/
theorem reader_prints_partial {mt : Bytes → Bool → Bool → Option Nat} {acc : LineAcc} (hmt : IsStreamMatcher mt acc)
    (hne : NoEmptyLine acc) {cap fuel : Nat} (hcap : 0 < cap) (g : Flags) (name why : Bytes) (r : Reader)
    (hfit : ∀ l ∈ lines r.chunks.flatten, l.length < cap) (hfuel : r.chunks.flatten.length < fuel) :
    ∃ p num, reader mt cap fuel g name why r = some p ∧ (∀ n, IsNumeral (num n) n) ∧
      p.out = printed g.l g.c g.n g.h name num (report acc true 1 (fullLines r.chunks.flatten)) ∧
      (p.found = true ↔ report acc true 1 (fullLines r.chunks.flatten) ≠ []) ∧
      p.err = if r.fails ∧ ¬ (g.l ∧ p.found) then name ++ b!": " ++ why ++ [NL] else [] := by
  have h := grep_lines_partial hmt hne (print g name) hcap r {} hfit hfuel
  rw [grep] at h
  rw [reader, h]
  generalize report acc true 1 (fullLines r.chunks.flatten) = xs
  refine ⟨_, Client.natDigits, rfl, Client.natDigits_numeral, ?_⟩
  rw [handOver_print]
  cases xs with
  | nil => cases hl : g.l <;> cases hc : g.c <;> cases hf : r.fails <;> simp [outcome, printed]
  | cons x xs =>
    cases hl : g.l <;> cases hc : g.c <;> cases hf : r.fails <;> simp [outcome, printed, NL]

end

/-- Lines with an `x`, in a text read in three pieces into a buffer of four bytes. -/
example : reader (matcherOf fun _ _ l => l.contains 120) 4 20 { n := true } b!"f" b!"bad" ⟨[b!"ax\nb", b!"\nx", b!"x"], true⟩ =
    some { out := b!"f:1:ax\nf:3:xx", err := b!"f: bad\n", found := true } := by decide +kernel

/-- Its hypotheses. -/
example : NoEmptyLine (fun _ _ l => l.contains 120) ∧ (∀ l ∈ lines b!"ax\nb\nxx", l.length < 4) ∧
    report (fun _ _ l => l.contains 120) true 1 (fullLines b!"ax\nb\nxx") = [(1, b!"ax\n"), (3, b!"xx")] :=
  ⟨fun _ _ => rfl, by decide, by decide⟩

end Hound.Stream
