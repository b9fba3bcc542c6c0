import Verif.Proofs.GrepProps

/-!
# C02, C03, C04 for one file: what `grep2` reports

`mt` is any line matcher for a pattern `acc` (`Spec.IsLineMatcher`); `Verif.Props.Matcher` shows
that hound's own matcher is one.  `grepAll mt nctx buf` is the list of all callback invocations of
the modelled `grep2` on the file content `buf`.
-/

namespace Hound
open Spec

/-- **C02** (one file). Every reported match carries the text of an existing line under its correct
number (counting from 1), and the pattern accepts this line. The only exception is the empty text
after a final newline, which the code reports as a line of its own. -/
theorem grep_match_is_a_line_partial {mt : Bytes → Option Nat} {acc : LineAcc}
    (hmt : IsLineMatcher mt acc) (nctx : Nat) (buf : Bytes) (m : LineMatch)
    (hm : m ∈ grepAll mt nctx buf) :
    1 ≤ m.lineno ∧
    ((lines buf)[m.lineno - 1]? = some m.line ∨
      (m.line = [] ∧ m.lineno = (lines buf).length + 1 ∧ buf.getLast? = some NL)) ∧
    ∃ bot eot, acc bot eot m.line = true := by
  obtain ⟨l1, l2, h⟩ := List.append_of_mem hm
  have f := grepAll_facts hmt nctx buf l1 m l2 h
  refine ⟨by have := f.lt; omega, ?_, _, _, f.accepted⟩
  have hne := pieces_ne_nil buf
  have hline := f.line
  have hle := f.le
  have hlt := f.lt
  rw [lines_eq]
  unfold dropEmptyLast
  split
  · rename_i hlast
    by_cases hk : m.lineno - 1 < (pieces buf).length - 1
    · left
      rw [List.getElem?_dropLast, if_pos hk]; exact hline
    · right
      have hk' : m.lineno - 1 = (pieces buf).length - 1 := by omega
      have hpl : m.line = [] := by
        rw [hk', ← List.getLast?_eq_getElem?, hlast] at hline
        exact (Option.some.inj hline).symm
      refine ⟨hpl, by rw [List.length_dropLast]; omega, ?_⟩
      rcases (getLast_pieces buf).1 hlast with rfl | h
      · have := f.phantom hpl (by omega)
        simp [pieces] at this hk'
        omega
      · exact h
  · left; exact hline

/-- **C03** (one file, exact form). For a pattern that does not refer to the start of the text, the
reported (number, line) pairs are exactly the accepted lines of the file, each once and in order,
followed by the extra empty "line" after a final newline in the case described by
`Spec.phantom`. -/
theorem grep_reports_each_line_once_exact {mt : Bytes → Option Nat} {acc : LineAcc}
    (hmt : IsLineMatcher mt acc) (hbot : ∀ eot l, acc true eot l = acc false eot l)
    (nctx : Nat) (buf : Bytes) :
    (grepAll mt nctx buf).map (fun m => (m.lineno, m.line)) =
      acceptedLines acc buf ++ phantom acc buf :=
  grepAll_pairs hmt hbot nctx buf

theorem acceptedFrom_local (p : Bytes → Bool) (z b : Bool) (n : Nat) (ls : List Bytes) :
    acceptedFrom (fun _ _ l => p l) z b n ls = matchingLinesFrom p n ls := by
  induction ls generalizing n b with
  | nil => rfl
  | cons l ls ih =>
    cases ls with
    | nil => simp [acceptedFrom, matchingLinesFrom]
    | cons m ls => simp only [acceptedFrom, ih, matchingLinesFrom]

/-- **C03** (one file). For a line-local pattern `p` that does not match the empty line (or a file
that does not end in a newline) the reported (number, line) pairs are exactly the lines of the file
matching `p`, each once, in increasing order. -/
theorem grep_reports_each_line_once_partial {mt : Bytes → Option Nat} {p : Bytes → Bool}
    (hmt : IsLineMatcher mt (fun _ _ l => p l)) (nctx : Nat) (buf : Bytes)
    (hph : p [] = false ∨ buf.getLast? ≠ some NL) :
    (grepAll mt nctx buf).map (fun m => (m.lineno, m.line)) = matchingLines p buf := by
  rw [grepAll_pairs hmt (fun _ _ => rfl)]
  have : phantom (fun _ _ l => p l) buf = [] := by
    unfold phantom
    split
    · rfl
    · rw [if_neg]
      rintro ⟨h1, h2, -⟩
      rcases hph with h | h
      · simp [h] at h2
      · exact h h1
  rw [this, List.append_nil, acceptedLines, acceptedFrom_local]; rfl

/-- The reported line numbers are strictly increasing, for every pattern. -/
theorem grep_linenos_increasing {mt : Bytes → Option Nat} {acc : LineAcc}
    (hmt : IsLineMatcher mt acc) (nctx : Nat) (buf : Bytes) :
    ((grepAll mt nctx buf).map (·.lineno)).Pairwise (· < ·) := by
  have key : ∀ (l : List LineMatch), (∀ l1 m l2, l = l1 ++ m :: l2 →
      ((l1.getLast?.map (·.lineno)).getD 0) < m.lineno) →
      (l.map (·.lineno)).Pairwise (· < ·) := by
    intro l h
    rcases List.eq_nil_or_concat l with rfl | ⟨q, x, rfl⟩
    · simp
    · -- induction over the prefix
      simp only [List.concat_eq_append] at h ⊢
      generalize hl : q ++ [x] = l at h
      clear hl q x
      have : ∀ (n : Nat), ∀ (pre : List LineMatch), (∃ post, l = pre ++ post) → pre.length = n →
          (pre.map (·.lineno)).Pairwise (· < ·) ∧
          (∀ a ∈ pre, a.lineno ≤ (pre.getLast?.map (·.lineno)).getD 0) := by
        intro n
        induction n with
        | zero =>
          intro pre _ hn
          have : pre = [] := List.length_eq_zero_iff.1 hn
          subst this; simp
        | succ n ih =>
          rintro pre ⟨post, hpre⟩ hn
          rcases List.eq_nil_or_concat pre with rfl | ⟨q, x, rfl⟩
          · simp
          · simp only [List.concat_eq_append] at *
            have hq := ih q ⟨x :: post, by simp [hpre]⟩ (by simpa using hn)
            have hx := h q x post (by simp [hpre])
            refine ⟨?_, ?_⟩
            · rw [List.map_append, List.pairwise_append]
              refine ⟨hq.1, by simp, ?_⟩
              intro a ha b hb
              simp only [List.map_cons, List.map_nil, List.mem_singleton] at hb
              subst hb
              obtain ⟨y, hy, rfl⟩ := List.mem_map.1 ha
              exact Nat.lt_of_le_of_lt (hq.2 y hy) hx
            · intro a ha
              simp only [List.mem_append, List.mem_singleton] at ha
              simp only [List.getLast?_append, List.getLast?_singleton, Option.some_or,
                Option.map_some, Option.getD_some]
              rcases ha with ha | rfl
              · exact Nat.le_of_lt (Nat.lt_of_le_of_lt (hq.2 a ha) hx)
              · exact Nat.le_refl _
      exact (this l.length l ⟨[], by simp⟩ rfl).1
  exact key _ (fun l1 m l2 h => (grepAll_facts hmt nctx buf l1 m l2 h).lt)

/-- **C04**, After. The After context of a reported match is exactly the next `nctx` lines of the
file (fewer only at the end of the file). -/
theorem grep_after_context {mt : Bytes → Option Nat} {acc : LineAcc}
    (hmt : IsLineMatcher mt acc) (nctx : Nat) (buf : Bytes) (m : LineMatch)
    (hm : m ∈ grepAll mt nctx buf) :
    m.after = ((lines buf).drop m.lineno).take nctx := by
  obtain ⟨l1, l2, h⟩ := List.append_of_mem hm
  have f := grepAll_facts hmt nctx buf l1 m l2 h
  rw [f.after, dropEmptyLast_drop, ← lines_eq]

/-- **C04**, Before, exact form. Let `prev` be the number of the previously reported line (0 if
none). The Before context of a match consists of the last `nctx` lines among those strictly between
`prev` and the match -- except that the first of these lines is skipped when it is empty. -/
theorem grep_before_context_partial {mt : Bytes → Option Nat} {acc : LineAcc}
    (hmt : IsLineMatcher mt acc) (nctx : Nat) (buf : Bytes)
    (l1 : List LineMatch) (m : LineMatch) (l2 : List LineMatch)
    (h : grepAll mt nctx buf = l1 ++ m :: l2) :
    let prev := (l1.getLast?.map (·.lineno)).getD 0
    let between := ((lines buf).take (m.lineno - 1)).drop prev
    m.before = takeLast nctx (if between.head? = some [] then between.tail else between) := by
  intro prev between
  have f := grepAll_facts hmt nctx buf l1 m l2 h
  have hb : between = ((pieces buf).take (m.lineno - 1)).drop prev := by
    show ((lines buf).take (m.lineno - 1)).drop prev = _
    rw [lines_eq, ← dropEmptyLast_take _ _ (by have := f.le; have := f.lt; omega)]
  rw [f.before, ← hb]
  congr 1
  rcases between with _ | ⟨x, xs⟩
  · simp [dropEmptyHead]
  · cases x with
    | nil => simp [dropEmptyHead]
    | cons c cs => simp [dropEmptyHead]

/-- **C04**, Before. The Before context is always a run of consecutive lines of the file ending
right before the match, at most `nctx` long. -/
theorem grep_before_context_run {mt : Bytes → Option Nat} {acc : LineAcc}
    (hmt : IsLineMatcher mt acc) (nctx : Nat) (buf : Bytes) (m : LineMatch)
    (hm : m ∈ grepAll mt nctx buf) :
    m.before.length ≤ nctx ∧
    m.before = takeLast m.before.length ((lines buf).take (m.lineno - 1)) := by
  obtain ⟨l1, l2, h⟩ := List.append_of_mem hm
  have e := grep_before_context_partial hmt nctx buf l1 m l2 h
  simp only at e
  generalize hT : (lines buf).take (m.lineno - 1) = T at e
  generalize hp : (l1.getLast?.map (·.lineno)).getD 0 = prev at e
  -- every expression on the right is a suffix of `T`
  have hsuf : ∃ k, m.before = T.drop k := by
    rw [e]
    split
    · rw [takeLast, List.tail_drop, List.drop_drop]; exact ⟨_, rfl⟩
    · rw [takeLast, List.drop_drop]; exact ⟨_, rfl⟩
  constructor
  · rw [e]; simp only [takeLast, List.length_drop]; omega
  · obtain ⟨k, hk⟩ := hsuf
    rw [hk, takeLast, List.length_drop]
    by_cases hkl : k ≤ T.length
    · rw [show T.length - (T.length - k) = k by omega]
    · rw [List.drop_of_length_le (by omega), List.drop_of_length_le (by omega)]

/-! ### Concrete instances -/

/-- A simple pattern for the examples: lines containing the byte `c`. -/
def exAcc (c : UInt8) : LineAcc := fun _ _ l => l.contains c
def exMt (acc : LineAcc) : Bytes → Option Nat := fun buf => firstEnd acc true (pieces buf) 0
theorem exMt_isLineMatcher (acc : LineAcc) : IsLineMatcher (exMt acc) acc := fun _ _ => rfl

-- a text with matching and non-matching lines, an empty line and no final newline
example : (grepAll (exMt (exAcc 120)) 2 b!"a\nx1\n\nb\nx2\nc").map (fun m => (m.lineno, m.line)) =
    [(2, b!"x1"), (5, b!"x2")] := by decide
example : grepAll (exMt (exAcc 120)) 2 b!"a\nx1\nb\nc\nx2\nd" =
    [⟨b!"x1", 2, [b!"a"], [b!"b", b!"c"]⟩, ⟨b!"x2", 5, [b!"b", b!"c"], [b!"d"]⟩] := by decide
-- the hypotheses of `grep_reports_each_line_once_partial` are met and the conclusion is not empty
example : (fun l : Bytes => l.contains 120) [] = false ∧
    matchingLines (fun l => l.contains 120) b!"a\nx1\n\nb\nx2\n" = [(2, b!"x1"), (5, b!"x2")] := by
  decide

/-! ### Defects (kernel-checked counterexamples) -/

/-- The full statement of **C04** for Before contexts: the last `nctx` lines between the previously
reported match and this one. It is false of the code, see `not_beforeContextFull`; what holds is
`grep_before_context_partial` (the first line of the gap is lost when it is empty). -/
def BeforeContextFull : Prop :=
  ∀ (mt : Bytes → Option Nat) (acc : LineAcc), IsLineMatcher mt acc →
  ∀ (nctx : Nat) (buf : Bytes) (l1 : List LineMatch) (m : LineMatch) (l2 : List LineMatch),
    grepAll mt nctx buf = l1 ++ m :: l2 →
    m.before = takeLast nctx (((lines buf).take (m.lineno - 1)).drop
      ((l1.getLast?.map (·.lineno)).getD 0))

/-- **C04 fails as stated in full**: for the text "\nfoo" and one line of context, line 1 (empty) is
the true neighbour of the match on line 2, but the reported Before context is empty. -/
theorem not_beforeContextFull : ¬ BeforeContextFull := by
  intro h
  have := h _ _ (exMt_isLineMatcher (exAcc 102)) 1 b!"\nfoo" [] ⟨b!"foo", 2, [], []⟩ [] (by decide)
  revert this; decide

/-- The full statement of **C02**/**C03** for one file and a line-local pattern. It is false of the
code, see `not_eachLineOnceFull`; what holds is `grep_reports_each_line_once_exact`. -/
def EachLineOnceFull : Prop :=
  ∀ (mt : Bytes → Option Nat) (p : Bytes → Bool), IsLineMatcher mt (fun _ _ l => p l) →
  ∀ (nctx : Nat) (buf : Bytes),
    (grepAll mt nctx buf).map (fun m => (m.lineno, m.line)) = matchingLines p buf

/-- **C02 and C03 fail for patterns accepting the empty line**: the pattern "empty line" (`^$`) on the
one-line text "a\n" reports line 2, which does not exist. -/
theorem not_eachLineOnceFull : ¬ EachLineOnceFull := by
  intro h
  have := h _ (fun l => l.isEmpty) (exMt_isLineMatcher (fun _ _ l => l.isEmpty)) 0 b!"a\n"
  revert this; decide

/-- **C03 fails for patterns anchored at the start of the text** (`\A`): after each reported line
the rest of the file is treated as a new text, so `\Ax` reports line 2 of "x\nx". -/
theorem grep_begin_text_counterexample :
    (grepAll (exMt (fun bot _ l => bot && l.head? == some 120)) 0 b!"x\nx").map (·.lineno) = [1, 2] ∧
    acceptedLines (fun bot _ l => bot && l.head? == some 120) b!"x\nx" = [(1, b!"x")] := by decide

end Hound
