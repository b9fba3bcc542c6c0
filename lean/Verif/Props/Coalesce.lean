import Verif.Proofs.Coalesce
import Verif.Props.Grep

/-!
# C36: the blocks the command line client shows (`client/coalesce.go`)
-/

namespace Hound.Client
open Spec

/-- What is expected of the blocks made from the matches `ms` of a file. -/
structure BlocksFor (text : Int → Bytes) (ms : List LineMatch) (bs : List Block) : Prop where
  /-- every block is a run of consecutive lines of the file, with one flag per line -/
  runs : ∀ b ∈ bs, 0 < b.lines.length ∧ b.matches_.length = b.lines.length ∧
    ∀ i (h : i < b.lines.length), b.lines[i] = text (b.start + i)
  /-- the blocks are in order and share no line -/
  disjoint : bs.Pairwise fun a b => ∀ n, InBlock a n → ∀ k, InBlock b k → n < k
  /-- the lines in the blocks are the lines shown by the matches, no more and no less -/
  lines_iff : ∀ n, (∃ b ∈ bs, InBlock b n) ↔ ∃ m ∈ ms, ShownBy m n
  /-- a line is flagged if and only if it is the line of a match -/
  flag_iff : ∀ b ∈ bs, ∀ i, i < b.lines.length →
    (b.matches_[i]? = some true ↔ ∃ m ∈ ms, (m.lineno : Int) = b.start + i)

/-- **C36**. For all matches of a file, in the order of the file, merging succeeds (no index is out
of range) and yields disjoint, ordered runs of consecutive lines, which contain exactly the matched
and context lines; a line is flagged as match exactly if it is one. -/
theorem coalesce_exact (text : Int → Bytes) (ms : List LineMatch) (hms : ∀ m ∈ ms, MatchOf text m)
    (hord : InFileOrder ms) : ∃ bs, coalesceMatches ms = some bs ∧ BlocksFor text ms bs := by
  cases ms with
  | nil => exact ⟨[], rfl, by simp, by simp, by simp, by simp⟩
  | cons m ms =>
    obtain ⟨bs, hb, r, c, rfl, hi⟩ := cinv_loop ms [m] [] (matchToBlock m) (cinv_first (hms m (by simp)))
      (fun x hx => hms x (by simp [hx])) (by simpa using hord)
    refine ⟨r ++ [c], hb, ?_, ?_, hi.cover, ?_⟩
    · intro b hb
      have hg := hi.good b hb
      refine ⟨hg.ne, by rw [hg.flags, runOf_length], ?_⟩
      intro i h
      have h1 : b.lines[i]? = some (text (b.start + i)) := by
        rw [hg.lines]
        simp [runOf, List.getElem?_map, List.getElem?_range h]
      rw [List.getElem?_eq_getElem h] at h1
      exact Option.some.inj h1
    · refine hi.apart.imp fun {a b} h n hn k hk => ?_
      unfold InBlock endOfBlock at *
      omega
    · intro b hb i h
      have hg := hi.good b hb
      rw [hg.flags]
      simp only [runOf, List.getElem?_map, List.getElem?_range h, Option.map_some, Option.some.injEq]
      simp [flag, List.any_eq_true]

/-- Each matched line is flagged exactly once: there is one block and one position in it. -/
theorem coalesce_flag_once (text : Int → Bytes) (ms : List LineMatch) (bs : List Block)
    (hb : BlocksFor text ms bs) (m : LineMatch) (hm : m ∈ ms) :
    ∃ p : Nat × Nat, (∃ b, bs[p.1]? = some b ∧ b.matches_[p.2]? = some true ∧ (m.lineno : Int) = b.start + p.2) ∧
      ∀ q : Nat × Nat, (∃ b, bs[q.1]? = some b ∧ b.matches_[q.2]? = some true ∧
        (m.lineno : Int) = b.start + q.2) → q = p := by
  obtain ⟨b, hbm, h1, h2⟩ := (hb.lines_iff m.lineno).2 ⟨m, hm, by unfold ShownBy; omega⟩
  obtain ⟨k, hk, hkb⟩ := List.mem_iff_getElem.1 hbm
  have hi : ((m.lineno : Int) - b.start).toNat < b.lines.length := by omega
  refine ⟨(k, ((m.lineno : Int) - b.start).toNat), ⟨b, by simp [hkb, hk], ?_, ?_⟩, ?_⟩
  · exact (hb.flag_iff b hbm _ hi).2 ⟨m, hm, by omega⟩
  · show (m.lineno : Int) = b.start + ((((m.lineno : Int) - b.start).toNat : Nat) : Int)
    omega
  · rintro ⟨k', i'⟩ ⟨b', hb', hf, hl⟩
    simp only at hb' hf hl
    obtain ⟨hk', hkb'⟩ := List.getElem?_eq_some_iff.1 hb'
    have hi' : i' < b'.lines.length := by
      have := (List.getElem?_eq_some_iff.1 hf).1
      rw [(hb.runs b' (hkb' ▸ List.getElem_mem hk')).2.1] at this
      exact this
    have hpw := List.pairwise_iff_getElem.1 hb.disjoint
    have hkk : k' = k := by
      rcases Nat.lt_trichotomy k k' with h | h | h
      · have := hpw k k' hk hk' h m.lineno (by rw [hkb]; exact ⟨h1, h2⟩) m.lineno
          (by rw [hkb']; unfold InBlock; omega)
        omega
      · exact h.symm
      · have := hpw k' k hk' hk h m.lineno (by rw [hkb']; unfold InBlock; omega) m.lineno
          (by rw [hkb]; exact ⟨h1, h2⟩)
        omega
    subst hkk
    have : b' = b := by rw [← hkb', ← hkb]
    subst this
    congr 1
    omega

/-- Line `n` of a file; nothing beyond its end. -/
def fileText (buf : Bytes) (n : Int) : Bytes := ((lines buf)[(n - 1).toNat]?).getD []

theorem grep_matchOf {mt : Bytes → Option Nat} {acc : LineAcc} (hmt : IsLineMatcher mt acc) (nctx : Nat)
    (buf : Bytes) (m : LineMatch) (hm : m ∈ grepAll mt nctx buf) : MatchOf (fileText buf) m := by
  obtain ⟨h1, hline, -⟩ := grep_match_is_a_line_partial hmt nctx buf m hm
  have haft := grep_after_context hmt nctx buf m hm
  obtain ⟨-, hbef⟩ := grep_before_context_run hmt nctx buf m hm
  have hle : m.lineno - 1 ≤ (lines buf).length := by
    rcases hline with h | h
    · exact Nat.le_of_lt (List.getElem?_eq_some_iff.1 h).1
    · omega
  refine ⟨?_, ?_, ?_⟩
  · have hT : ((lines buf).take (m.lineno - 1)).length = m.lineno - 1 := by
      rw [List.length_take]; omega
    have hk : m.before.length ≤ m.lineno - 1 := by
      have := congrArg List.length hbef
      unfold takeLast at this
      rw [List.length_drop, hT] at this
      omega
    apply List.ext_getElem?
    intro i
    by_cases hi : i < m.before.length
    · rw [hbef]
      unfold takeLast
      rw [List.getElem?_drop, hT, List.getElem?_take, if_pos (by omega)]
      simp only [runOf, List.getElem?_map]
      rw [← show takeLast m.before.length ((lines buf).take (m.lineno - 1)) =
        ((lines buf).take (m.lineno - 1)).drop (m.lineno - 1 - m.before.length) by
          unfold takeLast; rw [hT], ← hbef, List.getElem?_range hi]
      simp only [Option.map_some, fileText]
      have e : ((m.lineno : Int) - m.before.length + i - 1).toNat = m.lineno - 1 - m.before.length + i := by
        omega
      rw [e, List.getElem?_eq_getElem (by omega)]
      rfl
    · rw [List.getElem?_eq_none (by omega), List.getElem?_eq_none (by rw [runOf_length]; omega)]
  · unfold fileText
    rw [show ((m.lineno : Int) - 1).toNat = m.lineno - 1 by omega]
    rcases hline with h | ⟨h, h', -⟩
    · rw [h]; rfl
    · rw [List.getElem?_eq_none (by omega), h]; rfl
  · apply List.ext_getElem?
    intro i
    by_cases hi : i < m.after.length
    · simp only [runOf, List.getElem?_map, List.getElem?_range hi, Option.map_some]
      have hlen := congrArg List.length haft
      rw [List.length_take, List.length_drop] at hlen
      rw [haft, List.getElem?_take, if_pos (by omega), List.getElem?_drop]
      unfold fileText
      rw [show ((m.lineno : Int) + 1 + i - 1).toNat = m.lineno + i by omega,
        List.getElem?_eq_getElem (by omega)]
      rfl
    · rw [List.getElem?_eq_none (by omega), List.getElem?_eq_none (by rw [runOf_length]; omega)]

theorem grep_inFileOrder {mt : Bytes → Option Nat} {acc : LineAcc} (hmt : IsLineMatcher mt acc)
    (nctx : Nat) (buf : Bytes) : InFileOrder (grepAll mt nctx buf) := by
  have hinc := List.pairwise_map.1 (grep_linenos_increasing hmt nctx buf)
  refine List.pairwise_iff_getElem.2 fun i j hi hj hij => ?_
  have hlt := List.pairwise_iff_getElem.1 hinc i j hi hj hij
  refine ⟨Nat.le_of_lt hlt, ?_⟩
  obtain ⟨l, hl⟩ : ∃ l, grepAll mt nctx buf = l := ⟨_, rfl⟩
  have hsplit : grepAll mt nctx buf = (grepAll mt nctx buf).take j ++ (grepAll mt nctx buf)[j] ::
      (grepAll mt nctx buf).drop (j + 1) := by
    conv => lhs; rw [← List.take_append_drop j (grepAll mt nctx buf)]
    rw [List.drop_eq_getElem_cons hj]
  have hb := grep_before_context_partial hmt nctx buf _ _ _ hsplit
  have h1 := (grep_match_is_a_line_partial hmt nctx buf _ (List.getElem_mem hj)).1
  simp only at hb
  have hlast : ((grepAll mt nctx buf).take j).getLast? = some (grepAll mt nctx buf)[j - 1] := by
    rw [List.getLast?_eq_getElem?, List.length_take, Nat.min_eq_left (by omega), List.getElem?_take,
      if_pos (by omega), List.getElem?_eq_getElem]
  rw [hlast] at hb
  simp only [Option.map_some, Option.getD_some] at hb
  have hlen := congrArg List.length hb
  have hprev : (grepAll mt nctx buf)[i].lineno ≤ (grepAll mt nctx buf)[j - 1].lineno := by
    rcases Nat.lt_or_ge i (j - 1) with h | h
    · exact Nat.le_of_lt (List.pairwise_iff_getElem.1 hinc i (j - 1) hi (by omega) h)
    · have : i = j - 1 := by omega
      subst this; exact Nat.le_refl _
  have hbl : (grepAll mt nctx buf)[j].before.length ≤
      (grepAll mt nctx buf)[j].lineno - 1 - (grepAll mt nctx buf)[j - 1].lineno := by
    rw [hlen]
    unfold takeLast
    rw [List.length_drop]
    split <;> simp only [List.length_tail, List.length_drop, List.length_take] <;> omega
  have hjj := List.pairwise_iff_getElem.1 hinc (j - 1) j (by omega) hj (by omega)
  omega

/-- **C36**, on what the server sends. For every file, pattern, number of context lines, and however
many of the file's matches are sent (a limit cuts the list): the client shows exactly the matched and
context lines of the file, as runs of consecutive lines, with the matched lines flagged. -/
theorem coalesce_server {mt : Bytes → Option Nat} {acc : LineAcc} (hmt : IsLineMatcher mt acc)
    (nctx : Nat) (buf : Bytes) (ms : List LineMatch) (hpre : ms <+: grepAll mt nctx buf) :
    ∃ bs, coalesceMatches ms = some bs ∧ BlocksFor (fileText buf) ms bs :=
  coalesce_exact _ _ (fun m hm => grep_matchOf hmt nctx buf m (hpre.subset hm))
    ((grep_inFileOrder hmt nctx buf).sublist hpre.sublist)

/-! ### Concrete instances -/

-- two matches whose contexts meet, one further down: two blocks
example : coalesceMatches (grepAll (exMt (exAcc 120)) 1 b!"a\nx1\nb\nx2\nc\nd\ne\nx3\nf") =
    some [⟨[b!"a", b!"x1", b!"b", b!"x2", b!"c"], [false, true, false, true, false], 1⟩,
      ⟨[b!"e", b!"x3", b!"f"], [false, true, false], 7⟩] := by decide
-- the second match lies in the After context of the first
example : coalesceMatches (grepAll (exMt (exAcc 120)) 2 b!"a\nx1\nx2\nb\nc\nd") =
    some [⟨[b!"a", b!"x1", b!"x2", b!"b", b!"c"], [false, true, true, false, false], 1⟩] := by decide
-- matches out of order do lose lines: the order matters
example : coalesceMatches [⟨b!"x2", 5, [], []⟩, ⟨b!"x1", 2, [], [b!"a"]⟩] = none := by decide

end Hound.Client
