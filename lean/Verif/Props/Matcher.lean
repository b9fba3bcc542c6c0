import Verif.Proofs.MatcherRun

/-!
# The line matcher: C15, C16, C43

`Spec.Accepts p bot eot l` (Spec/Automaton) says that the program has a path from some position of the line to
an accepting instruction.  `Spec.firstEnd` (Spec/Lines) is the end of the first accepted line.
-/

namespace Hound
open Spec

/-! ## C43 -/

/-- C43: decoding the encoding of a state gives back its flags and its set of instructions. -/
theorem state_encoding_roundtrip {z : NState} (hp : z.part < 2 ^ 32) (hf : z.flag < 2 ^ 32)
    (hq : ∀ a ∈ z.q, a < 2 ^ 32) :
    ∃ z', NState.dec z.enc = some z' ∧ z'.part = z.part ∧ z'.flag = z.flag ∧ ∀ a, a ∈ z'.q ↔ a ∈ z.q :=
  ⟨_, dec_enc hp hf hq, rfl, rfl, fun _ => mem_sortInts⟩

/-- C43: two states have the same encoding exactly if they have the same flags and the same set of
instructions, whatever the order in which the instructions were added. -/
theorem state_encoding_injective {z y : NState} (hz : z.part < 2 ^ 32 ∧ z.flag < 2 ^ 32 ∧ ∀ a ∈ z.q, a < 2 ^ 32)
    (hy : y.part < 2 ^ 32 ∧ y.flag < 2 ^ 32 ∧ ∀ a ∈ y.q, a < 2 ^ 32) (nz : z.q.Nodup) (ny : y.q.Nodup) :
    z.enc = y.enc ↔ z.part = y.part ∧ z.flag = y.flag ∧ ∀ a, a ∈ z.q ↔ a ∈ y.q := by
  constructor
  · intro h
    obtain ⟨a, ha, h1, h2, h3⟩ := state_encoding_roundtrip hz.1 hz.2.1 hz.2.2
    obtain ⟨b, hb, k1, k2, k3⟩ := state_encoding_roundtrip hy.1 hy.2.1 hy.2.2
    rw [h, hb] at ha
    cases ha
    exact ⟨h1 ▸ k1 ▸ rfl, h2 ▸ k2 ▸ rfl, fun x => (h3 x).symm.trans (k3 x)⟩
  · rintro ⟨h1, h2, h3⟩
    unfold NState.enc
    rw [h1, h2, sorted_ext (sorted_sortInts nz) (sorted_sortInts ny)
      (fun a => by rw [mem_sortInts, mem_sortInts, h3])]

-- two orders of one set share a key; a different flag or a different set does not
example : (NState.mk [700, 3, 0] 0 16).enc = (NState.mk [3, 0, 700] 0 16).enc := by decide
example : (NState.mk [700, 3, 0] 0 16).enc ≠ (NState.mk [3, 0, 700] 0 1).enc := by decide
example : NState.dec (NState.mk [700, 3, 0] 0 16).enc = some ⟨[0, 3, 700], 0, 16⟩ := by decide

/-! ## C15, C16 -/

/-- Well-formed programs can be initialised, and no call of the matcher ever panics. -/
theorem matcher_total {p : Prog} (hp : ProgOK p) :
    ∃ M, Matcher.init p = some M ∧ ∀ history, ∃ M', M.calls p history = some M' ∧
      ∀ b bt et, ∃ M'' r, M'.run p b bt et = some (M'', r) := by
  obtain ⟨M, h1, h2⟩ := init_ok hp
  refine ⟨M, h1, fun cs => ?_⟩
  obtain ⟨M', h3, h4⟩ := calls_spec hp cs M h2
  refine ⟨M', h3, fun b bt et => ?_⟩
  obtain ⟨M'', h5, _⟩ := mrun_spec hp h4 b bt et
  exact ⟨M'', _, h5⟩

/-- C15: after any history, `Match(b, beginText, endText)` returns the end of the first line of `b` in which
the program has a match, and -1 (`none`) if there is no such line.  The first line of `b` begins the text if
`beginText`, the last one ends it if `endText`. -/
theorem match_first_line {p : Prog} (hp : ProgOK p) {M M' M'' : Matcher} {history : List (Bytes × Bool × Bool)}
    (hi : Matcher.init p = some M) (hh : M.calls p history = some M') {b : Bytes} {bt et : Bool} {r : Option Nat}
    (hr : M'.run p b bt et = some (M'', r)) {acc : LineAcc}
    (hacc : ∀ first last l, acc first last l = true ↔ Accepts p (first && bt) (last && et) l) :
    r = firstEnd acc true (pieces b) 0 := by
  obtain ⟨M0, h1, h2⟩ := init_ok hp
  rw [hi] at h1; cases h1
  obtain ⟨M1, h3, h4⟩ := calls_spec hp history M h2
  rw [hh] at h3; cases h3
  obtain ⟨M2, h5, _⟩ := mrun_spec hp h4 b bt et
  rw [hr] at h5
  cases h5
  exact prun_firstEnd hp hacc b

/-- C15 in the form used by hound, which always searches whole buffers (`Match(buf, true, true)`): the matcher
meets the contract `Spec.IsLineMatcher` that the theorems about grep and search (C02–C08) rest on. -/
theorem matcher_is_line_matcher {p : Prog} (hp : ProgOK p) {M M' : Matcher}
    {history : List (Bytes × Bool × Bool)} (hi : Matcher.init p = some M) (hh : M.calls p history = some M')
    {acc : LineAcc} (hacc : ∀ bot eot l, acc bot eot l = true ↔ Accepts p bot eot l) :
    IsLineMatcher (fun buf => ((M'.run p buf true true).map (·.2)).join) acc := by
  intro b _
  obtain ⟨M0, h1, h2⟩ := init_ok hp
  rw [hi] at h1; cases h1
  obtain ⟨M1, h3, h4⟩ := calls_spec hp history M h2
  rw [hh] at h3; cases h3
  obtain ⟨M2, h5, _⟩ := mrun_spec hp h4 b true true
  simp only
  rw [h5]
  exact prun_firstEnd hp (by simpa using hacc) b

/-- C16: the result of a call does not depend on what the matcher was used for before. -/
theorem match_history_irrelevant {p : Prog} (hp : ProgOK p) {M M1 M2 N1 N2 : Matcher}
    {history1 history2 : List (Bytes × Bool × Bool)} (hi : Matcher.init p = some M)
    (h1 : M.calls p history1 = some M1) (h2 : M.calls p history2 = some M2)
    {b : Bytes} {bt et : Bool} {r1 r2 : Option Nat}
    (hr1 : M1.run p b bt et = some (N1, r1)) (hr2 : M2.run p b bt et = some (N2, r2)) : r1 = r2 := by
  obtain ⟨M0, h0, hM⟩ := init_ok hp
  rw [hi] at h0; cases h0
  obtain ⟨A1, a1, b1⟩ := calls_spec hp history1 M hM
  obtain ⟨A2, a2, b2⟩ := calls_spec hp history2 M hM
  rw [h1] at a1; cases a1
  rw [h2] at a2; cases a2
  obtain ⟨_, c1, _⟩ := mrun_spec hp b1 b bt et
  obtain ⟨_, c2, _⟩ := mrun_spec hp b2 b bt et
  rw [hr1] at c1; rw [hr2] at c2
  cases c1; cases c2
  rfl

/-! ### An example: the program of `a\b|^$` -/

def exMatchProg : Prog :=
  { inst := [.fail, .byteRange 97 97 false 2, .empty { wb := true } 6, .empty { bol := true } 4,
      .empty { eol := true } 6, .alt 1 3, .accept]
    start := 5 }

theorem exMatchProg_ok : ProgOK exMatchProg where
  start := by decide
  len := by decide
  targets := by
    intro i hi t ht
    simp only [exMatchProg, List.mem_cons, List.not_mem_nil, or_false] at hi
    rcases hi with rfl | rfl | rfl | rfl | rfl | rfl | rfl <;> simp at ht <;> simp [exMatchProg] <;> omega

/-- Calls on a fresh matcher. -/
def exMatchRun (history : List (Bytes × Bool × Bool)) (b : Bytes) (bt et : Bool) : Option (Option Nat) :=
  ((Matcher.init exMatchProg).bind (fun M => M.calls exMatchProg history)).bind
    (fun M => (M.run exMatchProg b bt et).map (·.2))

-- "ab\nb a." : no match in the first line, a match in the second, which ends at 7
example : exMatchRun [] [97, 98, 10, 98, 32, 97, 46] true true = some (some 7) := by decide +kernel
-- the same after another search has filled the cache
example : exMatchRun [([97, 97, 10, 10, 98], false, true)] [97, 98, 10, 98, 32, 97, 46] true true = some (some 7) := by
  decide +kernel
-- "ab" has no match
example : exMatchRun [] [97, 98] true true = some none := by decide +kernel

/-- The line `b a.` is accepted: from position 2 the program reads `a` and sees a word boundary. -/
example : Accepts exMatchProg false true [98, 32, 97, 46] :=
  ⟨2, 3, 6, by decide,
    (((PPath.refl _).tail (.altOut (out := 1) (arg := 3) rfl)).tail
      (.byte (c := 97) (lo := 97) (hi := 97) (fold := false) (out := 2) rfl rfl (by decide))).tail
        (.empty (op := { wb := true }) (out := 6) rfl (by decide)), rfl⟩

end Hound
