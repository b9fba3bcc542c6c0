import Verif.Proofs.Sparse
import Verif.Spec.SetCalls

/-!
# C14: the sparse set is a set

`garbage` is whatever the uninitialised (or stale) `sparse` array holds.
-/

namespace Hound
open Spec

theorem foldl_insertNew_eq : ∀ (xs l : List Nat),
    xs.foldl SSet.insertNew l = l ++ (firsts xs).filter (fun x => x ∉ l)
  | [], l => by simp [firsts]
  | x :: xs, l => by
    rw [List.foldl_cons, foldl_insertNew_eq xs, firsts, List.filter_cons]
    unfold SSet.insertNew
    by_cases hx : x ∈ l
    · rw [if_pos hx, if_neg (by simpa using hx), List.filter_filter]
      congr 1
      apply List.filter_congr
      intro y _
      by_cases hy : y ∈ l
      · simp [hy]
      · simp [hy]; intro e; exact hy (e ▸ hx)
    · rw [if_neg hx, if_pos (by simpa using hx), List.append_assoc, List.filter_filter]
      congr 1
      simp only [List.singleton_append, List.cons.injEq, true_and]
      apply List.filter_congr
      intro y _
      by_cases hy : y ∈ l <;> by_cases hyx : y = x <;> simp [hy, hyx]

theorem foldl_insertNew_nil (xs : List Nat) : xs.foldl SSet.insertNew [] = firsts xs := by
  rw [foldl_insertNew_eq]; simp

theorem nodup_firsts : ∀ xs : List Nat, (firsts xs).Nodup
  | [] => List.Pairwise.nil
  | x :: xs => by
    rw [firsts, List.nodup_cons]
    exact ⟨by simp, (nodup_firsts xs).filter _⟩

theorem mem_firsts {y : Nat} : ∀ {xs : List Nat}, y ∈ firsts xs ↔ y ∈ xs
  | [] => by simp [firsts]
  | x :: xs => by
    rw [firsts, List.mem_cons, List.mem_filter, mem_firsts, List.mem_cons]
    by_cases h : y = x <;> simp [h]

/-- What should be true of the set after a history of calls: the elements are the values added since
the last reset, in order of first insertion and each once; membership and length agree. -/
def SetCorrect (s : SSet) (added : List Nat) : Prop :=
  s.dense = firsts added ∧ (∀ x, x < s.sparse.length → s.has x = some (decide (x ∈ added))) ∧
  s.len = (firsts added).length

/-- **C14**, the full claim: from an empty set with arbitrary `sparse` contents, any in-range history of
`Init`/`Add`/`Reset` neither panics nor leaves anything but the values added since the last reset. -/
def SparseSetFull : Prop :=
  ∀ (garbage : List Nat) (cs : List SSet.Call), garbage.length < 2 ^ 32 → InRange garbage.length cs →
    ∃ s, SSet.run ⟨[], garbage⟩ cs = some s ∧ SetCorrect s (sinceReset [] cs)

theorem run_spec : ∀ (cs : List SSet.Call) (s : SSet) (max : Nat) (acc : List Nat), SSet.Inv s max →
    s.dense = firsts acc → InRange max cs → InitOnEmpty acc cs →
    ∃ s' max', SSet.run s cs = some s' ∧ SSet.Inv s' max' ∧ s'.dense = firsts (sinceReset acc cs)
  | [], s, max, acc, h, hd, _, _ => ⟨s, max, rfl, h, hd⟩
  | .reset :: cs, s, max, acc, h, hd, hr, hi => by
    obtain ⟨s', m', e, i, d⟩ := run_spec cs s.reset max [] h.reset rfl hr hi
    exact ⟨s', m', by simp [SSet.run, SSet.call, e], i, d⟩
  | .init m :: cs, s, max, acc, h, hd, hr, hi => by
    obtain ⟨h1, h2⟩ := hr
    obtain ⟨h3, h4⟩ := hi
    subst h3
    have hd0 : s.dense = [] := hd
    have hinv : SSet.Inv (s.init m) m := ⟨by simp [SSet.init], by omega, by simp [SSet.init, hd0]⟩
    obtain ⟨s', m', e, i, d⟩ := run_spec cs (s.init m) m [] hinv hd0 h2 h4
    exact ⟨s', m', by simp [SSet.run, SSet.call, e], i, d⟩
  | .add x :: cs, s, max, acc, h, hd, hr, hi => by
    obtain ⟨h1, h2⟩ := hr
    obtain ⟨s1, e1, i1, d1⟩ := h.add h1
    have hd1 : s1.dense = firsts (acc ++ [x]) := by
      rw [d1, hd, ← foldl_insertNew_nil (acc ++ [x]), List.foldl_append, foldl_insertNew_nil]
      rfl
    obtain ⟨s', m', e, i, d⟩ := run_spec cs s1 max (acc ++ [x]) i1 hd1 h2 hi
    exact ⟨s', m', by simp [SSet.run, SSet.call, e1, e], i, d⟩

/-- C14 for every history in which `Init` is called only on an empty set (every use in the program:
each set is initialised once, before the first `Add`). Missing: `Init` on a non-empty set
(`not_sparseSetFull`). -/
theorem sparseSet_partial {garbage : List Nat} {cs : List SSet.Call} (hg : garbage.length < 2 ^ 32)
    (hr : InRange garbage.length cs) (hi : InitOnEmpty [] cs) :
    ∃ s, SSet.run ⟨[], garbage⟩ cs = some s ∧ SetCorrect s (sinceReset [] cs) := by
  obtain ⟨s, m, e, i, d⟩ := run_spec cs ⟨[], garbage⟩ garbage.length []
    ⟨rfl, by omega, by simp⟩ rfl hr hi
  refine ⟨s, e, d, ?_, by rw [SSet.len, d]⟩
  intro x hx
  rw [i.has (by rw [← i.size]; exact hx), d]
  simp [mem_firsts]

/-- `Init` on a non-empty set leaves the old values in place but forgets their slots: a value can then be
stored twice. -/
theorem not_sparseSetFull : ¬ SparseSetFull := by
  intro h
  obtain ⟨s, e, d, _⟩ := h [0, 0, 0] [.add 1, .add 2, .init 3, .add 2] (by decide)
    (by simp [InRange])
  have : s = ⟨[1, 2, 2], [0, 0, 2]⟩ := by
    have : SSet.run ⟨[], [0, 0, 0]⟩ [.add 1, .add 2, .init 3, .add 2] = some ⟨[1, 2, 2], [0, 0, 2]⟩ := by
      rfl
    rw [this] at e; injection e with e; exact e.symm
  subst this
  exact absurd d (by decide)

/-- A history with garbage, duplicates and a reset meets the hypotheses. -/
example : InRange [3, 1, 0, 7].length [.add 3, .add 1, .add 3, .reset, .add 2, .add 0, .add 2] ∧
    InitOnEmpty [] [.add 3, .add 1, .add 3, .reset, .add 2, .add 0, .add 2] ∧
    sinceReset [] [.add 3, .add 1, .add 3, .reset, .add 2, .add 0, .add 2] = [2, 0, 2] := by
  simp [InRange, InitOnEmpty, sinceReset]
example : SSet.run ⟨[], [3, 1, 0, 7]⟩ [.add 3, .add 1, .add 3, .reset, .add 2, .add 0, .add 2] =
    some ⟨[2, 0], [1, 1, 0, 0]⟩ := by rfl

end Hound
