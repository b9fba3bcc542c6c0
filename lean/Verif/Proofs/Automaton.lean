import Verif.Spec.Automaton

/-! The model's tests for assertions and byte ranges say what the specification says. -/

namespace Hound
open Spec

theorem sub_iff {op now : EmptyOp} : op.sub now = true ↔ Asserted op now := by
  unfold EmptyOp.sub Asserted
  cases op.bol <;> cases op.eol <;> cases op.bot <;> cases op.eot <;> cases op.wb <;> cases op.nwb <;> simp [and_assoc]

theorem inByteRange_iff {lo hi c : UInt8} {fold : Bool} : inByteRange lo hi fold c = true ↔ ByteIn lo hi fold c := by
  unfold inByteRange ByteIn
  by_cases h : fold = true ∧ 97 ≤ c ∧ c ≤ 122
  · obtain ⟨h1, h2, h3⟩ := h
    simp [h1, h2, h3]
  · have : (fold && decide (97 ≤ c) && decide (c ≤ 122)) = false := by
      simp only [← and_assoc] at h
      cases hh : (fold && decide (97 ≤ c) && decide (c ≤ 122)) with
      | false => rfl
      | true => simp at hh; exact absurd hh h
    simp only [this]
    simp [h]
    intro a b c' d
    exact absurd ⟨a, b, c'⟩ h

end Hound
