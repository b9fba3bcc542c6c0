import Verif.Model.Query

/-! # Specification: well-formed trigram queries -/

namespace Hound.Spec
open Hound

mutual
/-- All trigrams of a query have three bytes. -/
def ThreeByte : Query → Prop
  | .mk _ t s => (∀ x ∈ t, x.length = 3) ∧ ThreeByteL s
def ThreeByteL : List Query → Prop
  | [] => True
  | q :: qs => ThreeByte q ∧ ThreeByteL qs
end

mutual
/-- No AND node is without operands. -/
def NoEmptyAnd : Query → Prop
  | .mk op t s => (op = .and → t ≠ [] ∨ s ≠ []) ∧ NoEmptyAndL s
def NoEmptyAndL : List Query → Prop
  | [] => True
  | q :: qs => NoEmptyAnd q ∧ NoEmptyAndL qs
end

end Hound.Spec
