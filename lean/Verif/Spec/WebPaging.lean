import Verif.Model.Search
import Verif.Spec.Terminal

/-!
# Specification: what the page shows of a full result
-/

namespace Hound.Spec

/-- One file is shown with a first part of its matches, not empty. -/
def PartOf (a b : FileMatch) : Prop :=
  a.filename = b.filename ∧ a.autoGenerated = b.autoGenerated ∧ a.matches_ ≠ [] ∧ a.matches_ <+: b.matches_

/-- The files shown are the first files of the full result, in order, each exactly once, each with a
first part of its matches. -/
def FirstFiles (shown full : List FileMatch) : Prop := Each PartOf shown (full.take shown.length)

/-- The number of matched lines in a list of files. -/
def countMatches (fms : List FileMatch) : Nat := (fms.map fun fm => fm.matches_.length).sum

end Hound.Spec
