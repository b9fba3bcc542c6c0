import Verif.Model.Coalesce
import Verif.Spec.EndToEnd

/-!
# Specification: a line that is printed

What the command prints is, for every repository, its name, and for every file its name and blocks of numbered lines.
-/

namespace Hound.Spec
open Hound.Client

/-- Under the name of the repository and that of the file there is this line, with its number, marked as a match. -/
def Printed (gs : List (Bytes × List (Bytes × List Block))) (repo file : Bytes) (n : Nat) (line : Bytes) : Prop :=
  ∃ g ∈ gs, g.1 = repo ∧ ∃ f ∈ g.2, f.1 = file ∧ ∃ b ∈ f.2, ∃ i : Nat, b.start + i = n ∧ b.lines[i]? = some line ∧ b.matches_[i]? = some true

end Hound.Spec
