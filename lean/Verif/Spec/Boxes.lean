import Verif.Model.UiBoxes

/-!
# Specification: which boxes are open
-/

namespace Hound.Spec
open Ui

/-- Is the box of the `j`-th file of the `i`-th repository open (`none`: there is no such file). -/
def fileOpen (s : Boxes) (i j : Nat) : Option Bool := (s.repos[i]?).bind fun b => b.files[j]?

/-- Is the box of the `i`-th repository open. -/
def repoOpen (s : Boxes) (i : Nat) : Option Bool := (s.repos[i]?).map (·.isOpen)

/-- As results are first shown: all files open except those marked as generated, all repositories open. -/
def Fresh (marks : List (List Bool)) (s : Boxes) : Prop :=
  (∀ i j, fileOpen s i j = ((marks[i]?).bind fun m => m[j]?).map not) ∧ ∀ i, repoOpen s i = (marks[i]?).map fun _ => true

/-- No file is open. -/
def AllClosed (s : Boxes) : Prop := ∀ i j, fileOpen s i j ≠ some true

/-- Every file is open. -/
def AllOpen (s : Boxes) : Prop := ∀ i j, fileOpen s i j ≠ some false

/-- The user opens something with this event, or a search begins or ends with it. -/
def BoxEvent.Opens : BoxEvent → Prop
  | .more _ _ => False
  | .collapseAll => False
  | _ => True

end Hound.Spec
