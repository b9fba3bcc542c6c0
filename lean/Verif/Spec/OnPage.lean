import Verif.Model.Paging
import Verif.Model.UiLines

/-!
# Specification: a line on the page

The page shows the files of a repository one below the other, each as the blocks of lines its script makes of the matches (C55).
-/

namespace Hound.Spec

/-- Among the files shown there is this file, and among its lines this one, with its number, marked as a match. -/
def OnPage (s : Ui.Shown) (file : Bytes) (n : Nat) (line : Bytes) : Prop :=
  ∃ fm ∈ s.matches_, fm.filename = file ∧ ∃ bs, Ui.coalesceMatches fm.matches_ = some bs ∧
    ∃ l ∈ bs.flatten, l.number = n ∧ l.content = line ∧ l.isMatch = true

end Hound.Spec
