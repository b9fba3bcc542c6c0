import Verif.Model.UiPanel
import Verif.Spec.RepoList

/-!
# Specification: filters that are set
-/

namespace Hound.Spec
open Ui

/-- There is something else than white space in the text. -/
def NotBlank (s : JsStr) : Prop := ∃ c ∈ s, jsSpace c = false

/-- A filter is set in the search bar. -/
def Filtering (p : Panel) : Prop :=
  NotBlank p.bar.files ∨ NotBlank p.bar.excludeFiles ∨ p.bar.ignoreCase = true ∨ p.bar.literal = true ∨ shownIn p.list ≠ []

end Hound.Spec
