import Verif.Model.UiRepoList

/-!
# Specification: the repositories shown as selected
-/

namespace Hound.Spec
open Ui

/-- The repositories shown as selected. -/
def shownIn (l : RepoList) : List JsStr := (l.options.filter (·.2)).map (·.1)

/-- The page has had an answer, and the user has not changed the list since the first one. -/
def Untouched (es : List ListEvent) : Prop :=
  ∃ before after, es = before ++ .answered :: after ∧ .answered ∉ before ∧ ∀ sel, .changed sel ∉ after

end Hound.Spec
