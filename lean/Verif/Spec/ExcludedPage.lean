import Verif.Model.Excluded
import Verif.Spec.Wire

/-!
# Specification: the list of excluded files and the page that shows it
-/

namespace Hound.Spec
open Excl

/-- The list of the index that is current after these events; `first` is that of the first index. -/
def currentList (first : Bytes) : List Ev → Bytes
  | [] => first
  | .publish b :: es => currentList b es
  | _ :: es => currentList first es

/-- Files with reasons, and the rows that show them. -/
def SameRows (l : List (Bytes × Bytes)) (rows : List (Ui.JsStr × Ui.JsStr)) : Prop :=
  Each (fun a b => PageHas a.1 b.1 ∧ PageHas a.2 b.2) l rows

/-- Every answer that comes during the visit is the list of the repository its request was for. -/
def Honest (lists : Ui.JsStr → List (Bytes × Bytes)) (acts : List Act) : Prop :=
  ∀ before k o after, acts = before ++ Act.answer k o :: after →
    ∃ r, (Excl.visit before).pending[k]? = some r ∧ o = some (200, listText (lists r))

/-- A visit during which the user waits for the outcome of every request before the next click. -/
def calmActs (rounds : List (Ui.JsStr × Option (Nat × Bytes))) : List Act :=
  rounds.flatMap fun r => [.click r.1, .answer 0 r.2]

end Hound.Spec
