import Verif.Model.UiSession

/-!
# Specification: what a visitor of the page should see

Only the data types of the page are used here.
-/

namespace Hound.Spec
open Hound.Ui

/-- The words that mean yes in a parameter, in small letters. -/
def yesWords : List JsStr := [js b!"fosho", js b!"true", js b!"1"]

/-- A parameter means yes. -/
def saysYes (v : JsStr) : Bool := (v.map fun c => if 65 ≤ c ∧ c ≤ 90 then c + 32 else c) ∈ yesWords

/-- The pattern a search asks for. -/
def sought (f : Form) : Pattern := ⟨f.q, saysYes f.literal, saysYes f.i⟩

/-- If the screen shows files, all of them were found for the search asked for last, and its pattern is highlighted. -/
def ShowsLast (s : Session) : Prop :=
  ∀ es p, s.screen = .list es p → es ≠ [] →
    ∃ f, s.asked.head? = some f ∧ p = some (sought f) ∧ ∀ e ∈ es, ∀ x ∈ e.files, x.1 = f

/-- The results in the order of the page: more files first, and with the same number of files by name. -/
def InOrder (le : JsStr → JsStr → Bool) (es : List Entry) : Prop :=
  es.Pairwise fun a b => b.files.length < a.files.length ∨ (b.files.length = a.files.length ∧ le a.repo b.repo = true)

/-- `t` is `s` without the white space around it: only white space was dropped, and none is left at either end. -/
def Trimmed (s t : JsStr) : Prop :=
  ∃ a b, s = a ++ t ++ b ∧ (∀ c ∈ a ++ b, jsSpace c = true) ∧ (∀ c, t.head? = some c → jsSpace c = false) ∧
    ∀ c, t.getLast? = some c → jsSpace c = false

end Hound.Spec
