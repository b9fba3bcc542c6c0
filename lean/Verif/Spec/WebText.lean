import Verif.Model.UiUrl

/-!
# Texts in the browser and on the server
-/

namespace Hound.Spec
open Ui

/-- The string is a text: every surrogate in it is one of a pair. -/
def IsText (s : JsStr) : Prop := ∃ rs : List Rune, (∀ r ∈ rs, validRune r = true) ∧ s = rs.flatMap units

/-- `b` is the UTF-8 encoding of the text that `s` is. -/
def SameText (s : JsStr) (b : Bytes) : Prop :=
  ∃ rs : List Rune, (∀ r ∈ rs, validRune r = true) ∧ s = rs.flatMap units ∧ b = rs.flatMap encodeRaw

/-- The address made from a form leads back to what the form held, in every field. -/
def LeadsBack (pathname : JsStr) (p : Form) : Prop :=
  ∃ m : Fields, reload pathname p = some m ∧ m (js b!"q") = some p.q ∧ m (js b!"i") = some p.i ∧
    m (js b!"literal") = some p.literal ∧ m (js b!"files") = some p.files ∧
    m (js b!"excludeFiles") = some p.excludeFiles ∧ m (js b!"repos") = some p.repos

/-- All fields are texts. -/
def Form.Texts (p : Form) : Prop :=
  IsText p.q ∧ IsText p.i ∧ IsText p.literal ∧ IsText p.files ∧ IsText p.excludeFiles ∧ IsText p.repos

end Hound.Spec
