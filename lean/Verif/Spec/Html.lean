import Verif.Model.UiHtml

/-!
# Specification of highlighted lines

How a browser reads the little HTML that can occur in a line, and which parts of a line are to be marked.
-/

namespace Hound.Spec
open Hound Ui

/-- The rest of a string after a given beginning. -/
def after? (p s : JsStr) : Option JsStr := if p <+: s then some (s.drop p.length) else none

/-- The text a browser shows for a piece of HTML, and for each code unit of it whether it stands inside `<em>`.  `none`: there
is some other tag or entity, or the tags do not pair up.  `fuel` bounds the length of the piece. -/
def shownText : Nat → Bool → JsStr → Option (List (UInt16 × Bool))
  | 0, _, _ => none
  | _, em, [] => if em then none else some []
  | fuel + 1, em, c :: s =>
    if c = 38 then
      match after? (js b!"amp;") s, after? (js b!"lt;") s, after? (js b!"gt;") s, after? (js b!"nbsp;") s with
      | some s, _, _, _ => (shownText fuel em s).map ((38, em) :: ·)
      | _, some s, _, _ => (shownText fuel em s).map ((60, em) :: ·)
      | _, _, some s, _ => (shownText fuel em s).map ((62, em) :: ·)
      | _, _, _, some s => (shownText fuel em s).map ((0xA0, em) :: ·)
      | _, _, _, _ => none
    else if c = 60 then
      match after? (js b!"em>") s, after? (js b!"/em>") s with
      | some s, _ => if em then none else shownText fuel true s
      | _, some s => if em then shownText fuel false s else none
      | _, _ => none
    else (shownText fuel em s).map ((c, em) :: ·)

/-- A browser shows the HTML as this text, with these code units inside `<em>`. -/
def ShownAs (html : JsStr) (text : List (UInt16 × Bool)) : Prop := shownText (html.length + 1) false html = some text

/-- The text is marked where the expression matches: at the first match, then at the first match in what follows, and so
on. -/
inductive MarkedBy (exec : Exec) : JsStr → List (UInt16 × Bool) → Prop
  | rest {c} : exec c = none → MarkedBy exec c (c.map (·, false))
  | hit {c i n r} : exec c = some (i, n) → MarkedBy exec (c.drop (i + n)) r →
      MarkedBy exec c ((c.take i).map (·, false) ++ ((c.drop i).take n).map (·, true) ++ r)

/-- Matches lie inside the string. -/
def Inside (exec : Exec) : Prop := ∀ c i n, exec c = some (i, n) → i + n ≤ c.length

/-- `exec` finds the first place at which `t` stands (up to `eq`). -/
def FindsFirst (eq : UInt16 → UInt16 → Bool) (t : JsStr) (exec : Exec) : Prop :=
  ∀ c, match exec c with
    | none => ∀ i, i + t.length ≤ c.length → ¬ (∀ k, k < t.length → eq (t.getD k 0) (c.getD (i + k) 0) = true)
    | some (i, n) => n = t.length ∧ i + n ≤ c.length ∧ (∀ k, k < t.length → eq (t.getD k 0) (c.getD (i + k) 0) = true) ∧
        ∀ j, j < i → ¬ (∀ k, k < t.length → eq (t.getD k 0) (c.getD (j + k) 0) = true)

end Hound.Spec
