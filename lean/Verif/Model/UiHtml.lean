import Verif.Model.Basic

/-!
# Highlighting on the web page (`ui/assets/js/hound.js`, `common.js`)

A JavaScript string is a list of 16-bit code units.
-/

namespace Hound.Ui

/-- A JavaScript string. (for ui/assets/js/hound.js:382-391, 703-725) -/
abbrev JsStr := List UInt16

/-- The code units of an ASCII text. (for ui/assets/js/hound.js:382-391, 703-725) -/
def js (b : Bytes) : JsStr := b.map fun c => c.toUInt16

/-- One code unit of a text node, serialised.  (HTML standard, "escaping a string")
(for ui/assets/js/hound.js:382-391, 703-725) -/
def escapeUnit (c : UInt16) : JsStr :=
  if c = 38 then js b!"&amp;"
  else if c = 0xA0 then js b!"&nbsp;"
  else if c = 60 then js b!"&lt;"
  else if c = 62 then js b!"&gt;"
  else [c]

/-- ui/assets/js/hound.js:693-698 `EscapeHtml`: the browser's `innerHTML` of an element holding the text. -/
def escapeHtml (text : JsStr) : JsStr := text.flatMap escapeUnit

/-- What `regexp.exec` finds in a string from position 0: where the match begins and how long it is.
(for ui/assets/js/hound.js:382-391, 703-725) -/
abbrev Exec := JsStr → Option (Nat × Nat)

/-- hound.js:710-723, the loop of `ContentFor` on a matched line.  `none`: not finished after `fuel` rounds. -/
def contentLoop (exec : Exec) : Nat → JsStr → JsStr → Option JsStr
  | 0, _, _ => none
  | fuel + 1, content, buffer =>
    match exec content with
    | none => some (buffer ++ escapeHtml content)
    | some (index, len) =>
      let lastIndex := index + len
      let m := (content.drop index).take len
      contentLoop exec fuel (content.drop lastIndex)
        (buffer ++ escapeHtml (content.take (lastIndex - m.length)) ++ (js b!"<em>" ++ escapeHtml m ++ js b!"</em>"))

/-- hound.js:703-725 `ContentFor`. -/
def contentFor (exec : Exec) (fuel : Nat) (content : JsStr) (isMatch : Bool) : Option JsStr :=
  if !isMatch then some (escapeHtml content) else contentLoop exec fuel content []

/-- The white space of JavaScript's `\s`. (ECMAScript, CharacterClassEscape) (for ui/assets/js/hound.js:382-391, 703-725) -/
def jsSpace (c : UInt16) : Bool :=
  c ∈ [9, 10, 11, 12, 13, 32, 0xA0, 0x1680, 0x2028, 0x2029, 0x202F, 0x205F, 0x3000, 0xFEFF] ∨ (0x2000 ≤ c ∧ c ≤ 0x200A)

/-- ui/assets/js/common.js:2, the characters that are escaped. -/
def escapedUnit (c : UInt16) : Bool := c ∈ js b!"-[]{}()*+!<=:?./\\^$|#," || jsSpace c

/-- ui/assets/js/common.js:1-3 `EscapeRegExp`. -/
def escapeRegExp (s : JsStr) : JsStr := s.flatMap fun c => if escapedUnit c then [92, c] else [c]

/-- The characters that mean something in a pattern. (ECMAScript, SyntaxCharacter) (for ui/assets/js/hound.js:382-391, 703-725) -/
def syntaxUnit (c : UInt16) : Bool := c ∈ js b!"^$\\.*+?()[]{}|"

/-- The characters that stand for something else, or may do so, after a backslash: letters, digits and the underscore
(ECMAScript, AtomEscape), and everything beyond ASCII that is not white space, which this model leaves out.
(for ui/assets/js/hound.js:382-391, 703-725) -/
def specialEscape (c : UInt16) : Bool :=
  (48 ≤ c && c ≤ 57) || (65 ≤ c && c ≤ 90) || (97 ≤ c && c ≤ 122) || c == 95 || (128 ≤ c && !jsSpace c)

/-- `new RegExp` on patterns that are sequences of single characters: the characters.  Other patterns are left out
(`none`). (ECMAScript, PatternCharacter and IdentityEscape) (for ui/assets/js/hound.js:382-391, 703-725) -/
def parseLiteral : JsStr → Option JsStr
  | [] => some []
  | c :: s =>
    if c = 92 then
      match s with
      | [] => none
      | d :: s => if specialEscape d then none else (parseLiteral s).map (d :: ·)
    else if syntaxUnit c then none
    else (parseLiteral s).map (c :: ·)

/-- `exec` for a sequence of single characters, without regard to case if `eq` says so: the first position at which it
stands. (for ui/assets/js/hound.js:382-391, 703-725) -/
def execLiteral (eq : UInt16 → UInt16 → Bool) (lit : JsStr) : Exec
  | [] => if lit = [] then some (0, 0) else none
  | c :: s =>
    if lit.length ≤ (c :: s).length && (lit.zip (c :: s)).all (fun p => eq p.1 p.2) then some (0, lit.length)
    else (execLiteral eq lit s).map fun p => (p.1 + 1, p.2)

/-- hound.js:382-391 `getRegExp` with "Use string literally" checked.  `eq`: equality, or equality after
canonicalisation if "Ignore Case" is checked. -/
def literalExec (eq : UInt16 → UInt16 → Bool) (text : JsStr) : Option Exec :=
  (parseLiteral (escapeRegExp text)).map (execLiteral eq)

end Hound.Ui
