import Verif.Model.UiLink

/-!
# Patterns with placeholders
-/

namespace Hound.Spec
open Ui

/-- A part of a pattern: text, or the name of a placeholder. -/
inductive Piece where
  | text (s : JsStr)
  | var (name : JsStr)
  deriving DecidableEq

/-- How it is written in the configuration: names in braces. -/
def Piece.write : Piece → JsStr
  | .text s => s
  | .var n => 123 :: n ++ [125]

/-- What it stands for: a placeholder for its value, and for itself if there is none. -/
def Piece.fill (values : List (JsStr × JsStr)) : Piece → JsStr
  | .text s => s
  | .var n => (values.lookup n).getD (123 :: n ++ [125])

/-- A pattern as written. -/
def written (ps : List Piece) : JsStr := ps.flatMap Piece.write

/-- A pattern with its values. -/
def filled (values : List (JsStr × JsStr)) (ps : List Piece) : JsStr := ps.flatMap (Piece.fill values)

/-- Texts without brace, names without braces. -/
def Piece.Ok : Piece → Prop
  | .text s => 123 ∉ s
  | .var n => 123 ∉ n ∧ 125 ∉ n

instance (p : Piece) : Decidable p.Ok := by cases p <;> unfold Piece.Ok <;> infer_instance

/-- Every placeholder occurs at most once. -/
def OnceEach : List Piece → Prop
  | [] => True
  | .text _ :: ps => OnceEach ps
  | .var n :: ps => .var n ∉ ps ∧ OnceEach ps

/-- `OnceEach` can be decided. -/
def decOnceEach : (ps : List Piece) → Decidable (OnceEach ps)
  | [] => isTrue trivial
  | .text _ :: ps => decOnceEach ps
  | .var _ :: ps => @instDecidableAnd _ _ _ (decOnceEach ps)

instance (ps : List Piece) : Decidable (OnceEach ps) := decOnceEach ps

/-- The placeholders of a link and what they stand for. -/
def linkValues (url host port project name path rev anchor : JsStr) : List (JsStr × JsStr) :=
  [(js b!"url", url), (js b!"hostname", host), (js b!"port", port), (js b!"project", project), (js b!"repo", name),
    (js b!"path", path), (js b!"rev", rev), (js b!"anchor", anchor)]

/-- `name` is the part of the path after its last slash. -/
def IsFileName (path name : JsStr) : Prop := (47 : UInt16) ∉ name ∧ (path = name ∨ ∃ dir, path = dir ++ 47 :: name)

/-- A string that can be put into a pattern as it is. -/
def PlainText (s : JsStr) : Prop := (36 : UInt16) ∉ s ∧ (123 : UInt16) ∉ s

/-- The anchor of a line in the file: the pattern with the number of the line and the name of the file. Without a line
there is none. -/
def IsAnchor (pattern path : JsStr) (line : Option Nat) (a : JsStr) : Prop :=
  match line with
  | none => a = []
  | some n => ∃ ps name, pattern = written ps ∧ (∀ p ∈ ps, p.Ok) ∧ OnceEach ps ∧ IsFileName path name ∧ PlainText name ∧
      a = filled [(js b!"line", digitUnits n), (js b!"filename", name)] ps

end Hound.Spec
