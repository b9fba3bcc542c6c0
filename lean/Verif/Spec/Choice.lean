import Verif.Model.UiRepos
import Verif.Model.Api

/-!
# Specification: the repositories a user chose are searched

A name is given by its code points.
-/

namespace Hound.Spec
open Ui

/-- The name as the page has it. -/
def onPage (n : List Rune) : JsStr := n.flatMap units

/-- The name as the server has it. -/
def onServer (n : List Rune) : Bytes := n.flatMap encodeRaw

/-- Exactly the chosen repositories are searched, or all if none was chosen, each once. -/
def SearchesChosen (names chosen : List (List Rune)) (searched : List Bytes) : Prop :=
  searched.Nodup ∧ ∀ b, b ∈ searched ↔ ∃ n ∈ names, b = onServer n ∧ (chosen = [] ∨ n ∈ chosen)

/-- The names are names of different repositories, made of characters. -/
def Names (names : List (List Rune)) : Prop := names.Nodup ∧ ∀ n ∈ names, ∀ r ∈ n, validRune r = true

/-- The code points of Go's `unicode.IsSpace`. -/
def blanks : List Rune :=
  [9, 10, 11, 12, 13, 32, 0x85, 0xA0, 0x1680, 0x2000, 0x2001, 0x2002, 0x2003, 0x2004, 0x2005, 0x2006, 0x2007, 0x2008,
   0x2009, 0x200A, 0x2028, 0x2029, 0x202F, 0x205F, 0x3000]

/-- The names every object has. -/
def objectNames : List Bytes :=
  [b!"constructor", b!"toString", b!"toLocaleString", b!"valueOf", b!"hasOwnProperty", b!"isPrototypeOf",
   b!"propertyIsEnumerable", b!"__proto__", b!"__defineGetter__", b!"__defineSetter__", b!"__lookupGetter__",
   b!"__lookupSetter__"]

/-- A name that can be chosen: not empty, not `*`, without comma, without blanks at its ends, and not one of the names
every object has. -/
def Choosable (n : List Rune) : Prop :=
  n ≠ [] ∧ n ≠ [42] ∧ 44 ∉ n ∧ (∀ r, n.head? = some r → r ∉ blanks) ∧ (∀ r, n.getLast? = some r → r ∉ blanks) ∧
    onServer n ∉ objectNames

end Hound.Spec
