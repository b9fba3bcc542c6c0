import Verif.Model.Parse
import Verif.Spec.Pattern
import Verif.Spec.GoTree

/-!
# What is assumed of Go's Unicode tables, and compiling a pattern from its text

The tables are those of the `unicode` package; they are parameters of the model.
-/

namespace Hound.GoRe
open Hound.Spec Hound.Spec.Pat

/-- The class has the rune. -/
def InR (r : Ranges) (x : Rune) : Prop := ∃ p ∈ r, p.1 ≤ x ∧ x ≤ p.2

/-- The ranges are not empty and within the code points. -/
def ROk (r : Ranges) : Prop := ∀ p ∈ r, p.1 ≤ p.2 ∧ p.2 ≤ maxRune

/-- The ranges follow one another, from `next` on. -/
def RSorted : Nat → Ranges → Prop
  | _, [] => True
  | next, p :: t => next ≤ p.1 ∧ p.1 ≤ p.2 ∧ RSorted (p.2 + 1) t

/-- What is assumed of case folding: it stays within the code points that have case. -/
def FoldBounds (orbit : Rune → List Rune) : Prop :=
  ∀ y : Rune, ∀ x ∈ orbit y, (0x41 ≤ y ∧ y ≤ 0x1e943) ∧ 0x41 ≤ x ∧ x ≤ 0x1e943

/-- What is assumed of case folding: `unicode.SimpleFold` goes round the characters that differ in case only, and they are among those
that have case. -/
structure FoldCycles (orbit : Rune → List Rune) : Prop where
  turn : ∀ r x t, orbit r = x :: t → orbit x = t ++ [r]
  self : ∀ r, r ∉ orbit r
  bounds : FoldBounds orbit

/-- The tables of `unicode` give the classes `uni`: the ranges of a table follow one another, and with the second table, of those that folding
adds, it is the class without regard to case; where there is no second table folding adds nothing. -/
def Describes (T : Tables) (uni : Bytes → Option (Rune → Prop)) : Prop :=
  ∀ name S, uni name = some S → ∃ tab more, T.uni name = some (tab, more) ∧ ROk tab ∧ RSorted 0 tab ∧ (∀ x, S x ↔ InR tab x) ∧
    (∀ t, more = some t → ROk t ∧ ∀ x, WithCase T.orbit true S x ↔ InR tab x ∨ InR t x) ∧
    (more = none → ∀ x, WithCase T.orbit true S x ↔ S x)

/-- The tables have no other classes, and the names of classes are words of ASCII letters, digits and underscores. -/
def NamesOnly (T : Tables) (uni : Bytes → Option (Rune → Prop)) : Prop :=
  ∀ name x, T.uni name = some x → (uni name).isSome ∧ name ≠ [] ∧ ∀ c ∈ name, Pat.isAlnum c = true ∨ c = 95

/-- What is assumed of case folding: no surrogate has case. -/
def ValidFolds (orbit : Rune → List Rune) : Prop := ∀ r : Rune, ∀ x ∈ orbit r, validRune x = true

/-- A character that is compiled correctly (C17): no surrogate, and where case does not matter, no character with case above U+1044F. -/
def PlainChar (orbit : Rune → List Rune) (caseless : Bool) (r : Rune) : Prop :=
  validRune r = true ∧ (caseless = true → r ≤ 0x1044f ∨ orbit r = [])

/-- A set that is compiled correctly (C17): it has no surrogate, or it has U+D000 to U+EFFF; and it is not just the two cases of a character
above U+1044F. -/
def PlainSet (orbit : Rune → List Rune) (_caseless : Bool) (S : Rune → Prop) : Prop :=
  ((∀ x : Nat, S x → x < 0xD800 ∨ 0xE000 ≤ x) ∨ ∀ x : Nat, 0xD000 ≤ x → x ≤ 0xEFFF → S x) ∧
  ∀ a c : Nat, 0x1044f < a → c ∈ orbit a → ¬ ∀ x : Nat, x ≤ 0x10FFFF ∧ S x ↔ x = a ∨ x = c

/-- codesearch/regexp/regexp.go:33-54 `Compile`: `c` is what `Search` uses of the result for the pattern `expr`. -/
def CompiledText (T : Tables) (grow : Nat → Nat → Nat) (expr : Bytes) (c : Compiled Query) : Prop :=
  ∃ t, parse T expr = .ok t ∧ CompiledTree grow T.orbit t c

/-- The flags a search begins with: `^` and `$` match at line ends, and case does not matter if the search says so. -/
def searchMode (opt : SearchOptions) : Mode := ⟨opt.ignoreCase, true, false⟩

end Hound.GoRe
