import Verif.Spec.Unicode
import Verif.Spec.RuneProg

/-!
# Specification: files chosen by name

The two patterns for file names are as the user writes them, without flags: `^` and `$` match at the beginning and the end of the name only, and case
matters.
-/

namespace Hound.Spec
open Pat GoRe

/-- The pattern has a match in the name. -/
def NameHas (orbit : Rune → List Rune) (uni : Bytes → Option (Rune → Prop)) (p : Alts) (name : Bytes) : Prop :=
  ∃ i j, i ≤ j ∧ j ≤ name.length ∧ p.Means orbit uni name ⟨false, false, false⟩ i j

/-- The files searched: those with a match of the first pattern in their name, if one is given, and with none of the second, if one is given. -/
def Chosen (orbit : Rune → List Rune) (uni : Bytes → Option (Rune → Prop)) (only except : Option Alts) (name : Bytes) : Prop :=
  (∀ p, only = some p → NameHas orbit uni p name) ∧ (∀ p, except = some p → ¬ NameHas orbit uni p name)

/-- Names of one line that can be told apart byte by byte: not empty, without newlines and without encoded surrogates. -/
def OrdinaryName (name : Bytes) : Prop := name ≠ [] ∧ NL ∉ name ∧ NoSurrogate name

/-- The filters can judge the name: there are none, or the name is an ordinary one. (For the others see C08.) -/
def Judged (only except : Option Alts) (name : Bytes) : Prop := OrdinaryName name ∨ (only = none ∧ except = none)

end Hound.Spec
