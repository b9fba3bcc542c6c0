import Verif.Spec.Literal
import Verif.Spec.OnPage
import Verif.Spec.FileFilter

/-!
# Specification: lines with a text in them
-/

namespace Hound.Spec
open Pat GoRe

/-- The line has these characters in it, next to each other; or, where case does not matter, characters that differ from them only in case. -/
def HasText (orbit : Rune → List Rune) (caseless : Bool) (rs : List Rune) (line : Bytes) : Prop :=
  if caseless then ∃ text xs, EncodedAs text xs ∧ SameButCase orbit rs xs ∧ text <:+: line else rs.flatMap encodeRaw <:+: line

/-- A line of a file that is indexed and chosen by the two file filters, with its number, that has the text in it. -/
def LineWithText (orbit : Rune → List Rune) (uni : Bytes → Option (Rune → Prop)) (caseless : Bool) (rs : List Rune) (only except : Option Alts)
    (files : List (Bytes × Bytes)) (name : Bytes) (k : Nat) (line : Bytes) : Prop :=
  ∃ content a e, (name, content) ∈ files ∧ Chosen orbit uni only except name ∧ LineAt content a e ∧ k = (content.take a).count NL + 1 ∧
    line = slice content a e ∧ HasText orbit caseless rs line

end Hound.Spec
