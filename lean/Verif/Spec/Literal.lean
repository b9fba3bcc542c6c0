import Verif.Spec.EndToEnd
import Verif.Spec.Paging
import Verif.Model.LiteralParse

/-! # Specification: texts, and texts that differ only in case -/

namespace Hound.Spec
open Hound

/-- `s` is the UTF-8 encoding of these code points. -/
def EncodedAs (s : Bytes) (rs : List Rune) : Prop := (∀ r ∈ rs, validRune r = true) ∧ s = rs.flatMap encodeRaw

/-- What `orbit` lists for a code point are the others of its case folding class. -/
structure FoldClasses (orbit : Rune → List Rune) : Prop where
  ascii : AsciiFolds orbit
  same : ∀ r x, x ∈ orbit r → ∀ y, (y = x ∨ y ∈ orbit x) ↔ (y = r ∨ y ∈ orbit r)
  valid : ∀ r x, validRune r = true → x ∈ orbit r → validRune x = true

/-- The two texts have the same number of code points, and at each place the same one or one that differs only in
case. -/
def SameButCase (orbit : Rune → List Rune) : List Rune → List Rune → Prop
  | [], [] => True
  | r :: rs, x :: xs => (x = r ∨ x ∈ orbit r) ∧ SameButCase orbit rs xs
  | _, _ => False

/-- codesearch/regexp/regexp.go:33-54 `Compile`, for texts that are read as literals: `c` is what `Search` uses of the
result. -/
def CompiledText (grow : Nat → Nat → Nat) (orbit : Rune → List Rune) (expr : Bytes) (c : Compiled Query) : Prop :=
  ∃ re p q, goParse orbit expr = .ok re ∧ compileLit orbit re = some p ∧ toByteProg orbit p = some q ∧
    q.inst.length < 2 ^ 32 ∧ MatcherOf q c.mt ∧ c.query = (HInfo.regexpQuery grow orbit re).1

end Hound.Spec
