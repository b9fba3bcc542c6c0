import Verif.Model.Utf8

/-!
# `regexp/syntax.Regexp` (Go standard library): the parsed regular expression

The parser is not modelled; `Re` is the tree it produces (`re.Syntax` in
codesearch/regexp/regexp.go:46-49).  Flags other than `FoldCase` on literals, and the
greedy/non-greedy distinction, do not influence the modelled code.
-/

namespace Hound

/-- `syntax.Regexp`. A character class is a list of inclusive ranges (Go stores the bounds flattened in
`Rune`); `rep r lo hi` is `x{lo,hi}` with `hi = none` for "no upper bound" (Go: -1). (for codesearch/regexp/regexp.go:34) -/
inductive Re where
  | noMatch
  | emptyMatch
  | literal (runes : List Rune) (foldCase : Bool)
  | charClass (ranges : List (Rune × Rune))
  | anyCharNotNL
  | anyChar
  | beginLine
  | endLine
  | beginText
  | endText
  | wordBoundary
  | noWordBoundary
  | capture (sub : Re)
  | star (sub : Re)
  | plus (sub : Re)
  | quest (sub : Re)
  | rep (sub : Re) (lo : Nat) (hi : Option Nat)
  | concat (subs : List Re)
  | alternate (subs : List Re)

end Hound
