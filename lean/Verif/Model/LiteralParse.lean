import Verif.Model.TextFile
import Verif.Model.Syntax
import Verif.Model.Matcher

/-!
# Quoting a text, and reading it back as a pattern

The parts of Go's standard library that a literal search goes through: `regexp.QuoteMeta`
(index/index.go:154, codesearch/regexp/regexp.go:66-68), `syntax.Parse` for patterns made of flag groups, plain
characters and escaped punctuation (codesearch/regexp/regexp.go:34), and `syntax.Compile` for what these parse to
(codesearch/regexp/regexp.go:39). Go's limit on the size of a pattern (33 million characters) is left out.
-/

namespace Hound

/-- The characters `regexp.QuoteMeta` escapes. (for codesearch/regexp/regexp.go:66-68) -/
def metaBytes : Bytes := b!"\\.+*?()|[]{}^$"

/-- codesearch/regexp/regexp.go:66-68 `QuoteMeta` (Go `regexp.QuoteMeta`): a backslash before every special byte. -/
def goQuoteMeta : Bytes → Bytes
  | [] => []
  | b :: t => if b ∈ metaBytes then 92 :: b :: goQuoteMeta t else b :: goQuoteMeta t

/-- Go `regexp/syntax` `minFoldRune`: the smallest rune that differs only in case.
(part of `syntax.Parse`, called at codesearch/regexp/regexp.go:34) -/
def minFoldRune (orbit : Rune → List Rune) (r : Rune) : Rune := (orbit r).foldl min r

/-- The result of parsing: a tree, an error, or a pattern outside the modelled part of the syntax.
(part of `syntax.Parse`, called at codesearch/regexp/regexp.go:34) -/
inductive Parsed where
  | ok (re : Re)
  | bad
  | other

/-- Go `regexp/syntax` `parsePerlFlags` for `(?flags)`, after the `(?`. Only `i` matters to literals.
(part of `syntax.Parse`, called at codesearch/regexp/regexp.go:34) -/
def perlFlags : Bytes → Bool → Option (Bool × Bytes)
  | [], _ => none
  | c :: t, fold =>
    if c = 105 then perlFlags t true
    else if c = 109 ∨ c = 115 ∨ c = 85 then perlFlags t fold
    else if c = 41 then some (fold, t)
    else none

/-- Go `regexp/syntax` `isalnum`. (part of `syntax.Parse`, called at codesearch/regexp/regexp.go:34) -/
def isAlnum (c : UInt8) : Bool := (48 ≤ c && c ≤ 57) || (65 ≤ c && c ≤ 90) || (97 ≤ c && c ≤ 122)

/-- Go `regexp/syntax` `literal`, `push`, `maybeConcat`: a character joins the literal on top of the stack if that has
the same case flag. The stack is given from its top. (part of `syntax.Parse`, called at codesearch/regexp/regexp.go:34) -/
def pushLit (orbit : Rune → List Rune) (fold : Bool) (c : Rune) : List (List Rune × Bool) → List (List Rune × Bool)
  | [] => [([if fold then minFoldRune orbit c else c], fold)]
  | (rs, f) :: st =>
    if f = fold then (rs ++ [if fold then minFoldRune orbit c else c], f) :: st
    else ([if fold then minFoldRune orbit c else c], fold) :: (rs, f) :: st

/-- Go `regexp/syntax` `concat` and `alternate` at the end of the pattern.
(part of `syntax.Parse`, called at codesearch/regexp/regexp.go:34) -/
def finishParse : List (List Rune × Bool) → Re
  | [] => .emptyMatch
  | [(rs, f)] => .literal rs f
  | st => .concat (st.reverse.map fun x => .literal x.1 x.2)

/-- Go `regexp/syntax` `parse`, the loop over the pattern. Every round advances, so `fuel` = the length is enough.
(part of `syntax.Parse`, called at codesearch/regexp/regexp.go:34) -/
def parseLoop (orbit : Rune → List Rune) : Nat → Bytes → Bool → List (List Rune × Bool) → Parsed
  | _, [], _, st => .ok (finishParse st)
  | 0, _ :: _, _, _ => .other
  | fuel + 1, b :: t, fold, st =>
    if b = 40 then
      match t with
      | c :: t' =>
        if c = 63 then
          match perlFlags t' fold with
          | some (f, rest) => parseLoop orbit fuel rest f st
          | none => .other
        else .other
      | [] => .other
    else if b = 92 then
      match t with
      | [] => .bad
      | c :: t' => if c < 128 && !isAlnum c then parseLoop orbit fuel t' fold (pushLit orbit fold c.toNat st) else .other
    else if b ∈ b!"|)^$.[*+?{" then .other
    else
      let (c, size) := decodeRune (b :: t)
      if c = runeError ∧ size = 1 then .bad
      else parseLoop orbit fuel ((b :: t).drop size) fold (pushLit orbit fold c st)

/-- codesearch/regexp/regexp.go:34: Go `syntax.Parse(expr, syntax.Perl)`, which begins without case folding. -/
def goParse (orbit : Rune → List Rune) (expr : Bytes) : Parsed := parseLoop orbit expr.length expr false []

/-- Go `regexp/syntax` `(*compiler).rune` for one rune. (part of `syntax.Compile`, called at codesearch/regexp/regexp.go:39) -/
def runeInst (orbit : Rune → List Rune) (fold : Bool) (r : Rune) (out : Nat) : Inst :=
  if fold && !(orbit r).isEmpty then .rune [r] true out else .rune1 r out

/-- Go `regexp/syntax` `(*compiler).compile` for a literal: a chain of instructions, the first with number `n`.
(part of `syntax.Compile`, called at codesearch/regexp/regexp.go:39) -/
def litChain (orbit : Rune → List Rune) (fold : Bool) : Nat → List Rune → List Inst
  | _, [] => []
  | n, r :: rs => runeInst orbit fold r (n + 1) :: litChain orbit fold (n + 1) rs

/-- codesearch/regexp/regexp.go:38-39: Go `Simplify` (which leaves these trees unchanged) and `syntax.Compile` for a
literal and for the empty expression. Instruction 0 fails; the last one accepts. Other trees do not come from a
quoted text. -/
def compileLit (orbit : Rune → List Rune) : Re → Option Prog
  | .emptyMatch => some { inst := [.fail, .nop 2, .accept], start := 1 }
  | .literal rs fold =>
    if rs = [] then none else some { inst := .fail :: (litChain orbit fold 1 rs ++ [.accept]), start := 1 }
  | _ => none

end Hound
