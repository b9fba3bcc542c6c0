import Verif.Model.Syntax
import Verif.Model.Matcher

/-!
# `Simplify` and `Compile` of Go's `regexp/syntax` (standard library)

codesearch/regexp/regexp.go:33-50 parses a pattern, simplifies the tree and compiles it. The limits on the size of a
program are left out.
-/

namespace Hound.GoRe

/-- `syntax.Regexp` with the flags that `Simplify`, `Compile` and the parser look at: `NonGreedy` on repetitions,
`WasDollar` on the end of text, the number and name of a group. (for codesearch/regexp/regexp.go:34-39) -/
inductive Syn where
  | noMatch
  | emptyMatch
  | literal (runes : List Rune) (fold : Bool)
  | charClass (ranges : List (Rune × Rune))
  | anyCharNotNL
  | anyChar
  | beginLine
  | endLine
  | beginText
  | endText (wasDollar : Bool)
  | wordBoundary
  | noWordBoundary
  | capture (cap : Nat) (name : Bytes) (sub : Syn)
  | star (nongreedy : Bool) (sub : Syn)
  | plus (nongreedy : Bool) (sub : Syn)
  | quest (nongreedy : Bool) (sub : Syn)
  | rep (nongreedy : Bool) (sub : Syn) (lo : Nat) (hi : Option Nat)
  | concat (subs : List Syn)
  | alternate (subs : List Syn)

mutual
/-- What `RegexpQuery` looks at. (for codesearch/regexp/regexp.go:46-49) -/
def Syn.re : Syn → Re
  | .noMatch => .noMatch
  | .emptyMatch => .emptyMatch
  | .literal rs fold => .literal rs fold
  | .charClass ranges => .charClass ranges
  | .anyCharNotNL => .anyCharNotNL
  | .anyChar => .anyChar
  | .beginLine => .beginLine
  | .endLine => .endLine
  | .beginText => .beginText
  | .endText _ => .endText
  | .wordBoundary => .wordBoundary
  | .noWordBoundary => .noWordBoundary
  | .capture _ _ r => .capture r.re
  | .star _ r => .star r.re
  | .plus _ r => .plus r.re
  | .quest _ r => .quest r.re
  | .rep _ r lo hi => .rep r.re lo hi
  | .concat rs => .concat (Syn.res rs)
  | .alternate rs => .alternate (Syn.res rs)
/-- The trees of a list. (for codesearch/regexp/regexp.go:46-49) -/
def Syn.res : List Syn → List Re
  | [] => []
  | r :: rs => r.re :: Syn.res rs
end

/-! ## `Simplify` -/

/-- The operators `*`, `+` and `?`. (part of `Simplify`, called at codesearch/regexp/regexp.go:38) -/
inductive Op where
  | star
  | plus
  | quest
deriving DecidableEq

/-- A node with one of the three operators. (part of `Simplify`, called at codesearch/regexp/regexp.go:38) -/
def Op.node (op : Op) (ng : Bool) (sub : Syn) : Syn :=
  match op with
  | .star => .star ng sub
  | .plus => .plus ng sub
  | .quest => .quest ng sub

/-- Operator and flag of a node. (part of `Simplify`, called at codesearch/regexp/regexp.go:38) -/
def Syn.op? : Syn → Option (Op × Bool)
  | .star ng _ => some (.star, ng)
  | .plus ng _ => some (.plus, ng)
  | .quest ng _ => some (.quest, ng)
  | _ => none

/-- `simplify1` (the case that only saves memory is left out). (part of `Simplify`, called at codesearch/regexp/regexp.go:38) -/
def simplify1 (op : Op) (ng : Bool) (sub : Syn) : Syn :=
  match sub with
  | .emptyMatch => .emptyMatch
  | sub => if sub.op? = some (op, ng) then sub else op.node ng sub

/-- The suffix `(x(x(x)?)?)?` with `n + 1` copies of `x`. (part of `Simplify`, called at codesearch/regexp/regexp.go:38) -/
def nestQuest (ng : Bool) (sub : Syn) : Nat → Syn
  | 0 => simplify1 .quest ng sub
  | n + 1 => simplify1 .quest ng (.concat [sub, nestQuest ng sub n])

/-- `Simplify` of `x{lo,hi}`, from the simplified `x`. (part of `Simplify`, called at codesearch/regexp/regexp.go:38) -/
def simplifyRep (ng : Bool) (sub : Syn) (lo : Nat) (hi : Option Nat) : Syn :=
  match hi with
  | none =>
    if lo = 0 then simplify1 .star ng sub
    else if lo = 1 then simplify1 .plus ng sub
    else .concat (List.replicate (lo - 1) sub ++ [simplify1 .plus ng sub])
  | some hi =>
    if lo = 0 ∧ hi = 0 then .emptyMatch
    else if lo = 1 ∧ hi = 1 then sub
    else if lo < hi then
      if lo = 0 then nestQuest ng sub (hi - 1)
      else .concat (List.replicate lo sub ++ [nestQuest ng sub (hi - lo - 1)])
    else if 0 < lo then .concat (List.replicate lo sub)
    else .noMatch

mutual
/-- `(*Regexp).Simplify`. (part of `Simplify`, called at codesearch/regexp/regexp.go:38) -/
def simplify : Syn → Syn
  | .capture cap name r => .capture cap name (simplify r)
  | .concat rs => .concat (simplifyL rs)
  | .alternate rs => .alternate (simplifyL rs)
  | .star ng r => simplify1 .star ng (simplify r)
  | .plus ng r => simplify1 .plus ng (simplify r)
  | .quest ng r => simplify1 .quest ng (simplify r)
  | .rep ng r lo hi => simplifyRep ng (simplify r) lo hi
  | r => r
/-- The children of a node. (part of `Simplify`, called at codesearch/regexp/regexp.go:38) -/
def simplifyL : List Syn → List Syn
  | [] => []
  | r :: rs => simplify r :: simplifyL rs
end

/-! ## `Compile` -/

/-- A field of an instruction that is to be filled in: number of the instruction; `true` for `Arg`, `false` for `Out`.
(Go threads the list of such fields through the fields themselves, `patchList`.)
(part of `syntax.Compile`, called at codesearch/regexp/regexp.go:39) -/
abbrev Slot := Nat × Bool

/-- `frag`: where a fragment begins (0 if it cannot match), the fields to be filled in with what follows it, and
whether it can match the empty string. (part of `syntax.Compile`, called at codesearch/regexp/regexp.go:39) -/
structure Frag where
  i : Nat := 0
  out : List Slot := []
  nullable : Bool := false

/-- One field of an instruction filled in. (part of `syntax.Compile`, called at codesearch/regexp/regexp.go:39) -/
def setSlot (arg : Bool) (v : Nat) : Inst → Inst
  | .nop o => .nop (if arg then o else v)
  | .capture o => .capture (if arg then o else v)
  | .alt o a => if arg then .alt o v else .alt v a
  | .altMatch o a => if arg then .altMatch o v else .altMatch v a
  | .empty op o => .empty op (if arg then o else v)
  | .byteRange lo hi f o => .byteRange lo hi f (if arg then o else v)
  | .rune rs f o => .rune rs f (if arg then o else v)
  | .rune1 r o => .rune1 r (if arg then o else v)
  | .runeAny o => .runeAny (if arg then o else v)
  | .runeAnyNotNL o => .runeAnyNotNL (if arg then o else v)
  | i => i

/-- `(patchList).patch`. (part of `syntax.Compile`, called at codesearch/regexp/regexp.go:39) -/
def patch : List Slot → Nat → List Inst → List Inst
  | [], _, X => X
  | s :: l, v, X => patch l v (X.modify s.1 (setSlot s.2 v))

/-- The result of a step of the compiler: the fragment and the instructions so far.
(part of `syntax.Compile`, called at codesearch/regexp/regexp.go:39) -/
abbrev Built := Frag × List Inst

/-- An instruction with one field to be filled in: `nop`, `cap`, `empty`, `rune`.
(part of `syntax.Compile`, called at codesearch/regexp/regexp.go:39) -/
def single (i : Inst) (nullable : Bool) (X : List Inst) : Built :=
  (⟨X.length, [(X.length, false)], nullable⟩, X ++ [i])

/-- `(*compiler).cat`. (part of `syntax.Compile`, called at codesearch/regexp/regexp.go:39) -/
def cat (f1 f2 : Frag) (X : List Inst) : Built :=
  if f1.i = 0 ∨ f2.i = 0 then ({}, X)
  else (⟨f1.i, f2.out, f1.nullable && f2.nullable⟩, patch f1.out f2.i X)

/-- `(*compiler).alt`. (part of `syntax.Compile`, called at codesearch/regexp/regexp.go:39) -/
def alt (f1 f2 : Frag) (X : List Inst) : Built :=
  if f1.i = 0 then (f2, X)
  else if f2.i = 0 then (f1, X)
  else (⟨X.length, f1.out ++ f2.out, f1.nullable || f2.nullable⟩, X ++ [.alt f1.i f2.i])

/-- The instruction of a repetition: one field leads to the fragment, the other is to be filled in.
(part of `syntax.Compile`, called at codesearch/regexp/regexp.go:39) -/
def choice (i : Nat) (ng : Bool) : Inst := if ng then .alt 0 i else .alt i 0

/-- `(*compiler).quest`. (part of `syntax.Compile`, called at codesearch/regexp/regexp.go:39) -/
def quest (ng : Bool) (f1 : Frag) (X : List Inst) : Built :=
  (⟨X.length, (X.length, !ng) :: f1.out, true⟩, X ++ [choice f1.i ng])

/-- `(*compiler).loop`. (part of `syntax.Compile`, called at codesearch/regexp/regexp.go:39) -/
def loop (ng : Bool) (f1 : Frag) (X : List Inst) : Built :=
  (⟨X.length, [(X.length, !ng)], true⟩, patch f1.out X.length (X ++ [choice f1.i ng]))

/-- `(*compiler).plus`. (part of `syntax.Compile`, called at codesearch/regexp/regexp.go:39) -/
def plus (ng : Bool) (f1 : Frag) (X : List Inst) : Built :=
  let l := loop ng f1 X
  (⟨f1.i, l.1.out, f1.nullable⟩, l.2)

/-- `(*compiler).star`. (part of `syntax.Compile`, called at codesearch/regexp/regexp.go:39) -/
def star (ng : Bool) (f1 : Frag) (X : List Inst) : Built :=
  if f1.nullable then
    let p := plus ng f1 X
    quest ng p.1 p.2
  else loop ng f1 X

/-- The bounds of ranges in one list, as Go stores them. (part of `syntax.Compile`, called at codesearch/regexp/regexp.go:39) -/
def flatRanges : List (Rune × Rune) → List Rune
  | [] => []
  | p :: ps => p.1 :: p.2 :: flatRanges ps

/-- `(*compiler).rune`, the instruction; `fold`: the flag `FoldCase`.
(part of `syntax.Compile`, called at codesearch/regexp/regexp.go:39) -/
def runeInstOf (orbit : Rune → List Rune) (rs : List Rune) (fold : Bool) : Inst :=
  match rs with
  | [r] => if fold && !(orbit r).isEmpty then .rune [r] true 0 else .rune1 r 0
  | [a, b] => if a = b then .rune1 a 0 else if a = 0 ∧ b = 0x10FFFF then .runeAny 0 else .rune [a, b] false 0
  | [a, b, c, d] =>
    if a = 0 ∧ b = 9 ∧ c = 11 ∧ d = 0x10FFFF then .runeAnyNotNL 0 else .rune [a, b, c, d] false 0
  | rs => .rune rs false 0

/-- `(*compiler).compile` of a literal: one instruction for each rune, one after the other.
(part of `syntax.Compile`, called at codesearch/regexp/regexp.go:39) -/
def compileRunes (orbit : Rune → List Rune) (fold : Bool) : List Rune → Built → Built
  | [], b => b
  | r :: rs, (f, X) =>
    let b := single (runeInstOf orbit [r] fold) false X
    compileRunes orbit fold rs (cat f b.1 b.2)

mutual
/-- `(*compiler).compile`; `none`: panic (a repetition `x{n,m}`).
(part of `syntax.Compile`, called at codesearch/regexp/regexp.go:39) -/
def compile (orbit : Rune → List Rune) : Syn → List Inst → Option Built
  | .noMatch, X => some ({}, X)
  | .emptyMatch, X => some (single (.nop 0) true X)
  | .literal [] _, X => some (single (.nop 0) true X)
  | .literal (r :: rs) fold, X => some (compileRunes orbit fold rs (single (runeInstOf orbit [r] fold) false X))
  | .charClass ranges, X => some (single (runeInstOf orbit (flatRanges ranges) false) false X)
  | .anyCharNotNL, X => some (single (runeInstOf orbit [0, 9, 11, 0x10FFFF] false) false X)
  | .anyChar, X => some (single (runeInstOf orbit [0, 0x10FFFF] false) false X)
  | .beginLine, X => some (single (.empty { bol := true } 0) true X)
  | .endLine, X => some (single (.empty { eol := true } 0) true X)
  | .beginText, X => some (single (.empty { bot := true } 0) true X)
  | .endText _, X => some (single (.empty { eot := true } 0) true X)
  | .wordBoundary, X => some (single (.empty { wb := true } 0) true X)
  | .noWordBoundary, X => some (single (.empty { nwb := true } 0) true X)
  | .capture _ _ r, X =>
    let bra := single (.capture 0) true X
    (compile orbit r bra.2).map fun sub =>
      let ket := single (.capture 0) true sub.2
      let b := cat bra.1 sub.1 ket.2
      cat b.1 ket.1 b.2
  | .star ng r, X => (compile orbit r X).map fun b => star ng b.1 b.2
  | .plus ng r, X => (compile orbit r X).map fun b => plus ng b.1 b.2
  | .quest ng r, X => (compile orbit r X).map fun b => quest ng b.1 b.2
  | .rep _ _ _ _, _ => none
  | .concat [], X => some (single (.nop 0) true X)
  | .concat (r :: rs), X => (compile orbit r X).bind fun b => compileCat orbit rs b.1 b.2
  | .alternate rs, X => compileAlt orbit rs {} X
/-- The other parts of a concatenation. (part of `syntax.Compile`, called at codesearch/regexp/regexp.go:39) -/
def compileCat (orbit : Rune → List Rune) : List Syn → Frag → List Inst → Option Built
  | [], f, X => some (f, X)
  | r :: rs, f, X =>
    (compile orbit r X).bind fun b =>
      let c := cat f b.1 b.2
      compileCat orbit rs c.1 c.2
/-- The parts of an alternation. (part of `syntax.Compile`, called at codesearch/regexp/regexp.go:39) -/
def compileAlt (orbit : Rune → List Rune) : List Syn → Frag → List Inst → Option Built
  | [], f, X => some (f, X)
  | r :: rs, f, X =>
    (compile orbit r X).bind fun b =>
      let c := alt f b.1 b.2
      compileAlt orbit rs c.1 c.2
end

/-- `syntax.Compile`: instruction 0 fails, the last one accepts.
(part of `syntax.Compile`, called at codesearch/regexp/regexp.go:39) -/
def compileProg (orbit : Rune → List Rune) (r : Syn) : Option Prog :=
  (compile orbit r [.fail]).map fun b => ⟨patch b.1.out b.2.length (b.2 ++ [.accept]), b.1.i⟩

end Hound.GoRe
