import Verif.Model.GoCompile
import Verif.Model.TextFile
import Verif.Model.LiteralParse

/-!
# `Parse` of Go's `regexp/syntax` (standard library)

codesearch/regexp/regexp.go:34 parses the pattern with `syntax.Parse(expr, syntax.Perl)`. The parser is that of `parse.go` in Go's
`regexp/syntax`, from the Go source as known, since the standard library is not in the sandbox. Nodes are values (Go reuses nodes
it has given up). Left out: the limits on the height and size of trees (`checkLimits`), and of the flags of a node those that only
matter to printing. The tables of Unicode classes and of case folding are parameters.
-/

namespace Hound.GoRe

/-- What the parser depends on: the characters that differ from a character in case only, in the order of `unicode.SimpleFold`; the
tables of `unicodeTable`, written out as ranges, with the table of the characters folding adds; and whether `(*Regexp).Equal` tells
literals apart that differ only in the flag for folding (it does not in the source as known).
(part of `syntax.Parse`, called at codesearch/regexp/regexp.go:34) -/
structure Tables where
  orbit : Rune → List Rune
  uni : Bytes → Option (List (Rune × Rune) × Option (List (Rune × Rune)))
  equalFold : Bool

/-- `ErrorCode`. (part of `syntax.Parse`, called at codesearch/regexp/regexp.go:34) -/
inductive PErr where
  | invalidCharRange
  | invalidEscape
  | invalidNamedCapture
  | invalidPerlOp
  | invalidRepeatOp
  | invalidRepeatSize
  | invalidUTF8
  | missingBracket
  | missingParen
  | missingRepeatArgument
  | trailingBackslash
  | unexpectedParen
  | internal
deriving DecidableEq, Repr

/-- The flags that change while parsing (`syntax.Perl` has `PerlX`, `UnicodeGroups` and `ClassNL` as well).
(part of `syntax.Parse`, called at codesearch/regexp/regexp.go:34) -/
structure PFlags where
  fold : Bool
  oneLine : Bool
  dotNL : Bool
  nonGreedy : Bool
deriving DecidableEq, Repr

/-- Complement of all flags. (part of `syntax.Parse`, called at codesearch/regexp/regexp.go:34) -/
def PFlags.inv (f : PFlags) : PFlags := ⟨!f.fold, !f.oneLine, !f.dotNL, !f.nonGreedy⟩

/-- `unicode.MaxRune`. (part of `syntax.Parse`, called at codesearch/regexp/regexp.go:34) -/
def maxRune : Rune := 0x10FFFF

/-- `unicode.SimpleFold`. (part of `syntax.Parse`, called at codesearch/regexp/regexp.go:34) -/
def simpleFold (orbit : Rune → List Rune) (r : Rune) : Rune := (orbit r).headD r

/-! ## Classes -/

/-- A class: pairs of bounds. (part of `syntax.Parse`, called at codesearch/regexp/regexp.go:34) -/
abbrev Ranges := List (Rune × Rune)

/-- In `appendRange`: the range overlaps or abuts. (as at codesearch/regexp/copy.go:52-74) -/
def touches (p : Rune × Rune) (lo hi : Rune) : Bool := lo ≤ p.2 + 1 && p.1 ≤ hi + 1

/-- In `appendRange`: the range is expanded. (as at codesearch/regexp/copy.go:52-74) -/
def widen (p : Rune × Rune) (lo hi : Rune) : Rune × Rune := (if lo < p.1 then lo else p.1, if hi > p.2 then hi else p.2)

/-- `appendRange`: the last range or the one before it is expanded if possible.
(the same function is at codesearch/regexp/copy.go:52-74) -/
def appendRange : Ranges → Rune → Rune → Ranges
  | [], lo, hi => [(lo, hi)]
  | [p], lo, hi => if touches p lo hi then [widen p lo hi] else [p, (lo, hi)]
  | [p, q], lo, hi =>
    if touches q lo hi then [p, widen q lo hi] else if touches p lo hi then [widen p lo hi, q] else [p, q, (lo, hi)]
  | p :: q :: r :: t, lo, hi => p :: appendRange (q :: r :: t) lo hi

/-- `minFold`, the smallest rune with case. (as at codesearch/regexp/copy.go:79) -/
def minFold : Rune := 0x41

/-- `maxFold`, the largest. (as at codesearch/regexp/copy.go:80) -/
def maxFold : Rune := 0x1e943

/-- In `appendFoldedRange`: a rune and all that fold to it. (as at codesearch/regexp/copy.go:107-116) -/
def appendOrbit (orbit : Rune → List Rune) (r : Ranges) (c : Rune) : Ranges :=
  (orbit c).foldl (fun r f => appendRange r f f) (appendRange r c c)

/-- `appendFoldedRange`. (the same function is at codesearch/regexp/copy.go:85-116) -/
def appendFoldedRange (orbit : Rune → List Rune) (r : Ranges) (lo hi : Rune) : Ranges :=
  if lo ≤ minFold ∧ hi ≥ maxFold then appendRange r lo hi
  else if hi < minFold ∨ lo > maxFold then appendRange r lo hi
  else
    let (r, lo) := if lo < minFold then (appendRange r lo (minFold - 1), minFold) else (r, lo)
    let (r, hi) := if hi > maxFold then (appendRange r (maxFold + 1) hi, maxFold) else (r, hi)
    (List.range' lo (hi + 1 - lo)).foldl (appendOrbit orbit) r

/-- `appendClass`. (part of `syntax.Parse`, called at codesearch/regexp/regexp.go:34) -/
def appendClass (r x : Ranges) : Ranges := x.foldl (fun r p => appendRange r p.1 p.2) r

/-- `appendFoldedClass`. (part of `syntax.Parse`, called at codesearch/regexp/regexp.go:34) -/
def appendFoldedClass (orbit : Rune → List Rune) (r x : Ranges) : Ranges :=
  x.foldl (fun r p => appendFoldedRange orbit r p.1 p.2) r

/-- `appendNegatedClass`, from `next` on. (part of `syntax.Parse`, called at codesearch/regexp/regexp.go:34) -/
def appendNegatedFrom (r : Ranges) (next : Rune) : Ranges → Ranges
  | [] => if next ≤ maxRune then appendRange r next maxRune else r
  | (lo, hi) :: x => appendNegatedFrom (if next < lo then appendRange r next (lo - 1) else r) (hi + 1) x

/-- `appendNegatedClass`. (part of `syntax.Parse`, called at codesearch/regexp/regexp.go:34) -/
def appendNegatedClass (r x : Ranges) : Ranges := appendNegatedFrom r 0 x

/-- The order in which `cleanClass` sorts: smaller lower bound, then larger upper bound.
(as at codesearch/regexp/copy.go:122-140) -/
def rangeBefore (p q : Rune × Rune) : Bool := p.1 < q.1 || (p.1 == q.1 && q.2 ≤ p.2)

/-- Insertion into a sorted class. (for codesearch/regexp/copy.go:24) -/
def insertRange (p : Rune × Rune) : Ranges → Ranges
  | [] => [p]
  | q :: t => if rangeBefore p q then p :: q :: t else q :: insertRange p t

/-- `sort.Sort(ranges{rp})` (any sorting gives the same result, as ranges that compare equal are equal).
(as at codesearch/regexp/copy.go:24) -/
def sortRanges (r : Ranges) : Ranges := r.foldr insertRange []

/-- In `cleanClass`: ranges that overlap or abut are merged. (as at codesearch/regexp/copy.go:21-49) -/
def mergeRanges (p : Rune × Rune) : Ranges → Ranges
  | [] => [p]
  | q :: t => if q.1 ≤ p.2 + 1 then mergeRanges (p.1, if q.2 > p.2 then q.2 else p.2) t else p :: mergeRanges q t

/-- `cleanClass`. (the same function is at codesearch/regexp/copy.go:21-49) -/
def cleanClass (r : Ranges) : Ranges :=
  match sortRanges r with
  | [] => []
  | p :: t => mergeRanges p t

/-- `negateClass`, from `next` on. (part of `syntax.Parse`, called at codesearch/regexp/regexp.go:34) -/
def negateFrom (next : Rune) : Ranges → Ranges
  | [] => if next ≤ maxRune then [(next, maxRune)] else []
  | (lo, hi) :: x => if next < lo then (next, lo - 1) :: negateFrom (hi + 1) x else negateFrom (hi + 1) x

/-- `negateClass`. (part of `syntax.Parse`, called at codesearch/regexp/regexp.go:34) -/
def negateClass (r : Ranges) : Ranges := negateFrom 0 r

/-- `perlGroup`: sign (`true` for the class itself) and class.
(part of `syntax.Parse`, called at codesearch/regexp/regexp.go:34) -/
def perlGroup (c : UInt8) : Option (Bool × Ranges) :=
  if c = 100 then some (true, [(0x30, 0x39)])
  else if c = 68 then some (false, [(0x30, 0x39)])
  else if c = 115 then some (true, [(0x9, 0xa), (0xc, 0xd), (0x20, 0x20)])
  else if c = 83 then some (false, [(0x9, 0xa), (0xc, 0xd), (0x20, 0x20)])
  else if c = 119 then some (true, [(0x30, 0x39), (0x41, 0x5a), (0x5f, 0x5f), (0x61, 0x7a)])
  else if c = 87 then some (false, [(0x30, 0x39), (0x41, 0x5a), (0x5f, 0x5f), (0x61, 0x7a)])
  else none

/-- `posixGroup`, by the name between the colons. (part of `syntax.Parse`, called at codesearch/regexp/regexp.go:34) -/
def posixClasses : List (Bytes × Ranges) :=
  [(b!"alnum", [(0x30, 0x39), (0x41, 0x5a), (0x61, 0x7a)]), (b!"alpha", [(0x41, 0x5a), (0x61, 0x7a)]), (b!"ascii", [(0, 0x7f)]),
   (b!"blank", [(9, 9), (0x20, 0x20)]), (b!"cntrl", [(0, 0x1f), (0x7f, 0x7f)]), (b!"digit", [(0x30, 0x39)]),
   (b!"graph", [(0x21, 0x7e)]), (b!"lower", [(0x61, 0x7a)]), (b!"print", [(0x20, 0x7e)]),
   (b!"punct", [(0x21, 0x2f), (0x3a, 0x40), (0x5b, 0x60), (0x7b, 0x7e)]), (b!"space", [(9, 0xd), (0x20, 0x20)]),
   (b!"upper", [(0x41, 0x5a)]), (b!"word", [(0x30, 0x39), (0x41, 0x5a), (0x5f, 0x5f), (0x61, 0x7a)]),
   (b!"xdigit", [(0x30, 0x39), (0x41, 0x46), (0x61, 0x66)])]

/-- `posixGroup`. (part of `syntax.Parse`, called at codesearch/regexp/regexp.go:34) -/
def posixGroup (name : Bytes) : Option (Bool × Ranges) :=
  match name with
  | 94 :: n => (posixClasses.lookup n).map fun c => (false, c)
  | n => (posixClasses.lookup n).map fun c => (true, c)

/-- `(*parser).appendGroup`. (part of `syntax.Parse`, called at codesearch/regexp/regexp.go:34) -/
def appendGroup (orbit : Rune → List Rune) (fold : Bool) (r : Ranges) (g : Bool × Ranges) : Ranges :=
  let c := if fold then cleanClass (appendFoldedClass orbit [] g.2) else g.2
  if g.1 then appendClass r c else appendNegatedClass r c

/-! ## Trees -/

/-- `isCharClass`. (part of `syntax.Parse`, called at codesearch/regexp/regexp.go:34) -/
def isCharClass : Syn → Bool
  | .literal [_] _ => true
  | .charClass _ => true
  | .anyCharNotNL => true
  | .anyChar => true
  | _ => false

/-- The order of the operators `isCharClass` allows. (part of `syntax.Parse`, called at codesearch/regexp/regexp.go:34) -/
def charRank : Syn → Nat
  | .literal _ _ => 3
  | .charClass _ => 4
  | .anyCharNotNL => 5
  | .anyChar => 6
  | _ => 0

/-- `len(re.Rune)`. (part of `syntax.Parse`, called at codesearch/regexp/regexp.go:34) -/
def runeLen : Syn → Nat
  | .literal rs _ => rs.length
  | .charClass r => 2 * r.length
  | _ => 0

/-- `matchRune`. (part of `syntax.Parse`, called at codesearch/regexp/regexp.go:34) -/
def matchRune (s : Syn) (r : Rune) : Bool :=
  match s with
  | .literal [x] _ => x == r
  | .charClass c => c.any fun p => p.1 ≤ r && r ≤ p.2
  | .anyCharNotNL => !(r == 10)
  | .anyChar => true
  | _ => false

/-- `appendLiteral`. (part of `syntax.Parse`, called at codesearch/regexp/regexp.go:34) -/
def appendLiteral (orbit : Rune → List Rune) (r : Ranges) (x : Rune) (fold : Bool) : Ranges :=
  if fold then appendFoldedRange orbit r x x else appendRange r x x

/-- `mergeCharClass` (of the flags of two literals only that for folding is compared).
(part of `syntax.Parse`, called at codesearch/regexp/regexp.go:34) -/
def mergeCharClass (orbit : Rune → List Rune) (dst src : Syn) : Syn :=
  match dst, src with
  | .anyChar, _ => .anyChar
  | .anyCharNotNL, src => if matchRune src 10 then .anyChar else .anyCharNotNL
  | .charClass r, .literal (x :: _) fold => .charClass (appendLiteral orbit r x fold)
  | .charClass r, .charClass x => .charClass (appendClass r x)
  | .literal (a :: l) f, .literal (b :: _) g =>
    if a = b ∧ f = g then .literal (a :: l) f else .charClass (appendLiteral orbit (appendLiteral orbit [] a f) b g)
  | dst, _ => dst

/-- `cleanAlt`. (part of `syntax.Parse`, called at codesearch/regexp/regexp.go:34) -/
def cleanAlt : Syn → Syn
  | .charClass r =>
    let r := cleanClass r
    if r = [(0, maxRune)] then .anyChar
    else if r = [(0, 9), (11, maxRune)] then .anyCharNotNL
    else .charClass r
  | s => s

/-- `leadingString`. (part of `syntax.Parse`, called at codesearch/regexp/regexp.go:34) -/
def leadingString : Syn → List Rune × Bool
  | .concat (.literal rs f :: _) => (rs, f)
  | .literal rs f => (rs, f)
  | _ => ([], false)

/-- `removeLeadingString` for a literal. (part of `syntax.Parse`, called at codesearch/regexp/regexp.go:34) -/
def dropRunes (n : Nat) (rs : List Rune) (f : Bool) : Syn := if rs.drop n = [] then .emptyMatch else .literal (rs.drop n) f

/-- `removeLeadingString`. (part of `syntax.Parse`, called at codesearch/regexp/regexp.go:34) -/
def removeLeadingString (n : Nat) : Syn → Syn
  | .concat (.literal rs f :: t) =>
    if rs.drop n = [] then
      match t with
      | [] => .emptyMatch
      | [s] => s
      | t => .concat t
    else .concat (.literal (rs.drop n) f :: t)
  | .literal rs f => dropRunes n rs f
  | s => s

/-- `leadingRegexp`. (part of `syntax.Parse`, called at codesearch/regexp/regexp.go:34) -/
def leadingRegexp : Syn → Option Syn
  | .emptyMatch => none
  | .concat (.emptyMatch :: _) => none
  | .concat (s :: _) => some s
  | s => some s

/-- `removeLeadingRegexp`. (part of `syntax.Parse`, called at codesearch/regexp/regexp.go:34) -/
def removeLeadingRegexp : Syn → Syn
  | .concat (_ :: t) =>
    match t with
    | [] => .emptyMatch
    | [s] => s
    | t => .concat t
  | _ => .emptyMatch

/-- `(*Regexp).Equal` for what `isCharClass` allows. (part of `syntax.Parse`, called at codesearch/regexp/regexp.go:34) -/
def charEqual (equalFold : Bool) : Syn → Syn → Bool
  | .literal a f, .literal b g => a == b && (!equalFold || f == g)
  | .charClass a, .charClass b => a == b
  | .anyCharNotNL, .anyCharNotNL => true
  | .anyChar, .anyChar => true
  | _, _ => false

/-- In `factor`, round 2: the two begin with the same, and that is a class or a class repeated a fixed number of times.
(part of `syntax.Parse`, called at codesearch/regexp/regexp.go:34) -/
def sameLead (equalFold : Bool) : Syn → Syn → Bool
  | .rep ng s lo hi, .rep ng' s' lo' hi' =>
    ng == ng' && lo == lo' && hi == hi' && hi == some lo && isCharClass s && charEqual equalFold s s'
  | a, b => isCharClass a && charEqual equalFold a b

/-- The common beginning of two strings. (part of `syntax.Parse`, called at codesearch/regexp/regexp.go:34) -/
def commonRunes : List Rune → List Rune → List Rune
  | a :: s, b :: t => if a = b then a :: commonRunes s t else []
  | _, _ => []

section
variable (T : Tables)

/-- In `factor`, round 1: the end of a run of expressions that begin with `str`. `alt` makes an alternation of the rests.
(part of `syntax.Parse`, called at codesearch/regexp/regexp.go:34) -/
def endRun1 (alt : List Syn → Syn) (run : List Syn) (str : List Rune) (f : Bool) : List Syn :=
  match run with
  | [] => []
  | [s] => [s]
  | run => [.concat [.literal str f, alt (run.map (removeLeadingString str.length))]]

/-- `factor`, round 1: common strings. (part of `syntax.Parse`, called at codesearch/regexp/regexp.go:34) -/
def round1 (alt : List Syn → Syn) : List Syn → List Syn → List Rune → Bool → List Syn
  | [], run, str, f => endRun1 alt run str f
  | s :: rest, run, str, f =>
    let (istr, g) := leadingString s
    if g = f ∧ commonRunes str istr ≠ [] then round1 alt rest (run ++ [s]) (commonRunes str istr) f
    else endRun1 alt run str f ++ round1 alt rest [s] istr g

/-- In `factor`, round 2: the end of a run of expressions that begin with `first`.
(part of `syntax.Parse`, called at codesearch/regexp/regexp.go:34) -/
def endRun2 (alt : List Syn → Syn) (run : List Syn) (first : Option Syn) : List Syn :=
  match run, first with
  | [], _ => []
  | [s], _ => [s]
  | run, some first => [.concat [first, alt (run.map removeLeadingRegexp)]]
  | run, none => run

/-- In `factor`, round 2: does the next expression belong to the run?
(part of `syntax.Parse`, called at codesearch/regexp/regexp.go:34) -/
def continues (first next : Option Syn) : Bool :=
  match first, next with
  | some a, some b => sameLead T.equalFold a b
  | _, _ => false

/-- `factor`, round 2: common first expressions. (part of `syntax.Parse`, called at codesearch/regexp/regexp.go:34) -/
def round2 (alt : List Syn → Syn) : List Syn → List Syn → Option Syn → List Syn
  | [], run, first => endRun2 alt run first
  | s :: rest, run, first =>
    if continues T first (leadingRegexp s) then round2 alt rest (run ++ [s]) first
    else endRun2 alt run first ++ round2 alt rest [s] (leadingRegexp s)

/-- In `factor`, round 3: the place of the most complex expression, given the best so far.
(part of `syntax.Parse`, called at codesearch/regexp/regexp.go:34) -/
def maxPlace : List Syn → Nat → Nat → Syn → Nat
  | [], _, best, _ => best
  | s :: t, i, best, m =>
    if charRank m < charRank s ∨ (charRank m = charRank s ∧ runeLen m < runeLen s) then maxPlace t (i + 1) i s
    else maxPlace t (i + 1) best m

/-- In `factor`, round 3: the end of a run of characters and classes.
(part of `syntax.Parse`, called at codesearch/regexp/regexp.go:34) -/
def endRun3 (run : List Syn) : List Syn :=
  match run with
  | [] => []
  | [s] => [s]
  | s :: t =>
    let k := maxPlace t 1 0 s
    let m := ((s :: t)[k]?).getD s
    [cleanAlt ((((s :: t).set k s).tail).foldl (mergeCharClass T.orbit) m)]

/-- `factor`, round 3: runs of characters and classes. (part of `syntax.Parse`, called at codesearch/regexp/regexp.go:34) -/
def round3 : List Syn → List Syn → List Syn
  | [], run => endRun3 T run
  | s :: rest, run => if isCharClass s then round3 rest (run ++ [s]) else endRun3 T run ++ s :: round3 rest []

/-- Is it the empty expression? (part of `syntax.Parse`, called at codesearch/regexp/regexp.go:34) -/
def isEmptyMatch : Syn → Bool
  | .emptyMatch => true
  | _ => false

/-- `factor`, round 4: runs of empty expressions. (part of `syntax.Parse`, called at codesearch/regexp/regexp.go:34) -/
def round4 : List Syn → List Syn
  | [] => []
  | [s] => [s]
  | s :: t :: rest => if isEmptyMatch s && isEmptyMatch t then round4 (t :: rest) else s :: round4 (t :: rest)

/-- The children of an alternation. (part of `syntax.Parse`, called at codesearch/regexp/regexp.go:34) -/
def altSubs : Syn → List Syn
  | .alternate ss => ss
  | s => [s]

/-- The children of a concatenation. (part of `syntax.Parse`, called at codesearch/regexp/regexp.go:34) -/
def catSubs : Syn → List Syn
  | .concat ss => ss
  | s => [s]

/-- `factor` and `collapse(subs, OpAlternate)`, which call each other; `fuel` bounds the depth of the calls (it is the number of
characters and nodes, which each call makes smaller). (part of `syntax.Parse`, called at codesearch/regexp/regexp.go:34) -/
def alternation : Nat → List Syn → Syn
  | 0, subs => .alternate subs
  | fuel + 1, subs =>
    match subs with
    | [s] => s
    | subs =>
      let subs := subs.flatMap altSubs
      let subs :=
        if subs.length < 2 then subs
        else round4 (round3 T (round2 T (alternation fuel) (round1 (alternation fuel) subs [] [] false) [] none) [])
      match subs with
      | [s] => s
      | subs => .alternate subs

mutual
/-- The number of nodes and characters of a tree. (part of `syntax.Parse`, called at codesearch/regexp/regexp.go:34) -/
def Syn.size : Syn → Nat
  | .literal rs _ => rs.length + 1
  | .capture _ _ r => r.size + 1
  | .star _ r => r.size + 1
  | .plus _ r => r.size + 1
  | .quest _ r => r.size + 1
  | .rep _ r _ _ => r.size + 1
  | .concat rs => Syn.sizeL rs + 1
  | .alternate rs => Syn.sizeL rs + 1
  | _ => 1
/-- The same for the trees of a list. (part of `syntax.Parse`, called at codesearch/regexp/regexp.go:34) -/
def Syn.sizeL : List Syn → Nat
  | [] => 0
  | r :: rs => r.size + Syn.sizeL rs
end

/-- `collapse(subs, OpAlternate)`. (part of `syntax.Parse`, called at codesearch/regexp/regexp.go:34) -/
def collapseAlt (subs : List Syn) : Syn := alternation T (Syn.sizeL subs + 1) subs

/-- `collapse(subs, OpConcat)`. (part of `syntax.Parse`, called at codesearch/regexp/regexp.go:34) -/
def collapseConcat (subs : List Syn) : Syn :=
  match subs with
  | [s] => s
  | subs => .concat (subs.flatMap catSubs)

/-! ## The stack -/

/-- What is on the stack: an expression, `opVerticalBar`, or `opLeftParen` with the flags before it and, if it captures, its number
and name. (part of `syntax.Parse`, called at codesearch/regexp/regexp.go:34) -/
inductive Item where
  | re (s : Syn)
  | bar
  | paren (flags : PFlags) (cap : Option (Nat × Bytes))

/-- The stack, from its top. (part of `syntax.Parse`, called at codesearch/regexp/regexp.go:34) -/
abbrev Stack := List Item

/-- `maybeConcat(-1, 0)`: two literals on top become one. (part of `syntax.Parse`, called at codesearch/regexp/regexp.go:34) -/
def maybeConcat : Stack → Stack
  | .re (.literal r1 f1) :: .re (.literal r2 f2) :: st =>
    if f1 = f2 then .re (.literal (r2 ++ r1) f2) :: st else .re (.literal r1 f1) :: .re (.literal r2 f2) :: st
  | st => st

/-- In `push`: classes of one character, or of two that differ only in case, become literals.
(part of `syntax.Parse`, called at codesearch/regexp/regexp.go:34) -/
def asLiteral (s : Syn) : Syn :=
  match s with
  | .charClass [(a, b)] =>
    if a = b then .literal [a] false
    else if a + 1 = b ∧ simpleFold T.orbit a = b ∧ simpleFold T.orbit b = a then .literal [a] true
    else s
  | .charClass [(a, b), (c, d)] =>
    if a = b ∧ c = d ∧ simpleFold T.orbit a = c ∧ simpleFold T.orbit c = a then .literal [a] true else s
  | s => s

/-- `push` of an expression. (part of `syntax.Parse`, called at codesearch/regexp/regexp.go:34) -/
def push (s : Syn) (st : Stack) : Stack := .re (asLiteral T s) :: maybeConcat st

/-- `literal`. (part of `syntax.Parse`, called at codesearch/regexp/regexp.go:34) -/
def pushLiteral (flags : PFlags) (r : Rune) (st : Stack) : Stack :=
  push T (.literal [if flags.fold then minFoldRune T.orbit r else r] flags.fold) st

/-- The expressions on top of the stack, lowest first, and what is below.
(part of `syntax.Parse`, called at codesearch/regexp/regexp.go:34) -/
def popExprs : Stack → List Syn → List Syn × Stack
  | .re s :: st, acc => popExprs st (s :: acc)
  | st, acc => (acc, st)

/-- `concat`. (part of `syntax.Parse`, called at codesearch/regexp/regexp.go:34) -/
def concatTop (st : Stack) : Stack :=
  let (subs, rest) := popExprs (maybeConcat st) []
  push T (if subs = [] then .emptyMatch else collapseConcat subs) rest

/-- `cleanAlt` of the last expression. (part of `syntax.Parse`, called at codesearch/regexp/regexp.go:34) -/
def cleanLast : List Syn → List Syn
  | [] => []
  | [s] => [cleanAlt s]
  | s :: t => s :: cleanLast t

/-- `alternate`. (part of `syntax.Parse`, called at codesearch/regexp/regexp.go:34) -/
def alternateTop (st : Stack) : Stack :=
  let (subs, rest) := popExprs st []
  push T (if subs = [] then .noMatch else collapseAlt T (cleanLast subs)) rest

/-- `swapVerticalBar`; `none` if there is no bar below the top.
(part of `syntax.Parse`, called at codesearch/regexp/regexp.go:34) -/
def swapVerticalBar : Stack → Option Stack
  | .re r1 :: .bar :: .re r3 :: st =>
    if isCharClass r1 && isCharClass r3 then
      some (.bar :: .re (if charRank r1 > charRank r3 then mergeCharClass T.orbit r1 r3 else mergeCharClass T.orbit r3 r1) :: st)
    else some (.bar :: .re r1 :: .re (cleanAlt r3) :: st)
  | .re r1 :: .bar :: st => some (.bar :: .re r1 :: st)
  | _ => none

/-- `parseVerticalBar`. (part of `syntax.Parse`, called at codesearch/regexp/regexp.go:34) -/
def verticalBar (st : Stack) : Stack :=
  let st := concatTop T st
  (swapVerticalBar T st).getD (.bar :: maybeConcat st)

/-- The end of a group or of the pattern: `concat`, `swapVerticalBar` (whose bar is taken away), `alternate`.
(part of `syntax.Parse`, called at codesearch/regexp/regexp.go:34) -/
def closeGroup (st : Stack) : Stack :=
  let st := concatTop T st
  alternateTop T ((swapVerticalBar T st).elim st List.tail)

/-- `parseRightParen`: the flags and the stack. (part of `syntax.Parse`, called at codesearch/regexp/regexp.go:34) -/
def rightParen (st : Stack) : Except PErr (PFlags × Stack) :=
  match closeGroup T st with
  | .re s :: .paren fl cap :: rest =>
    .ok (fl, match cap with
      | none => push T s rest
      | some (n, name) => push T (.capture n name s) rest)
  | _ => .error .unexpectedParen

/-! ## Characters -/

/-- `nextRune`. (part of `syntax.Parse`, called at codesearch/regexp/regexp.go:34) -/
def nextRune (s : Bytes) : Except PErr (Rune × Bytes) :=
  let (c, size) := decodeRune s
  if c = runeError ∧ size = 1 then .error .invalidUTF8 else .ok (c, s.drop size)

/-- `unhex`. (part of `syntax.Parse`, called at codesearch/regexp/regexp.go:34) -/
def unhex (c : Rune) : Option Nat :=
  if 48 ≤ c ∧ c ≤ 57 then some (c - 48)
  else if 97 ≤ c ∧ c ≤ 102 then some (c - 97 + 10)
  else if 65 ≤ c ∧ c ≤ 70 then some (c - 65 + 10)
  else none

/-- In `parseEscape`: up to `n` more octal digits. (part of `syntax.Parse`, called at codesearch/regexp/regexp.go:34) -/
def moreOctal : Nat → Nat → Bytes → Rune × Bytes
  | 0, r, t => (r, t)
  | _ + 1, r, [] => (r, [])
  | n + 1, r, c :: t => if 48 ≤ c ∧ c ≤ 55 then moreOctal n (r * 8 + (c.toNat - 48)) t else (r, c :: t)

/-- In `parseEscape`: the digits of `\x{…}`. (part of `syntax.Parse`, called at codesearch/regexp/regexp.go:34) -/
def bracedHex : Nat → Bytes → Nat → Rune → Except PErr (Rune × Bytes)
  | 0, _, _, _ => .error .invalidEscape
  | fuel + 1, t, nhex, r =>
    if t = [] then .error .invalidEscape
    else
      match nextRune t with
      | .error e => .error e
      | .ok (c, t) =>
        if c = 125 then if nhex = 0 then .error .invalidEscape else .ok (r, t)
        else
          match unhex c with
          | none => .error .invalidEscape
          | some v => if r * 16 + v > maxRune then .error .invalidEscape else bracedHex fuel t (nhex + 1) (r * 16 + v)

/-- `parseEscape`, behind the backslash. (part of `syntax.Parse`, called at codesearch/regexp/regexp.go:34) -/
def parseEscape (t : Bytes) : Except PErr (Rune × Bytes) :=
  if t = [] then .error .trailingBackslash
  else
    match nextRune t with
    | .error e => .error e
    | .ok (c, t) =>
      if 49 ≤ c ∧ c ≤ 55 then
        match t with
        | d :: _ => if 48 ≤ d ∧ d ≤ 55 then .ok (moreOctal 2 (c - 48) t) else .error .invalidEscape
        | [] => .error .invalidEscape
      else if c = 48 then .ok (moreOctal 2 0 t)
      else if c = 120 then
        if t = [] then .error .invalidEscape
        else
          match nextRune t with
          | .error e => .error e
          | .ok (c, t) =>
            if c = 123 then bracedHex (t.length + 1) t 0 0
            else
              match nextRune t with
              | .error e => .error e
              | .ok (d, t) =>
                match unhex c, unhex d with
                | some x, some y => .ok (x * 16 + y, t)
                | _, _ => .error .invalidEscape
      else if c = 97 then .ok (7, t)
      else if c = 102 then .ok (12, t)
      else if c = 110 then .ok (10, t)
      else if c = 114 then .ok (13, t)
      else if c = 116 then .ok (9, t)
      else if c = 118 then .ok (11, t)
      else if c < 128 ∧ ¬ ((48 ≤ c ∧ c ≤ 57) ∨ (65 ≤ c ∧ c ≤ 90) ∨ (97 ≤ c ∧ c ≤ 122)) then .ok (c, t)
      else .error .invalidEscape

/-- `parseClassChar`. (part of `syntax.Parse`, called at codesearch/regexp/regexp.go:34) -/
def parseClassChar (s : Bytes) : Except PErr (Rune × Bytes) :=
  match s with
  | [] => .error .missingBracket
  | 92 :: t => parseEscape t
  | s => nextRune s

/-- The text up to the first `c`, and what follows that. (part of `syntax.Parse`, called at codesearch/regexp/regexp.go:34) -/
def cutAt (c : UInt8) : Bytes → Option (Bytes × Bytes)
  | [] => none
  | b :: t => if b = c then some ([], t) else (cutAt c t).map fun x => (b :: x.1, x.2)

/-- The text up to the first `:]`, and what follows that. (part of `syntax.Parse`, called at codesearch/regexp/regexp.go:34) -/
def cutColon : Bytes → Option (Bytes × Bytes)
  | 58 :: 93 :: t => some ([], t)
  | b :: t => (cutColon t).map fun x => (b :: x.1, x.2)
  | [] => none

/-- `checkUTF8`. (part of `syntax.Parse`, called at codesearch/regexp/regexp.go:34) -/
def checkUTF8 : Nat → Bytes → Bool
  | _, [] => true
  | 0, _ :: _ => false
  | n + 1, s => match nextRune s with
    | .ok (_, t) => checkUTF8 n t
    | .error _ => false

/-- In `parseUnicodeClass` and `parseClass`: is there a caret, and what follows it.
(part of `syntax.Parse`, called at codesearch/regexp/regexp.go:34) -/
def cutCaret : Bytes → Bool × Bytes
  | 94 :: t => (true, t)
  | t => (false, t)

/-- In `parseUnicodeClass`: the class of a table, with what folding adds.
(part of `syntax.Parse`, called at codesearch/regexp/regexp.go:34) -/
def uniClass (fold : Bool) (tab : Ranges) (foldTab : Option Ranges) : Ranges :=
  match fold, foldTab with
  | true, some f => cleanClass (appendClass (appendClass [] tab) f)
  | _, _ => tab

/-- The class of a name, as `parseUnicodeClass` appends it. (part of `syntax.Parse`, called at codesearch/regexp/regexp.go:34) -/
def appendUni (fold : Bool) (r : Ranges) (neg : Bool) (name : Bytes) : Option Ranges :=
  (T.uni (cutCaret name).2).map fun x =>
    if neg != (cutCaret name).1 then appendNegatedClass r (uniClass fold x.1 x.2) else appendClass r (uniClass fold x.1 x.2)

/-- `parseUnicodeClass`; `none` if the text is not such a class.
(part of `syntax.Parse`, called at codesearch/regexp/regexp.go:34) -/
def parseUnicodeClass (fold : Bool) (r : Ranges) (s : Bytes) : Option (Except PErr (Ranges × Bytes)) :=
  match s with
  | 92 :: p :: t =>
    if p = 112 ∨ p = 80 then
      match nextRune t with
      | .error e => some (.error e)
      | .ok (c, t') =>
        let got := if c = 123 then cutAt 125 t' else some (t.take (t.length - t'.length), t')
        match got with
        | none => some (.error .invalidCharRange)
        | some (name, rest) =>
          if checkUTF8 name.length name then
            match appendUni T fold r (p = 80) name with
            | none => some (.error .invalidCharRange)
            | some r => some (.ok (r, rest))
          else some (.error .invalidUTF8)
    else none
  | _ => none

/-- `parsePerlClassEscape`. (part of `syntax.Parse`, called at codesearch/regexp/regexp.go:34) -/
def parsePerlClass (fold : Bool) (r : Ranges) (s : Bytes) : Option (Ranges × Bytes) :=
  match s with
  | 92 :: c :: t => (perlGroup c).map fun g => (appendGroup T.orbit fold r g, t)
  | _ => none

/-- `parseNamedClass`; `none` if the text is not such a class.
(part of `syntax.Parse`, called at codesearch/regexp/regexp.go:34) -/
def parseNamedClass (fold : Bool) (r : Ranges) (s : Bytes) : Option (Except PErr (Ranges × Bytes)) :=
  match s with
  | 91 :: 58 :: t =>
    match cutColon t with
    | none => none
    | some (name, rest) =>
      match posixGroup name with
      | none => some (.error .invalidCharRange)
      | some g => some (.ok (appendGroup T.orbit fold r g, rest))
  | _ => none

/-- In `parseClass`: a character or a range. (part of `syntax.Parse`, called at codesearch/regexp/regexp.go:34) -/
def parseRange (fold : Bool) (r : Ranges) (s : Bytes) : Except PErr (Ranges × Bytes) :=
  let add := fun lo hi => if fold then appendFoldedRange T.orbit r lo hi else appendRange r lo hi
  match parseClassChar s with
  | .error e => .error e
  | .ok (lo, 45 :: c :: t) =>
    if c = 93 then .ok (add lo lo, 45 :: c :: t)
    else
      match parseClassChar (c :: t) with
      | .error e => .error e
      | .ok (hi, t) => if hi < lo then .error .invalidCharRange else .ok (add lo hi, t)
  | .ok (lo, t) => .ok (add lo lo, t)

/-- In `parseClass`: what is next in a class. (part of `syntax.Parse`, called at codesearch/regexp/regexp.go:34) -/
def parseClassItem (fold : Bool) (r : Ranges) (s : Bytes) : Except PErr (Ranges × Bytes) :=
  match parseNamedClass T fold r s with
  | some x => x
  | none =>
    match parseUnicodeClass T fold r s with
    | some x => x
    | none =>
      match parsePerlClass T fold r s with
      | some x => .ok x
      | none => parseRange T fold r s

/-- The loop of `parseClass`; each round advances. (part of `syntax.Parse`, called at codesearch/regexp/regexp.go:34) -/
def parseClassLoop (fold : Bool) : Nat → Bool → Ranges → Bytes → Except PErr (Ranges × Bytes)
  | 0, _, _, _ => .error .internal
  | fuel + 1, first, r, s =>
    if s.head? = some 93 ∧ first = false then .ok (r, s.tail)
    else
      match parseClassItem T fold r s with
      | .error e => .error e
      | .ok (r, s) => parseClassLoop fold fuel false r s

/-- `parseClass`, behind the bracket. (`ClassNL` is set: a negated class matches newlines.)
(part of `syntax.Parse`, called at codesearch/regexp/regexp.go:34) -/
def parseClass (fold : Bool) (s : Bytes) : Except PErr (Syn × Bytes) :=
  match parseClassLoop T fold ((cutCaret s).2.length + 1) true [] (cutCaret s).2 with
  | .error e => .error e
  | .ok (r, t) => .ok (.charClass (if (cutCaret s).1 then negateClass (cleanClass r) else cleanClass r), t)

/-! ## Repetitions -/

mutual
/-- `repeatIsValid`: nested repetitions make at most `n` copies.
(part of `syntax.Parse`, called at codesearch/regexp/regexp.go:34) -/
def repeatIsValid : Nat → Syn → Bool
  | n, .rep _ s lo hi =>
    if hi = some 0 then true
    else
      let m := hi.getD lo
      if m > n then false else repeatIsValid (if m > 0 then n / m else n) s
  | n, .capture _ _ s => repeatIsValid n s
  | n, .star _ s => repeatIsValid n s
  | n, .plus _ s => repeatIsValid n s
  | n, .quest _ s => repeatIsValid n s
  | n, .concat ss => repeatsValid n ss
  | n, .alternate ss => repeatsValid n ss
  | _, _ => true
/-- The same for a list. (part of `syntax.Parse`, called at codesearch/regexp/regexp.go:34) -/
def repeatsValid : Nat → List Syn → Bool
  | _, [] => true
  | n, s :: ss => repeatIsValid n s && repeatsValid n ss
end

/-- In `repeat`: a `?` behind the operator. (part of `syntax.Parse`, called at codesearch/regexp/regexp.go:34) -/
def cutLazy : Bytes → Bool × Bytes
  | 63 :: t => (true, t)
  | t => (false, t)

/-- `(*parser).repeat`, given the new node (from its `NonGreedy` flag and what is repeated), the text behind the operator, and
whether an operator came just before. (part of `syntax.Parse`, called at codesearch/regexp/regexp.go:34) -/
def repeatTop (flags : PFlags) (node : Bool → Syn → Syn) (counted : Bool) (after : Bytes) (last : Bool) (st : Stack) :
    Except PErr (Bytes × Stack) :=
  if last then .error .invalidRepeatOp
  else
    match st with
    | .re s :: st =>
      let s := node (flags.nonGreedy != (cutLazy after).1) s
      if counted && !repeatIsValid 1000 s then .error .invalidRepeatSize else .ok ((cutLazy after).2, .re s :: st)
    | _ => .error .missingRepeatArgument

/-- Is it a digit? (part of `syntax.Parse`, called at codesearch/regexp/regexp.go:34) -/
def isDec (c : UInt8) : Bool := 48 ≤ c && c ≤ 57

/-- `parseInt`: `none` if there is no number; `some none` if it is too big. (`n` ≥ 1e8 is too big if digits follow.)
(part of `syntax.Parse`, called at codesearch/regexp/regexp.go:34) -/
def parseInt (s : Bytes) : Option (Option Nat × Bytes) :=
  match s with
  | [] => none
  | c :: t =>
    if !isDec c then none
    else if c = 48 ∧ (t.head?.map isDec).getD false then none
    else
      let digits := s.takeWhile isDec
      let value := digits.foldl (fun n c => n.bind fun n => if n ≥ 100000000 then none else some (n * 10 + (c.toNat - 48))) (some 0)
      some (value, s.dropWhile isDec)

/-- `parseRepeat`, behind the brace: least and greatest number (`none`: unbounded); `some none`: a number is too big.
(part of `syntax.Parse`, called at codesearch/regexp/regexp.go:34) -/
def parseRepeat (s : Bytes) : Option (Option (Nat × Option Nat) × Bytes) :=
  match parseInt s with
  | none => none
  | some (lo, 125 :: t) => some (lo.map fun lo => (lo, some lo), t)
  | some (lo, 44 :: 125 :: t) => some (lo.map fun lo => (lo, none), t)
  | some (lo, 44 :: t) =>
    match parseInt t with
    | some (hi, 125 :: t) => some (lo.bind fun lo => hi.map fun hi => (lo, some hi), t)
    | _ => none
  | some _ => none

/-! ## The loop -/

/-- The state of the parser. (part of `syntax.Parse`, called at codesearch/regexp/regexp.go:34) -/
structure PState where
  flags : PFlags
  stack : Stack := []
  numCap : Nat := 0
  last : Bool := false

/-- In `parsePerlFlags`: the flags of `(?flags)` and `(?flags:`; the new flags, whether a group begins, and the rest.
(part of `syntax.Parse`, called at codesearch/regexp/regexp.go:34) -/
def perlFlagsLoop : Nat → Bytes → PFlags → Bool → Bool → Except PErr (PFlags × Bool × Bytes)
  | 0, _, _, _, _ => .error .invalidPerlOp
  | fuel + 1, t, flags, neg, saw =>
    if t = [] then .error .invalidPerlOp
    else
      match nextRune t with
      | .error e => .error e
      | .ok (c, t) =>
        if c = 105 then perlFlagsLoop fuel t { flags with fold := true } neg true
        else if c = 109 then perlFlagsLoop fuel t { flags with oneLine := false } neg true
        else if c = 115 then perlFlagsLoop fuel t { flags with dotNL := true } neg true
        else if c = 85 then perlFlagsLoop fuel t { flags with nonGreedy := true } neg true
        else if c = 45 then
          if neg then .error .invalidPerlOp else perlFlagsLoop fuel t flags.inv true false
        else if c = 58 ∨ c = 41 then
          if neg && !saw then .error .invalidPerlOp
          else .ok (if neg then flags.inv else flags, c == 58, t)
        else .error .invalidPerlOp

/-- `isValidCaptureName`. (part of `syntax.Parse`, called at codesearch/regexp/regexp.go:34) -/
def isValidCaptureName (name : Bytes) : Bool := !name.isEmpty && name.all fun c => c == 95 || isAlnum c

/-- `parsePerlFlags`, behind `(?`. (`(?<name>`, which newer versions allow, is left out.)
(part of `syntax.Parse`, called at codesearch/regexp/regexp.go:34) -/
def parsePerlFlags (st : PState) (t : Bytes) : Except PErr (PState × Bytes) :=
  match t with
  | 80 :: 60 :: t' =>
    if t' = [] then .error .invalidPerlOp
    else
      match cutAt 62 t' with
      | none => .error .invalidNamedCapture
      | some (name, rest) =>
        if isValidCaptureName name then
          .ok ({ st with stack := .paren st.flags (some (st.numCap + 1, name)) :: maybeConcat st.stack, numCap := st.numCap + 1 }, rest)
        else .error .invalidNamedCapture
  | t =>
    match perlFlagsLoop (t.length + 1) t st.flags false false with
    | .error e => .error e
    | .ok (flags, group, rest) =>
      .ok ({ st with flags := flags, stack := if group then .paren st.flags none :: maybeConcat st.stack else st.stack }, rest)

/-- `\Q…\E`: the text up to `\E`, or all of it, and what follows.
(part of `syntax.Parse`, called at codesearch/regexp/regexp.go:34) -/
def cutQuote : Bytes → Bytes × Bytes
  | 92 :: 69 :: t => ([], t)
  | b :: t => let x := cutQuote t; (b :: x.1, x.2)
  | [] => ([], [])

/-- The characters between `\Q` and `\E`. (part of `syntax.Parse`, called at codesearch/regexp/regexp.go:34) -/
def pushQuote (flags : PFlags) : Nat → Bytes → Stack → Except PErr Stack
  | _, [], st => .ok st
  | 0, _ :: _, _ => .error .internal
  | n + 1, s, st =>
    match nextRune s with
    | .error e => .error e
    | .ok (c, t) => pushQuote flags n t (pushLiteral T flags c st)

/-- An expression is put on the stack. (part of `syntax.Parse`, called at codesearch/regexp/regexp.go:34) -/
def PState.put (st : PState) (s : Syn) : PState := { st with stack := push T s st.stack, last := false }

/-- A character is put on the stack. (part of `syntax.Parse`, called at codesearch/regexp/regexp.go:34) -/
def PState.char (st : PState) (c : Rune) : PState := { st with stack := pushLiteral T st.flags c st.stack, last := false }

/-- In the loop in `parse`, for a backslash: a Unicode class, a Perl class, or an escaped character; `t` is what follows the backslash.
(part of `syntax.Parse`, called at codesearch/regexp/regexp.go:34) -/
def stepClass (st : PState) (t : Bytes) : Except PErr (PState × Bytes) :=
  match parseUnicodeClass T st.flags.fold [] (92 :: t) with
  | some (.error e) => .error e
  | some (.ok (r, t)) => .ok (st.put T (.charClass r), t)
  | none =>
    match parsePerlClass T st.flags.fold [] (92 :: t) with
    | some (r, t) => .ok (st.put T (.charClass r), t)
    | none =>
      match parseEscape t with
      | .error e => .error e
      | .ok (c, t) => .ok (st.char T c, t)

/-- One round of the loop in `parse`, for a backslash; `t` is what follows it.
(part of `syntax.Parse`, called at codesearch/regexp/regexp.go:34) -/
def stepEscape (st : PState) (t : Bytes) : Except PErr (PState × Bytes) :=
  match t with
  | c :: t' =>
    if c = 65 then .ok (st.put T .beginText, t')
    else if c = 98 then .ok (st.put T .wordBoundary, t')
    else if c = 66 then .ok (st.put T .noWordBoundary, t')
    else if c = 67 then .error .invalidEscape
    else if c = 81 then
      match pushQuote T st.flags (cutQuote t').1.length (cutQuote t').1 st.stack with
      | .error e => .error e
      | .ok stack => .ok ({ st with stack := stack, last := false }, (cutQuote t').2)
    else if c = 122 then .ok (st.put T (.endText false), t')
    else stepClass T st t
  | [] => stepClass T st []

/-- In the loop in `parse`: an operator of repetition, given as in `repeatTop`.
(part of `syntax.Parse`, called at codesearch/regexp/regexp.go:34) -/
def stepRepeat (st : PState) (node : Bool → Syn → Syn) (counted : Bool) (after : Bytes) : Except PErr (PState × Bytes) :=
  match repeatTop st.flags node counted after st.last st.stack with
  | .error e => .error e
  | .ok (after, stack) => .ok ({ st with stack := stack, last := true }, after)

/-- In the loop in `parse`: a parenthesis; `t` is what follows it.
(part of `syntax.Parse`, called at codesearch/regexp/regexp.go:34) -/
def stepOpen (st : PState) (t : Bytes) : Except PErr (PState × Bytes) :=
  match t with
  | 63 :: t' =>
    match parsePerlFlags st t' with
    | .error e => .error e
    | .ok (st, t) => .ok ({ st with last := false }, t)
  | t => .ok ({ st with stack := .paren st.flags (some (st.numCap + 1, [])) :: maybeConcat st.stack, numCap := st.numCap + 1, last := false }, t)

/-- In the loop in `parse`: a brace; `t` is what follows it. (part of `syntax.Parse`, called at codesearch/regexp/regexp.go:34) -/
def stepBrace (st : PState) (t : Bytes) : Except PErr (PState × Bytes) :=
  match parseRepeat t with
  | none => .ok (st.char T 123, t)
  | some (none, _) => .error .invalidRepeatSize
  | some (some (lo, hi), after) =>
    if lo > 1000 || (match hi with | some h => h > 1000 || lo > h | none => false) then .error .invalidRepeatSize
    else stepRepeat st (fun ng s => .rep ng s lo hi) (2 ≤ lo || 2 ≤ hi.getD 0) after

/-- One round of the loop in `parse`; `b` is the next byte, `t` what follows it.
(part of `syntax.Parse`, called at codesearch/regexp/regexp.go:34) -/
def step (st : PState) (b : UInt8) (t : Bytes) : Except PErr (PState × Bytes) :=
  if b = 40 then stepOpen st t
  else if b = 124 then .ok ({ st with stack := verticalBar T st.stack, last := false }, t)
  else if b = 41 then
    match rightParen T st.stack with
    | .error e => .error e
    | .ok (flags, stack) => .ok ({ st with flags := flags, stack := stack, last := false }, t)
  else if b = 94 then .ok (st.put T (if st.flags.oneLine then .beginText else .beginLine), t)
  else if b = 36 then .ok (st.put T (if st.flags.oneLine then .endText true else .endLine), t)
  else if b = 46 then .ok (st.put T (if st.flags.dotNL then .anyChar else .anyCharNotNL), t)
  else if b = 91 then
    match parseClass T st.flags.fold t with
    | .error e => .error e
    | .ok (s, t) => .ok (st.put T s, t)
  else if b = 42 then stepRepeat st .star false t
  else if b = 43 then stepRepeat st .plus false t
  else if b = 63 then stepRepeat st .quest false t
  else if b = 123 then stepBrace T st t
  else if b = 92 then stepEscape T st t
  else
    match nextRune (b :: t) with
    | .error e => .error e
    | .ok (c, t) => .ok (st.char T c, t)

/-- The loop in `parse`. Every round advances, so `fuel` = the length is enough.
(part of `syntax.Parse`, called at codesearch/regexp/regexp.go:34) -/
def parseLoop : Nat → PState → Bytes → Except PErr PState
  | _, st, [] => .ok st
  | 0, _, _ :: _ => .error .internal
  | fuel + 1, st, b :: t =>
    match step T st b t with
    | .error e => .error e
    | .ok (st, t) => parseLoop fuel st t

/-- `syntax.Perl`. (part of `syntax.Parse`, called at codesearch/regexp/regexp.go:34) -/
def perlFlags0 : PFlags := { fold := false, oneLine := true, dotNL := false, nonGreedy := false }

/-- codesearch/regexp/regexp.go:34, `syntax.Parse(expr, syntax.Perl)`. -/
def parse (expr : Bytes) : Except PErr Syn :=
  match parseLoop T expr.length { flags := perlFlags0 } expr with
  | .error e => .error e
  | .ok st =>
    match closeGroup T st.stack with
    | [.re s] => .ok s
    | _ => .error .missingParen

end

end Hound.GoRe
