import Verif.Model.Syntax
import Verif.Model.Query

/-!
# `codesearch/index/regexp.go`: from a regular expression to a trigram query

Value model: string sets are immutable lists.  Go's `nil` versus empty distinction for `exact`
(codesearch/index/regexp.go:728-736) is `Option`.  `prefix`/`suffix` are only tested through
`size`/`minLen`, for which nil and empty agree.
-/

namespace Hound

/-- codesearch/index/regexp.go:341-357 `regexpInfo`. -/
structure RegexpInfo where
  canEmpty : Bool
  exact : Option (List Bytes)
  pre : List Bytes
  suf : List Bytes
  mat : Query

namespace RegexpInfo

/-- codesearch/index/regexp.go:359-378. -/
def maxExact : Nat := 7
/-- `maxSet` (codesearch/index/regexp.go:359-378). -/
def maxSet : Nat := 20

/-- codesearch/index/regexp.go:382-389 `anyMatch`. -/
def anyMatch : RegexpInfo := ⟨true, none, [[]], [[]], Query.allQ⟩
/-- codesearch/index/regexp.go:393-399 `anyChar`. -/
def anyChar : RegexpInfo := ⟨false, none, [[]], [[]], Query.allQ⟩
/-- codesearch/index/regexp.go:403-407 `noMatch`. -/
def noMatch : RegexpInfo := ⟨false, none, [], [], Query.noneQ⟩
/-- codesearch/index/regexp.go:411-417 `emptyString`. -/
def emptyString : RegexpInfo := ⟨true, some [[]], [], [], Query.allQ⟩

/-- codesearch/index/regexp.go:626-630 `addExact`. -/
def addExact (info : RegexpInfo) : RegexpInfo :=
  match info.exact with
  | some e => { info with mat := info.mat.andTrigrams e }
  | none => info

/-- `str[:n-1]` / `str[len(str)-n+1:]` when `len(str) >= n`
(codesearch/index/regexp.go:677-683). -/
def cut (isSuffix : Bool) (n : Nat) (str : Bytes) : Bytes :=
  if str.length ≥ n then
    if isSuffix then str.drop (str.length - (n - 1)) else str.take (n - 1)
  else str

/-- codesearch/index/regexp.go:673-691, the shortening loop; the counter runs 3, 2, 1. -/
def shortenLoop (isSuffix : Bool) : Nat → List Bytes → List Bytes
  | 0, t => t
  | n + 1, t =>
    if n + 1 = 3 ∨ t.length > maxSet then
      shortenLoop isSuffix n (cleanSet isSuffix (compactEq none (t.map (cut isSuffix (n + 1)))))
    else t

/-- `strings.HasPrefix(str, last)` / `strings.HasSuffix(str, last)`. (called at codesearch/index/regexp.go:697-708) -/
def hasAffix (isSuffix : Bool) (str last : Bytes) : Bool :=
  if isSuffix then last.isSuffixOf str else last.isPrefixOf str

/-- codesearch/index/regexp.go:697-708: drop strings that extend the previously kept one. -/
def dropRedundant (isSuffix : Bool) : Option Bytes → List Bytes → List Bytes
  | _, [] => []
  | last, str :: t =>
    match last with
    | some l =>
      if hasAffix isSuffix str l then dropRedundant isSuffix (some l) t
      else str :: dropRedundant isSuffix (some str) t
    | none => str :: dropRedundant isSuffix (some str) t

/-- codesearch/index/regexp.go:666-711 `simplifySet`: the new query and the new set. -/
def simplifySet (isSuffix : Bool) (q : Query) (s : List Bytes) : Query × List Bytes :=
  let t := cleanSet isSuffix s
  (q.andTrigrams t, dropRedundant isSuffix none (shortenLoop isSuffix 3 t))

/-- codesearch/index/regexp.go:655-658: both sets, prefix first. -/
def simplifySets (info : RegexpInfo) : RegexpInfo :=
  let (q1, p) := simplifySet false info.mat info.pre
  let (q2, u) := simplifySet true q1 info.suf
  { info with pre := p, suf := u, mat := q2 }

/-- `s[:2]` when `len(s) >= 3` (codesearch/index/regexp.go:643-649). -/
def head2 (s : Bytes) : Bytes := if s.length < 3 then s else s.take 2
/-- `s[n-2:]` when `n >= 3` (codesearch/index/regexp.go:643-650). -/
def tail2 (s : Bytes) : Bytes := if s.length < 3 then s else s.drop (s.length - 2)

/-- codesearch/index/regexp.go:640, the test that the exact set must be given up. -/
def tooBig (e : List Bytes) (force : Bool) : Bool :=
  decide (e.length > maxExact) || (decide (minLen e ≥ 3) && force) || decide (minLen e ≥ 4)

/-- codesearch/index/regexp.go:633-659 `simplify`. -/
def simplify (info : RegexpInfo) (force : Bool) : RegexpInfo :=
  match info.exact with
  | some e0 =>
    let e := cleanSet false e0
    if tooBig e force then
      let info := addExact { info with exact := some e }
      simplifySets { info with
        exact := none, pre := info.pre ++ e.map head2, suf := info.suf ++ e.map tail2 }
    else { info with exact := some e }
  | none => simplifySets info

/-- codesearch/index/regexp.go:558-597 `concat`. -/
def concat (x y : RegexpInfo) : RegexpInfo :=
  let m := x.mat.and y.mat
  let xy : RegexpInfo :=
    match x.exact, y.exact with
    | some a, some b => ⟨false, some (crossSet a b false), [], [], m⟩
    | some a, none =>
      ⟨false, none, crossSet a y.pre false,
        if y.canEmpty then unionSet y.suf x.suf true else y.suf, m⟩
    | none, some b =>
      ⟨false, none, if x.canEmpty then unionSet x.pre y.pre false else x.pre,
        crossSet x.suf b true, m⟩
    | none, none =>
      ⟨false, none, if x.canEmpty then unionSet x.pre y.pre false else x.pre,
        if y.canEmpty then unionSet y.suf x.suf true else y.suf,
        if x.suf.length ≤ maxSet ∧ y.pre.length ≤ maxSet ∧ minLen x.suf + minLen y.pre ≥ 3 then
          m.andTrigrams (crossSet x.suf y.pre false)
        else m⟩
  xy.simplify false

/-- codesearch/index/regexp.go:600-623 `alternate`. -/
def alternate (x y : RegexpInfo) : RegexpInfo :=
  let ce := x.canEmpty || y.canEmpty
  let xy : RegexpInfo :=
    match x.exact, y.exact with
    | some a, some b => ⟨ce, some (unionSet a b false), [], [], x.mat.or y.mat⟩
    | some a, none =>
      ⟨ce, none, unionSet a y.pre false, unionSet a y.suf true, (addExact x).mat.or y.mat⟩
    | none, some b =>
      ⟨ce, none, unionSet x.pre b false, unionSet x.suf b true, x.mat.or (addExact y).mat⟩
    | none, none =>
      ⟨ce, none, unionSet x.pre y.pre false, unionSet x.suf y.suf true, x.mat.or y.mat⟩
  xy.simplify false

/-- codesearch/index/regexp.go:520-523: `n += int(hi - lo)` over the ranges. -/
def classSize (ranges : List (Rune × Rune)) : Int :=
  ranges.foldl (fun n p => n + ((p.2 : Int) - (p.1 : Int))) 0

/-- codesearch/index/regexp.go:530-535: every string of the class, `for rr := lo; rr <= hi`. -/
def classStrings (ranges : List (Rune × Rune)) : List Bytes :=
  ranges.flatMap fun p => (List.range' p.1 (p.2 + 1 - p.1)).map encodeRune

/-- codesearch/index/regexp.go:506-539, `analyze` on a character class. (The branch
`len(re.Rune) == 1` at 515 cannot be taken: bounds come in pairs.) -/
def analyzeClass (ranges : List (Rune × Rune)) : RegexpInfo :=
  if ranges = [] then noMatch
  else if classSize ranges > 100 then anyChar
  else simplify ⟨false, some (classStrings ranges), [], [], Query.allQ⟩ false

/-- codesearch/index/regexp.go:439-452: one case-folded rune. `orbit r` lists the runes
`unicode.SimpleFold` cycles through from `r`, without `r` itself. -/
def analyzeFold1 (orbit : Rune → List Rune) (r : Rune) : RegexpInfo :=
  analyzeClass ((r, r) :: (orbit r).map fun r1 => (r1, r1))

/-- codesearch/index/regexp.go:434-468, 538: `analyze` on a literal. -/
def analyzeLiteral (orbit : Rune → List Rune) (runes : List Rune) (foldCase : Bool) : RegexpInfo :=
  if foldCase then
    match runes with
    | [] => emptyString
    | [r] => analyzeFold1 orbit r
    | rs => rs.foldl (fun info r => concat info (analyzeFold1 orbit r)) emptyString
  else simplify ⟨false, some [encodeRunes runes], [], [], Query.allQ⟩ false

/-- codesearch/index/regexp.go:495-504, 538: `x+` and `x{n,m}` with `n > 0`. -/
def analyzePlus (info : RegexpInfo) : RegexpInfo :=
  match info.exact with
  | some e => simplify { info with exact := none, pre := e, suf := e } false
  | none => simplify info false

/-- codesearch/index/regexp.go:543-555 `fold`, on the analysed sub-expressions. -/
def foldInfos (f : RegexpInfo → RegexpInfo → RegexpInfo) (zero : RegexpInfo) :
    List RegexpInfo → RegexpInfo
  | [] => zero
  | i :: is => is.foldl f i

mutual
/-- codesearch/index/regexp.go:420-540 `analyze`. -/
def analyze (orbit : Rune → List Rune) : Re → RegexpInfo
  | .noMatch => noMatch
  | .emptyMatch => emptyString
  | .beginLine => emptyString
  | .endLine => emptyString
  | .beginText => emptyString
  | .endText => emptyString
  | .wordBoundary => emptyString
  | .noWordBoundary => emptyString
  | .literal rs f => analyzeLiteral orbit rs f
  | .anyCharNotNL => anyChar
  | .anyChar => anyChar
  | .capture r => analyze orbit r
  | .concat rs => foldInfos concat emptyString (analyzeList orbit rs)
  | .alternate rs => foldInfos alternate noMatch (analyzeList orbit rs)
  | .quest r => alternate (analyze orbit r) emptyString
  | .star _ => anyMatch
  | .rep r lo _ => if lo = 0 then anyMatch else analyzePlus (analyze orbit r)
  | .plus r => analyzePlus (analyze orbit r)
  | .charClass ranges => analyzeClass ranges
/-- `analyze` on each sub-expression (codesearch/index/regexp.go:548-552). -/
def analyzeList (orbit : Rune → List Rune) : List Re → List RegexpInfo
  | [] => []
  | r :: rs => analyze orbit r :: analyzeList orbit rs
end

/-- codesearch/index/regexp.go:333-338 `RegexpQuery`. -/
def regexpQuery (orbit : Rune → List Rune) (re : Re) : Query :=
  (addExact (simplify (analyze orbit re) true)).mat

end RegexpInfo
end Hound
