import Verif.Model.RegexpQuery

/-!
# `codesearch/index/regexp.go` with Go's slices

The same analysis as `Verif.Model.RegexpQuery`, but string sets are Go slices: views of arrays that
several slices may share.  `append` writes in place when the capacity suffices, and sorting and
compaction always happen in place.  This is where `alternate` (lines 606-609) goes wrong: it appends to
`x.exact` twice.  All slices in this code start at the beginning of their array, so a slice is an array
and a length.  Trigram lists inside queries are kept as values: each is referenced once.
-/

namespace Hound

/-- The arrays; the length of each is its capacity. Cells that were never written hold `""`.
(for `stringSet`, codesearch/index/regexp.go:728-847) -/
structure Heap where
  arrs : List (List Bytes)

/-- A slice: no array (capacity 0), or the first `len` cells of an array. (for `stringSet`, codesearch/index/regexp.go:728-847) -/
structure Slice where
  arr : Option Nat
  len : Nat

namespace Slice
/-- The nil slice (for codesearch/index/regexp.go:728-736). -/
def nil : Slice := ⟨none, 0⟩
end Slice

namespace Heap

/-- The array of a slice (for codesearch/index/regexp.go:728-736). -/
def cells (h : Heap) (s : Slice) : List Bytes :=
  match s.arr with
  | none => []
  | some a => h.arrs.getD a []

/-- `cap(s)`. (for `stringSet`, codesearch/index/regexp.go:728-847) -/
def cap (h : Heap) (s : Slice) : Nat := (h.cells s).length

/-- The strings of the slice. (for `stringSet`, codesearch/index/regexp.go:728-847) -/
def read (h : Heap) (s : Slice) : List Bytes := (h.cells s).take s.len

/-- Overwrite the first cells of the slice's array by `xs`, and make that the slice.
(for `stringSet`, codesearch/index/regexp.go:728-847) -/
def put (h : Heap) (s : Slice) (xs : List Bytes) : Heap × Slice :=
  match s.arr with
  | none => (h, s)
  | some a => (⟨h.arrs.set a (xs ++ (h.arrs.getD a []).drop xs.length)⟩, ⟨some a, xs.length⟩)

/-- A new array. (for `stringSet`, codesearch/index/regexp.go:728-847) -/
def alloc (h : Heap) (xs : List Bytes) (c : Nat) : Heap × Slice :=
  (⟨h.arrs ++ [xs ++ List.replicate (c - xs.length) []]⟩, ⟨some h.arrs.length, xs.length⟩)

/-- Go's `append(s, xs...)`; `grow oldcap needed` is the runtime's growth policy.
(for `stringSet`, codesearch/index/regexp.go:728-847) -/
def append (grow : Nat → Nat → Nat) (h : Heap) (s : Slice) (xs : List Bytes) : Heap × Slice :=
  if s.len + xs.length ≤ h.cap s then h.put s (h.read s ++ xs)
  else h.alloc (h.read s ++ xs) (grow (h.cap s) (s.len + xs.length))

/-- Would `append` write in place? (for `stringSet`, codesearch/index/regexp.go:728-847) -/
def inPlace (h : Heap) (s : Slice) (xs : List Bytes) : Bool := s.len + xs.length ≤ h.cap s

/-- `for _, x := range xs { s.add(x) }` (codesearch/index/regexp.go:775-777). -/
def addAll (grow : Nat → Nat → Nat) : Heap → Slice → List Bytes → Heap × Slice
  | h, s, [] => (h, s)
  | h, s, x :: xs =>
    let (h1, s1) := h.append grow s [x]
    addAll grow h1 s1 xs

/-- codesearch/index/regexp.go:780-795 `clean`: sort in place, then compact in place. -/
def clean (isSuffix : Bool) (h : Heap) (s : Slice) : Heap × Slice :=
  let sorted := sortStrings (if isSuffix then bySuffixLess else byPrefixLess) (h.read s)
  let (h1, s1) := h.put s sorted
  h1.put s1 (compactEq none sorted)

/-- codesearch/index/regexp.go:831-835 `union`. -/
def union (grow : Nat → Nat → Nat) (h : Heap) (s t : Slice) (isSuffix : Bool) : Heap × Slice :=
  let (h1, s1) := h.append grow s (h.read t)
  h1.clean isSuffix s1

/-- codesearch/index/regexp.go:838-847 `cross`. -/
def cross (grow : Nat → Nat → Nat) (h : Heap) (s t : Slice) (isSuffix : Bool) : Heap × Slice :=
  let (h1, p) := h.addAll grow Slice.nil
    ((h.read s).flatMap fun ss => (h.read t).map fun tt => ss ++ tt)
  h1.clean isSuffix p

end Heap

/-- codesearch/index/regexp.go:341-357 `regexpInfo`, with slices. -/
structure HInfo where
  canEmpty : Bool
  exact : Option Slice
  pre : Slice
  suf : Slice
  mat : Query

/-- The heap, and a ghost flag: has `alternate` appended in place to `x.exact`? (for codesearch/index/regexp.go:600-623) -/
structure HSt where
  heap : Heap
  hazard : Bool

namespace HInfo
open RegexpInfo

variable (grow : Nat → Nat → Nat)

/-- codesearch/index/regexp.go:382-389. -/
def anyMatch (st : HSt) : HSt × HInfo :=
  let (h1, p) := st.heap.alloc [[]] 1
  let (h2, u) := h1.alloc [[]] 1
  (⟨h2, st.hazard⟩, ⟨true, none, p, u, Query.allQ⟩)
/-- codesearch/index/regexp.go:393-399. -/
def anyChar (st : HSt) : HSt × HInfo :=
  let (h1, p) := st.heap.alloc [[]] 1
  let (h2, u) := h1.alloc [[]] 1
  (⟨h2, st.hazard⟩, ⟨false, none, p, u, Query.allQ⟩)
/-- codesearch/index/regexp.go:403-407. -/
def noMatch : HInfo := ⟨false, none, Slice.nil, Slice.nil, Query.noneQ⟩
/-- codesearch/index/regexp.go:411-417. -/
def emptyString (st : HSt) : HSt × HInfo :=
  let (h1, e) := st.heap.alloc [[]] 1
  (⟨h1, st.hazard⟩, ⟨true, some e, Slice.nil, Slice.nil, Query.allQ⟩)

/-- codesearch/index/regexp.go:626-630. -/
def addExact (h : Heap) (info : HInfo) : HInfo :=
  match info.exact with
  | some e => { info with mat := info.mat.andTrigrams (h.read e) }
  | none => info

/-- codesearch/index/regexp.go:673-691. -/
def shortenLoop (isSuffix : Bool) : Nat → Heap → Slice → Heap × Slice
  | 0, h, t => (h, t)
  | n + 1, h, t =>
    if n + 1 = 3 ∨ t.len > maxSet then
      let (h1, t1) := h.put t (compactEq none ((h.read t).map (cut isSuffix (n + 1))))
      let (h2, t2) := h1.clean isSuffix t1
      shortenLoop isSuffix n h2 t2
    else (h, t)

/-- codesearch/index/regexp.go:666-711. -/
def simplifySet (isSuffix : Bool) (h : Heap) (q : Query) (s : Slice) : Heap × Query × Slice :=
  let (h1, t1) := h.clean isSuffix s
  let q1 := q.andTrigrams (h1.read t1)
  let (h2, t2) := shortenLoop isSuffix 3 h1 t1
  let (h3, t3) := h2.put t2 (dropRedundant isSuffix none (h2.read t2))
  (h3, q1, t3)

/-- codesearch/index/regexp.go:655-658. -/
def simplifySets (h : Heap) (info : HInfo) : Heap × HInfo :=
  let (h1, q1, p) := simplifySet false h info.mat info.pre
  let (h2, q2, u) := simplifySet true h1 q1 info.suf
  (h2, { info with pre := p, suf := u, mat := q2 })

/-- codesearch/index/regexp.go:633-659. -/
def simplify (h : Heap) (info : HInfo) (force : Bool) : Heap × HInfo :=
  match info.exact with
  | some e0 =>
    let (h1, e) := h.clean false e0
    let ev := h1.read e
    if tooBig ev force then
      let info := addExact h1 { info with exact := some e }
      let (h2, p) := h1.addAll grow info.pre (ev.map head2)
      let (h3, u) := h2.addAll grow info.suf (ev.map tail2)
      simplifySets h3 { info with exact := none, pre := p, suf := u }
    else (h1, { info with exact := some e })
  | none => simplifySets h info

/-- codesearch/index/regexp.go:563-572: the prefix of `xy` when `x` is not exact. -/
def concatPre (h : Heap) (x y : HInfo) : Heap × Slice :=
  if x.canEmpty then h.union grow x.pre y.pre false else (h, x.pre)

/-- codesearch/index/regexp.go:577-580: the suffix of `xy` when `y` is not exact. -/
def concatSuf (h : Heap) (x y : HInfo) : Heap × Slice :=
  if y.canEmpty then h.union grow y.suf x.suf true else (h, y.suf)

/-- codesearch/index/regexp.go:558-597. -/
def concat (x y : HInfo) (st : HSt) : HSt × HInfo :=
  let m := x.mat.and y.mat
  let h := st.heap
  let (h', xy) : Heap × HInfo :=
    match x.exact, y.exact with
    | some a, some b =>
      let (h1, e) := h.cross grow a b false
      (h1, ⟨false, some e, Slice.nil, Slice.nil, m⟩)
    | some a, none =>
      let (h1, p) := h.cross grow a y.pre false
      let (h2, u) := concatSuf grow h1 x y
      (h2, ⟨false, none, p, u, m⟩)
    | none, some b =>
      let (h1, p) := concatPre grow h x y
      let (h2, u) := h1.cross grow x.suf b true
      (h2, ⟨false, none, p, u, m⟩)
    | none, none =>
      let (h1, p) := concatPre grow h x y
      let (h2, u) := concatSuf grow h1 x y
      if (h2.read x.suf).length ≤ maxSet ∧ (h2.read y.pre).length ≤ maxSet ∧
          minLen (h2.read x.suf) + minLen (h2.read y.pre) ≥ 3 then
        let (h3, c) := h2.cross grow x.suf y.pre false
        (h3, ⟨false, none, p, u, m.andTrigrams (h3.read c)⟩)
      else (h2, ⟨false, none, p, u, m⟩)
  let (h2, z) := simplify grow h' xy false
  (⟨h2, st.hazard⟩, z)

/-- codesearch/index/regexp.go:600-623. -/
def alternate (x y : HInfo) (st : HSt) : HSt × HInfo :=
  let ce := x.canEmpty || y.canEmpty
  let h := st.heap
  let (st', xy) : HSt × HInfo :=
    match x.exact, y.exact with
    | some a, some b =>
      let (h1, e) := h.union grow a b false
      (⟨h1, st.hazard⟩, ⟨ce, some e, Slice.nil, Slice.nil, x.mat.or y.mat⟩)
    | some a, none =>
      let (h1, p) := h.union grow a y.pre false
      let (h2, u) := h1.union grow a y.suf true
      (⟨h2, st.hazard || h.inPlace a (h.read y.pre) || h1.inPlace a (h1.read y.suf)⟩,
        ⟨ce, none, p, u, (addExact h2 x).mat.or y.mat⟩)
    | none, some b =>
      let (h1, p) := h.union grow x.pre b false
      let (h2, u) := h1.union grow x.suf b true
      (⟨h2, st.hazard⟩, ⟨ce, none, p, u, x.mat.or (addExact h2 y).mat⟩)
    | none, none =>
      let (h1, p) := h.union grow x.pre y.pre false
      let (h2, u) := h1.union grow x.suf y.suf true
      (⟨h2, st.hazard⟩, ⟨ce, none, p, u, x.mat.or y.mat⟩)
  let (h2, z) := simplify grow st'.heap xy false
  (⟨h2, st'.hazard⟩, z)

/-- codesearch/index/regexp.go:506-539. -/
def analyzeClass (ranges : List (Rune × Rune)) (st : HSt) : HSt × HInfo :=
  if ranges = [] then (st, noMatch)
  else if classSize ranges > 100 then anyChar st
  else
    let (h1, e) := st.heap.addAll grow Slice.nil (classStrings ranges)
    let (h2, z) := simplify grow h1 ⟨false, some e, Slice.nil, Slice.nil, Query.allQ⟩ false
    (⟨h2, st.hazard⟩, z)

/-- codesearch/index/regexp.go:439-452. -/
def analyzeFold1 (orbit : Rune → List Rune) (r : Rune) (st : HSt) : HSt × HInfo :=
  analyzeClass grow ((r, r) :: (orbit r).map fun r1 => (r1, r1)) st

/-- codesearch/index/regexp.go:461-464. -/
def analyzeFolds (orbit : Rune → List Rune) : List Rune → HInfo → HSt → HSt × HInfo
  | [], info, st => (st, info)
  | r :: rs, info, st =>
    let (st1, y) := analyzeFold1 grow orbit r st
    let (st2, z) := concat grow info y st1
    analyzeFolds orbit rs z st2

/-- codesearch/index/regexp.go:434-468, 538. -/
def analyzeLiteral (orbit : Rune → List Rune) (runes : List Rune) (foldCase : Bool) (st : HSt) :
    HSt × HInfo :=
  if foldCase then
    match runes with
    | [] => emptyString st
    | [r] => analyzeFold1 grow orbit r st
    | rs =>
      let (st1, i) := emptyString st
      analyzeFolds grow orbit rs i st1
  else
    let (h1, e) := st.heap.alloc [encodeRunes runes] 1
    let (h2, z) := simplify grow h1 ⟨false, some e, Slice.nil, Slice.nil, Query.allQ⟩ false
    (⟨h2, st.hazard⟩, z)

/-- codesearch/index/regexp.go:495-504, 538. -/
def analyzePlus (info : HInfo) (st : HSt) : HSt × HInfo :=
  match info.exact with
  | some e =>
    let (h1, u) := st.heap.append grow Slice.nil (st.heap.read e)
    let (h2, z) := simplify grow h1 { info with exact := none, pre := e, suf := u } false
    (⟨h2, st.hazard⟩, z)
  | none =>
    let (h2, z) := simplify grow st.heap info false
    (⟨h2, st.hazard⟩, z)

mutual
/-- codesearch/index/regexp.go:420-540 `analyze`. -/
def analyze (orbit : Rune → List Rune) : Re → HSt → HSt × HInfo
  | .noMatch, st => (st, noMatch)
  | .emptyMatch, st => emptyString st
  | .beginLine, st => emptyString st
  | .endLine, st => emptyString st
  | .beginText, st => emptyString st
  | .endText, st => emptyString st
  | .wordBoundary, st => emptyString st
  | .noWordBoundary, st => emptyString st
  | .literal rs f, st => analyzeLiteral grow orbit rs f st
  | .anyCharNotNL, st => anyChar st
  | .anyChar, st => anyChar st
  | .capture r, st => analyze orbit r st
  | .concat [], st => emptyString st
  | .concat (r :: rs), st =>
    let (st1, x) := analyze orbit r st
    foldConcat orbit rs x st1
  | .alternate [], st => (st, noMatch)
  | .alternate (r :: rs), st =>
    let (st1, x) := analyze orbit r st
    foldAlternate orbit rs x st1
  | .quest r, st =>
    let (st1, x) := analyze orbit r st
    let (st2, y) := emptyString st1
    alternate grow x y st2
  | .star _, st => anyMatch st
  | .rep r lo _, st =>
    if lo = 0 then anyMatch st
    else
      let (st1, x) := analyze orbit r st
      analyzePlus grow x st1
  | .plus r, st =>
    let (st1, x) := analyze orbit r st
    analyzePlus grow x st1
  | .charClass ranges, st => analyzeClass grow ranges st
/-- codesearch/index/regexp.go:550-553 `fold(concat, ..)`. -/
def foldConcat (orbit : Rune → List Rune) : List Re → HInfo → HSt → HSt × HInfo
  | [], x, st => (st, x)
  | r :: rs, x, st =>
    let (st1, y) := analyze orbit r st
    let (st2, z) := concat grow x y st1
    foldConcat orbit rs z st2
/-- codesearch/index/regexp.go:550-553 `fold(alternate, ..)`. -/
def foldAlternate (orbit : Rune → List Rune) : List Re → HInfo → HSt → HSt × HInfo
  | [], x, st => (st, x)
  | r :: rs, x, st =>
    let (st1, y) := analyze orbit r st
    let (st2, z) := alternate grow x y st1
    foldAlternate orbit rs z st2
end

/-- codesearch/index/regexp.go:333-338 `RegexpQuery`, and whether the hazard occurred. -/
def regexpQuery (orbit : Rune → List Rune) (re : Re) : Query × Bool :=
  let (st1, info) := analyze grow orbit re ⟨⟨[]⟩, false⟩
  let (h2, info2) := simplify grow st1.heap info true
  ((addExact h2 info2).mat, st1.hazard)

end HInfo

/-- Go's slice growth for 16-byte elements up to 16 of them (runtime `growslice` and size classes):
at least double. (for codesearch/index/regexp.go:775-777, 831-835) -/
def goGrow (old needed : Nat) : Nat := if needed > 2 * old then needed else 2 * old

end Hound
