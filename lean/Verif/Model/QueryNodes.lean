import Verif.Model.HeapQuery

/-!
# `codesearch/index/regexp.go` with Go's pointers to queries

The same analysis once more, as in `Verif.Model.HeapQuery`, but with the queries as they are in memory:
`*Query` is an address, `Sub` is a list of addresses, and `andOr` overwrites the nodes it is given.
Two nodes are there from the start and are shared by everything the process does: `allQuery` and
`noneQuery`.  The lists `Trigram` and `Sub` are part of their node: no slice is ever copied from one node
to another, every assignment to such a field is an `append` to that very field, a part of it, or a new
slice.
-/

namespace Hound
namespace QN

/-- codesearch/index/regexp.go:22-26 `Query`, with `Sub` as addresses. -/
structure Node where
  op : QOp
  tri : List Bytes
  sub : List Nat
deriving DecidableEq

/-- All query nodes of the process; the address of a node is its place. (for codesearch/index/regexp.go:22-38) -/
abbrev Nodes := List Node

/-- codesearch/index/regexp.go:37 `allQuery`. -/
def allQuery : Nat := 0
/-- codesearch/index/regexp.go:38 `noneQuery`. -/
def noneQuery : Nat := 1
/-- The nodes when the process starts (codesearch/index/regexp.go:37-38). -/
def start : Nodes := [⟨.all, [], []⟩, ⟨.none, [], []⟩]

/-- `*q`. (for codesearch/index/regexp.go:52-224) -/
def get (n : Nodes) (a : Nat) : Node := n.getD a ⟨.all, [], []⟩
/-- `&Query{..}`. (for codesearch/index/regexp.go:164, 169, 277) -/
def new (n : Nodes) (x : Node) : Nodes × Nat := (n ++ [x], n.length)

/-- codesearch/index/regexp.go:198-224 `trigramsImply`. The number bounds the depth; `implies` supplies more
than there are nodes. -/
def trigramsImply (n : Nodes) (t : List Bytes) : Nat → Nat → Bool
  | 0, _ => false
  | d + 1, a =>
    match (get n a).op with
    | .or => (get n a).sub.any (trigramsImply n t d) || t.any (fun x => isSubsetOf [x] (get n a).tri)
    | .and => (get n a).sub.all (trigramsImply n t d) && isSubsetOf (get n a).tri t
    | .all => false
    | .none => false

/-- codesearch/index/regexp.go:174-196 `implies`. -/
def implies (n : Nodes) (q r : Nat) : Bool :=
  let x := get n q
  let y := get n r
  if x.op = .none ∨ y.op = .all then true
  else if x.op = .all ∨ y.op = .none then false
  else if x.op = .and ∨ (x.op = .or ∧ x.tri.length = 1 ∧ x.sub.length = 0) then
    trigramsImply n x.tri (n.length + 1) r
  else if x.op = .or ∧ y.op = .or ∧ x.tri.length > 0 ∧ x.sub.length = 0 ∧
      isSubsetOf x.tri y.tri = true then true
  else false

/-- codesearch/index/regexp.go:61-66: `q = q.Sub[0]`. -/
def unwrap (n : Nodes) (q : Nat) : Nat :=
  match get n q with
  | ⟨_, [], [s]⟩ => s
  | _ => q

/-- codesearch/index/regexp.go:52-170 `andOr`, for `op` AND or OR: `q.Trigram = ..`, `q.Sub = ..` and
`q.Op = ..` write to the node, `&Query{..}` makes a new one.  The number bounds the recursion of lines 160
and 165. -/
def andOrF : Nat → Nodes → Nat → Nat → QOp → Nodes × Nat
  | 0, n, q, r, op => new n ⟨op, [], [q, r]⟩
  | fuel + 1, n, q, r, op =>
    let q := unwrap n q
    let r := unwrap n r
    if implies n q r then (n, if op = .and then q else r)
    else if implies n r q then (n, if op = .and then r else q)
    else
      let x := get n q
      let y := get n r
      let qAtom : Bool := x.tri.length == 1 && x.sub.length == 0
      let rAtom : Bool := y.tri.length == 1 && y.sub.length == 0
      if x.op = op ∧ (y.op = op ∨ rAtom) then
        (n.set q ⟨x.op, unionSet x.tri y.tri false, x.sub ++ y.sub⟩, q)
      else if y.op = op ∧ qAtom then
        (n.set r ⟨y.op, unionSet y.tri x.tri false, y.sub⟩, r)
      else if qAtom ∧ rAtom then
        (n.set q ⟨op, x.tri ++ y.tri, x.sub⟩, q)
      else if x.op = op then (n.set q ⟨x.op, x.tri, x.sub ++ [r]⟩, q)
      else if y.op = op then (n.set r ⟨y.op, y.tri, y.sub ++ [q]⟩, r)
      else
        let f := Query.factor (x.tri.length + y.tri.length) x.tri y.tri
        let n1 := n.set q ⟨x.op, f.1, x.sub⟩
        let n2 := n1.set r ⟨y.op, f.2.1, y.sub⟩
        if f.2.2.length > 0 then
          let s := andOrF fuel n2 q r op
          let t := new s.1 ⟨Query.otherOp op, f.2.2, []⟩
          andOrF fuel t.1 t.2 s.2 (Query.otherOp op)
        else new n2 ⟨op, [], [q, r]⟩

/-- The trigrams below a node, which bound the recursion of `andOr`. (for codesearch/index/regexp.go:52-170) -/
def weight (n : Nodes) : Nat → Nat → Nat
  | 0, _ => 0
  | d + 1, a => (get n a).tri.length + ((get n a).sub.map (weight n d)).sum

/-- codesearch/index/regexp.go:52-170 `andOr`. -/
def andOr (n : Nodes) (q r : Nat) (op : QOp) : Nodes × Nat :=
  andOrF (weight n (n.length + 1) q + weight n (n.length + 1) r + 2) n q r op

/-- codesearch/index/regexp.go:269-278, the loop of `andTrigrams`. -/
def orTrigrams : Nodes → Nat → List Bytes → Nodes × Nat
  | n, o, [] => (n, o)
  | n, o, tt :: ts =>
    let x := new n ⟨.and, cleanSet false (Query.windows3 tt), []⟩
    let o' := andOr x.1 o x.2 .or
    orTrigrams o'.1 o'.2 ts

/-- codesearch/index/regexp.go:260-281 `andTrigrams`. -/
def andTrigrams (n : Nodes) (q : Nat) (t : List Bytes) : Nodes × Nat :=
  if minLen t < 3 then (n, q)
  else
    let o := orTrigrams n noneQuery t
    andOr o.1 q o.2 .and

/-- codesearch/index/regexp.go:341-357 `regexpInfo`, with slices and the address of the query. -/
structure Info where
  canEmpty : Bool
  exact : Option Slice
  pre : Slice
  suf : Slice
  mat : Nat

/-- The memory: arrays of strings and query nodes; and whether `alternate` has appended in place to `x.exact`.
(for codesearch/index/regexp.go:600-623) -/
structure Mem where
  heap : Heap
  hazard : Bool
  nodes : Nodes

open RegexpInfo

variable (grow : Nat → Nat → Nat)

/-- codesearch/index/regexp.go:382-389. -/
def anyMatch (m : Mem) : Mem × Info :=
  let (h1, p) := m.heap.alloc [[]] 1
  let (h2, u) := h1.alloc [[]] 1
  ({ m with heap := h2 }, ⟨true, none, p, u, allQuery⟩)
/-- codesearch/index/regexp.go:393-399. -/
def anyChar (m : Mem) : Mem × Info :=
  let (h1, p) := m.heap.alloc [[]] 1
  let (h2, u) := h1.alloc [[]] 1
  ({ m with heap := h2 }, ⟨false, none, p, u, allQuery⟩)
/-- codesearch/index/regexp.go:403-407. -/
def noMatch : Info := ⟨false, none, Slice.nil, Slice.nil, noneQuery⟩
/-- codesearch/index/regexp.go:411-417. -/
def emptyString (m : Mem) : Mem × Info :=
  let (h1, e) := m.heap.alloc [[]] 1
  ({ m with heap := h1 }, ⟨true, some e, Slice.nil, Slice.nil, allQuery⟩)

/-- codesearch/index/regexp.go:626-630. -/
def addExact (h : Heap) (n : Nodes) (info : Info) : Nodes × Info :=
  match info.exact with
  | some e =>
    let (n1, q) := andTrigrams n info.mat (h.read e)
    (n1, { info with mat := q })
  | none => (n, info)

/-- codesearch/index/regexp.go:666-711. -/
def simplifySet (isSuffix : Bool) (h : Heap) (n : Nodes) (q : Nat) (s : Slice) : Heap × Nodes × Nat × Slice :=
  let (h1, t1) := h.clean isSuffix s
  let (n1, q1) := andTrigrams n q (h1.read t1)
  let (h2, t2) := HInfo.shortenLoop isSuffix 3 h1 t1
  let (h3, t3) := h2.put t2 (dropRedundant isSuffix none (h2.read t2))
  (h3, n1, q1, t3)

/-- codesearch/index/regexp.go:655-658. -/
def simplifySets (h : Heap) (n : Nodes) (info : Info) : Heap × Nodes × Info :=
  let (h1, n1, q1, p) := simplifySet false h n info.mat info.pre
  let (h2, n2, q2, u) := simplifySet true h1 n1 q1 info.suf
  (h2, n2, { info with pre := p, suf := u, mat := q2 })

/-- codesearch/index/regexp.go:633-659. -/
def simplify (h : Heap) (n : Nodes) (info : Info) (force : Bool) : Heap × Nodes × Info :=
  match info.exact with
  | some e0 =>
    let (h1, e) := h.clean false e0
    let ev := h1.read e
    if tooBig ev force then
      let (n1, info) := addExact h1 n { info with exact := some e }
      let (h2, p) := h1.addAll grow info.pre (ev.map head2)
      let (h3, u) := h2.addAll grow info.suf (ev.map tail2)
      simplifySets h3 n1 { info with exact := none, pre := p, suf := u }
    else (h1, n, { info with exact := some e })
  | none => simplifySets h n info

/-- codesearch/index/regexp.go:563-572: the prefix of `xy` when `x` is not exact. -/
def concatPre (h : Heap) (x y : Info) : Heap × Slice :=
  if x.canEmpty then h.union grow x.pre y.pre false else (h, x.pre)

/-- codesearch/index/regexp.go:577-580: the suffix of `xy` when `y` is not exact. -/
def concatSuf (h : Heap) (x y : Info) : Heap × Slice :=
  if y.canEmpty then h.union grow y.suf x.suf true else (h, y.suf)

/-- codesearch/index/regexp.go:562-594, what comes between the query `m` of both and `simplify`. -/
def concatSets (x y : Info) (h : Heap) (n : Nodes) (m : Nat) : Heap × Nodes × Info :=
  match x.exact, y.exact with
  | some a, some b =>
    let (h1, e) := h.cross grow a b false
    (h1, n, ⟨false, some e, Slice.nil, Slice.nil, m⟩)
  | some a, none =>
    let (h1, p) := h.cross grow a y.pre false
    let (h2, u) := concatSuf grow h1 x y
    (h2, n, ⟨false, none, p, u, m⟩)
  | none, some b =>
    let (h1, p) := concatPre grow h x y
    let (h2, u) := h1.cross grow x.suf b true
    (h2, n, ⟨false, none, p, u, m⟩)
  | none, none =>
    let (h1, p) := concatPre grow h x y
    let (h2, u) := concatSuf grow h1 x y
    if (h2.read x.suf).length ≤ maxSet ∧ (h2.read y.pre).length ≤ maxSet ∧
        minLen (h2.read x.suf) + minLen (h2.read y.pre) ≥ 3 then
      let (h3, c) := h2.cross grow x.suf y.pre false
      let (n1, m1) := andTrigrams n m (h3.read c)
      (h3, n1, ⟨false, none, p, u, m1⟩)
    else (h2, n, ⟨false, none, p, u, m⟩)

/-- codesearch/index/regexp.go:558-597. -/
def concat (x y : Info) (st : Mem) : Mem × Info :=
  let (n, m) := andOr st.nodes x.mat y.mat .and
  let (h', n', xy) := concatSets grow x y st.heap n m
  let (h2, n2, z) := simplify grow h' n' xy false
  (⟨h2, st.hazard, n2⟩, z)

/-- codesearch/index/regexp.go:600-623. -/
def alternate (x y : Info) (st : Mem) : Mem × Info :=
  let ce := x.canEmpty || y.canEmpty
  let h := st.heap
  let (st', xy) : Mem × Info :=
    match x.exact, y.exact with
    | some a, some b =>
      let (h1, e) := h.union grow a b false
      let (n, m) := andOr st.nodes x.mat y.mat .or
      (⟨h1, st.hazard, n⟩, ⟨ce, some e, Slice.nil, Slice.nil, m⟩)
    | some a, none =>
      let (h1, p) := h.union grow a y.pre false
      let (h2, u) := h1.union grow a y.suf true
      let (n1, x1) := addExact h2 st.nodes x
      let (n, m) := andOr n1 x1.mat y.mat .or
      (⟨h2, st.hazard || h.inPlace a (h.read y.pre) || h1.inPlace a (h1.read y.suf), n⟩,
        ⟨ce, none, p, u, m⟩)
    | none, some b =>
      let (h1, p) := h.union grow x.pre b false
      let (h2, u) := h1.union grow x.suf b true
      let (n1, y1) := addExact h2 st.nodes y
      let (n, m) := andOr n1 x.mat y1.mat .or
      (⟨h2, st.hazard, n⟩, ⟨ce, none, p, u, m⟩)
    | none, none =>
      let (h1, p) := h.union grow x.pre y.pre false
      let (h2, u) := h1.union grow x.suf y.suf true
      let (n, m) := andOr st.nodes x.mat y.mat .or
      (⟨h2, st.hazard, n⟩, ⟨ce, none, p, u, m⟩)
  let (h2, n2, z) := simplify grow st'.heap st'.nodes xy false
  (⟨h2, st'.hazard, n2⟩, z)

/-- codesearch/index/regexp.go:506-539. -/
def analyzeClass (ranges : List (Rune × Rune)) (st : Mem) : Mem × Info :=
  if ranges = [] then (st, noMatch)
  else if classSize ranges > 100 then anyChar st
  else
    let (h1, e) := st.heap.addAll grow Slice.nil (classStrings ranges)
    let (h2, n, z) := simplify grow h1 st.nodes ⟨false, some e, Slice.nil, Slice.nil, allQuery⟩ false
    (⟨h2, st.hazard, n⟩, z)

/-- codesearch/index/regexp.go:439-452. -/
def analyzeFold1 (orbit : Rune → List Rune) (r : Rune) (st : Mem) : Mem × Info :=
  analyzeClass grow ((r, r) :: (orbit r).map fun r1 => (r1, r1)) st

/-- codesearch/index/regexp.go:461-464. -/
def analyzeFolds (orbit : Rune → List Rune) : List Rune → Info → Mem → Mem × Info
  | [], info, st => (st, info)
  | r :: rs, info, st =>
    let (st1, y) := analyzeFold1 grow orbit r st
    let (st2, z) := concat grow info y st1
    analyzeFolds orbit rs z st2

/-- codesearch/index/regexp.go:434-468, 538. -/
def analyzeLiteral (orbit : Rune → List Rune) (runes : List Rune) (foldCase : Bool) (st : Mem) :
    Mem × Info :=
  if foldCase then
    match runes with
    | [] => emptyString st
    | [r] => analyzeFold1 grow orbit r st
    | rs =>
      let (st1, i) := emptyString st
      analyzeFolds grow orbit rs i st1
  else
    let (h1, e) := st.heap.alloc [encodeRunes runes] 1
    let (h2, n, z) := simplify grow h1 st.nodes ⟨false, some e, Slice.nil, Slice.nil, allQuery⟩ false
    (⟨h2, st.hazard, n⟩, z)

/-- codesearch/index/regexp.go:495-504, 538. -/
def analyzePlus (info : Info) (st : Mem) : Mem × Info :=
  match info.exact with
  | some e =>
    let (h1, u) := st.heap.append grow Slice.nil (st.heap.read e)
    let (h2, n, z) := simplify grow h1 st.nodes { info with exact := none, pre := e, suf := u } false
    (⟨h2, st.hazard, n⟩, z)
  | none =>
    let (h2, n, z) := simplify grow st.heap st.nodes info false
    (⟨h2, st.hazard, n⟩, z)

mutual
/-- codesearch/index/regexp.go:420-540 `analyze`. -/
def analyze (orbit : Rune → List Rune) : Re → Mem → Mem × Info
  | .noMatch, st => (st, noMatch)
  | .emptyMatch, st => emptyString st
  | .beginLine, st => emptyString st
  | .endLine, st => emptyString st
  | .beginText, st => emptyString st
  | .endText, st => emptyString st
  | .wordBoundary, st => emptyString st
  | .noWordBoundary, st => emptyString st
  | .literal rs f, st => analyzeLiteral grow orbit rs f st
  | .anyCharNotNL, st => anyChar st
  | .anyChar, st => anyChar st
  | .capture r, st => analyze orbit r st
  | .concat [], st => emptyString st
  | .concat (r :: rs), st =>
    let (st1, x) := analyze orbit r st
    foldConcat orbit rs x st1
  | .alternate [], st => (st, noMatch)
  | .alternate (r :: rs), st =>
    let (st1, x) := analyze orbit r st
    foldAlternate orbit rs x st1
  | .quest r, st =>
    let (st1, x) := analyze orbit r st
    let (st2, y) := emptyString st1
    alternate grow x y st2
  | .star _, st => anyMatch st
  | .rep r lo _, st =>
    if lo = 0 then anyMatch st
    else
      let (st1, x) := analyze orbit r st
      analyzePlus grow x st1
  | .plus r, st =>
    let (st1, x) := analyze orbit r st
    analyzePlus grow x st1
  | .charClass ranges, st => analyzeClass grow ranges st
/-- codesearch/index/regexp.go:550-553 `fold(concat, ..)`. -/
def foldConcat (orbit : Rune → List Rune) : List Re → Info → Mem → Mem × Info
  | [], x, st => (st, x)
  | r :: rs, x, st =>
    let (st1, y) := analyze orbit r st
    let (st2, z) := concat grow x y st1
    foldConcat orbit rs z st2
/-- codesearch/index/regexp.go:550-553 `fold(alternate, ..)`. -/
def foldAlternate (orbit : Rune → List Rune) : List Re → Info → Mem → Mem × Info
  | [], x, st => (st, x)
  | r :: rs, x, st =>
    let (st1, y) := analyze orbit r st
    let (st2, z) := alternate grow x y st1
    foldAlternate orbit rs z st2
end

/-- codesearch/index/regexp.go:333-338 `RegexpQuery`, in the memory of a process that has made other searches
before: the nodes that are there, the nodes that are there afterwards, and the address of the query. -/
def regexpQuery (orbit : Rune → List Rune) (re : Re) (n : Nodes) : Nodes × Nat :=
  let (st1, info) := analyze grow orbit re ⟨⟨[]⟩, false, n⟩
  let (h2, n2, info2) := simplify grow st1.heap st1.nodes info true
  let (n3, info3) := addExact h2 n2 info2
  (n3, info3.mat)

end QN
end Hound
