import Verif.Model.Basic

/-!
# `codesearch/index/regexp.go`: string sets and trigram queries

Queries are modelled as values.  The Go code mutates query nodes, but every node is owned by exactly
one place when it is mutated (the shared `allQuery`/`noneQuery` nodes are never mutated, because
`implies` answers before any mutation when one side is ALL or NONE).  String sets are values here;
`Verif.Model.Heap*` models the same code with Go's slice sharing.
-/

namespace Hound

/-- Go's `<` on strings: lexicographic by bytes. (for codesearch/index/regexp.go:728-795) -/
def bytesLt : Bytes → Bytes → Bool
  | [], [] => false
  | [], _ :: _ => true
  | _ :: _, [] => false
  | a :: as, b :: bs => if a < b then true else if b < a then false else bytesLt as bs

/-- codesearch/index/regexp.go:748-752 `byPrefix.Less`. -/
def byPrefixLess (s t : Bytes) : Bool := bytesLt s t

/-- codesearch/index/regexp.go:758-772 `bySuffix.Less`: compare from the last byte backwards. -/
def bySuffixLess (s t : Bytes) : Bool := bytesLt s.reverse t.reverse

/-- Insertion into a sorted list. (for codesearch/index/regexp.go:728-795) -/
def insertSorted (less : Bytes → Bytes → Bool) (x : Bytes) : List Bytes → List Bytes
  | [] => [x]
  | y :: ys => if less y x then y :: insertSorted less x ys else x :: y :: ys

/-- Go's `sort.Sort` on strings (equal strings are indistinguishable, so the sorted slice is
determined by its elements and any sorting algorithm gives the same result). (for codesearch/index/regexp.go:728-795) -/
def sortStrings (less : Bytes → Bytes → Bool) : List Bytes → List Bytes
  | [] => []
  | x :: xs => insertSorted less x (sortStrings less xs)

/-- The compaction loop `if w == 0 || t[w-1] != str { t[w] = str; w++ }`
(codesearch/index/regexp.go:787-793 and 675-689): drop an element equal to the last kept one.
`last` is `t[w-1]` (`none` when `w == 0`). -/
def compactEq : Option Bytes → List Bytes → List Bytes
  | _, [] => []
  | last, s :: ss => if last = some s then compactEq last ss else s :: compactEq (some s) ss

/-- codesearch/index/regexp.go:780-795 `stringSet.clean`. -/
def cleanSet (isSuffix : Bool) (s : List Bytes) : List Bytes :=
  compactEq none (sortStrings (if isSuffix then bySuffixLess else byPrefixLess) s)

/-- codesearch/index/regexp.go:803-814 `minLen`. -/
def minLen : List Bytes → Nat
  | [] => 0
  | s :: ss => ss.foldl (fun m str => if m > str.length then str.length else m) s.length

/-- codesearch/index/regexp.go:831-835 `union` (as a value). -/
def unionSet (s t : List Bytes) (isSuffix : Bool) : List Bytes := cleanSet isSuffix (s ++ t)

/-- codesearch/index/regexp.go:838-847 `cross`. -/
def crossSet (s t : List Bytes) (isSuffix : Bool) : List Bytes :=
  cleanSet isSuffix (s.flatMap fun ss => t.map fun tt => ss ++ tt)

/-- codesearch/index/regexp.go:861-872 `isSubsetOf`: the inner loop
`for j < len(t) && t[j] < ss { j++ }` drops a prefix of `t`. -/
def isSubsetOf : List Bytes → List Bytes → Bool
  | [], _ => true
  | ss :: rest, t =>
    match t.dropWhile (fun x => bytesLt x ss) with
    | [] => false
    | x :: t' => if x = ss then isSubsetOf rest (x :: t') else false

/-- codesearch/index/regexp.go:28-35 `QueryOp`. -/
inductive QOp where
  | all
  | none
  | and
  | or
deriving DecidableEq, Repr

/-- codesearch/index/regexp.go:22-26 `Query`. -/
inductive Query where
  | mk (op : QOp) (trigram : List Bytes) (sub : List Query)

namespace Query

/-- The field `Op` (codesearch/index/regexp.go:22-26). -/
def op : Query → QOp
  | mk o _ _ => o
/-- The field `Trigram` (codesearch/index/regexp.go:22-26). -/
def trigram : Query → List Bytes
  | mk _ t _ => t
/-- The field `Sub` (codesearch/index/regexp.go:22-26). -/
def sub : Query → List Query
  | mk _ _ s => s

/-- codesearch/index/regexp.go:37-38. -/
def allQ : Query := mk .all [] []
/-- `noneQuery` (codesearch/index/regexp.go:38). -/
def noneQ : Query := mk .none [] []

mutual
/-- codesearch/index/regexp.go:198-224 `trigramsImply`. -/
def trigramsImply (t : List Bytes) : Query → Bool
  | mk .or tri subs => anyTrigramsImply t subs || t.any (fun x => isSubsetOf [x] tri)
  | mk .and tri subs => allTrigramsImply t subs && isSubsetOf tri t
  | mk .all _ _ => false
  | mk .none _ _ => false
/-- codesearch/index/regexp.go:201-205. -/
def anyTrigramsImply (t : List Bytes) : List Query → Bool
  | [] => false
  | q :: qs => trigramsImply t q || anyTrigramsImply t qs
/-- codesearch/index/regexp.go:213-217. -/
def allTrigramsImply (t : List Bytes) : List Query → Bool
  | [] => true
  | q :: qs => trigramsImply t q && allTrigramsImply t qs
end

/-- codesearch/index/regexp.go:174-196 `implies`. -/
def implies (q r : Query) : Bool :=
  if q.op = .none ∨ r.op = .all then true
  else if q.op = .all ∨ r.op = .none then false
  else if q.op = .and ∨ (q.op = .or ∧ q.trigram.length = 1 ∧ q.sub.length = 0) then
    trigramsImply q.trigram r
  else if q.op = .or ∧ r.op = .or ∧ q.trigram.length > 0 ∧ q.sub.length = 0 ∧
      isSubsetOf q.trigram r.trigram = true then true
  else false

/-- codesearch/index/regexp.go:61-66: a node that only wraps one sub-query is replaced by it. -/
def unwrap (q : Query) : Query :=
  match q with
  | mk _ [] [s] => s
  | q => q

/-- codesearch/index/regexp.go:117-145: split two trigram lists into (left of q, left of r, common),
walking both lists as if sorted. `fuel` is the number of elements left in both lists. -/
def factor : Nat → List Bytes → List Bytes → List Bytes × List Bytes × List Bytes
  | 0, qs, rs => (qs, rs, [])
  | _ + 1, [], rs => ([], rs, [])
  | _ + 1, qs, [] => (qs, [], [])
  | n + 1, qt :: qs, rt :: rs =>
    if bytesLt qt rt then
      let (a, b, c) := factor n qs (rt :: rs)
      (qt :: a, b, c)
    else if bytesLt rt qt then
      let (a, b, c) := factor n (qt :: qs) rs
      (a, rt :: b, c)
    else
      let (a, b, c) := factor n qs rs
      (a, b, qt :: c)

/-- `QAnd + QOr - op` (codesearch/index/regexp.go:163). -/
def otherOp : QOp → QOp
  | .and => .or
  | .or => .and
  | o => o

/-- codesearch/index/regexp.go:52-170 `andOr`, for `op` AND or OR. `fuel` bounds the recursion of line
160/165; `andOr` below supplies enough (`Verif.Proofs.Query.andOrF_stable`). -/
def andOrF : Nat → Query → Query → QOp → Query
  | 0, q, r, op => mk op [] [q, r]
  | fuel + 1, q, r, op =>
    let q := unwrap q
    let r := unwrap r
    if implies q r then (if op = .and then q else r)
    else if implies r q then (if op = .and then r else q)
    else
      let qAtom : Bool := q.trigram.length == 1 && q.sub.length == 0
      let rAtom : Bool := r.trigram.length == 1 && r.sub.length == 0
      if q.op = op ∧ (r.op = op ∨ rAtom) then
        mk q.op (unionSet q.trigram r.trigram false) (q.sub ++ r.sub)
      else if r.op = op ∧ qAtom then
        mk r.op (unionSet r.trigram q.trigram false) r.sub
      else if qAtom ∧ rAtom then
        mk op (q.trigram ++ r.trigram) q.sub
      else if q.op = op then mk q.op q.trigram (q.sub ++ [r])
      else if r.op = op then mk r.op r.trigram (r.sub ++ [q])
      else
        let (qt, rt, common) := factor (q.trigram.length + r.trigram.length) q.trigram r.trigram
        let q := mk q.op qt q.sub
        let r := mk r.op rt r.sub
        if common.length > 0 then
          let s := andOrF fuel q r op
          andOrF fuel (mk (otherOp op) common []) s (otherOp op)
        else mk op [] [q, r]

mutual
/-- Number of trigrams in a query tree. (for codesearch/index/regexp.go:52-170) -/
def weight : Query → Nat
  | mk _ t s => t.length + weightList s
/-- The trigrams in a list of queries (for codesearch/index/regexp.go:52-170). -/
def weightList : List Query → Nat
  | [] => 0
  | q :: qs => weight q + weightList qs
end

/-- codesearch/index/regexp.go:52-170 `andOr`. -/
def andOr (q r : Query) (op : QOp) : Query := andOrF (weight q + weight r + 2) q r op

/-- codesearch/index/regexp.go:41-43 `and`. -/
def and (q r : Query) : Query := andOr q r .and
/-- codesearch/index/regexp.go:46-48 `or`. -/
def or (q r : Query) : Query := andOr q r .or

/-- codesearch/index/regexp.go:271-274: all substrings of length 3, in order. -/
def windows3 : Bytes → List Bytes
  | a :: b :: c :: rest => [a, b, c] :: windows3 (b :: c :: rest)
  | _ => []

/-- codesearch/index/regexp.go:269-278, the loop of `andTrigrams`. -/
def orTrigrams : Query → List Bytes → Query
  | o, [] => o
  | o, tt :: ts => orTrigrams (o.or (mk .and (cleanSet false (windows3 tt)) [])) ts

/-- codesearch/index/regexp.go:260-281 `andTrigrams`. -/
def andTrigrams (q : Query) (t : List Bytes) : Query :=
  if minLen t < 3 then q else q.and (orTrigrams noneQ t)

end Query
end Hound
