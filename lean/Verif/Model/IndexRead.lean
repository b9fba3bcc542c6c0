import Verif.Model.Coding
import Verif.Model.Query
import Verif.Model.IndexWrite

/-!
# `Index` (codesearch/index/read.go:82-411)

`none` is the end of the program: `corrupt` (a `log.Fatal`) or a run-time panic. `uint32` arithmetic is
arithmetic modulo 2^32. The content of the file is a list of bytes; memory mapping is not modelled.
-/

namespace Hound

/-- codesearch/index/read.go:82-92 `Index`. -/
structure RIndex where
  data : Bytes
  pathData : Nat := 0
  nameData : Nat := 0
  postData : Nat := 0
  nameIndex : Nat := 0
  postIndex : Nat := 0
  numName : Int := 0
  numPost : Nat := 0

/-- codesearch/index/read.go:94. -/
def postEntrySize : Nat := 3 + 4 + 4

namespace RIndex

/-- codesearch/index/read.go:115-124 `slice` with `n ≥ 0`. -/
def slice (ix : RIndex) (off n : Nat) : Option Bytes :=
  if off + n > ix.data.length then none else some ((ix.data.drop off).take n)

/-- codesearch/index/read.go:115-124 `slice` with `n < 0`: `d[o:]` panics when `o > len(d)`. -/
def sliceFrom (ix : RIndex) (off : Nat) : Option Bytes :=
  if off > ix.data.length then none else some (ix.data.drop off)

/-- codesearch/index/read.go:127-129 `uint32`. -/
def uint32 (ix : RIndex) (off : Nat) : Option Nat := (ix.slice off 4).bind getUint32

/-- codesearch/index/read.go:96-111 `Open`, for a file with this content. -/
def «open» (d : Bytes) : Option RIndex :=
  if d.length < 4 * 4 + IW.trailerMagic.length ∨
      d.drop (d.length - IW.trailerMagic.length) ≠ IW.trailerMagic then none
  else do
    let n := (d.length + 2 ^ 32 - IW.trailerMagic.length - 5 * 4) % 2 ^ 32
    let ix : RIndex := { data := d }
    let pathData ← ix.uint32 n
    let nameData ← ix.uint32 ((n + 4) % 2 ^ 32)
    let postData ← ix.uint32 ((n + 8) % 2 ^ 32)
    let nameIndex ← ix.uint32 ((n + 12) % 2 ^ 32)
    let postIndex ← ix.uint32 ((n + 16) % 2 ^ 32)
    return { data := d, pathData, nameData, postData, nameIndex, postIndex
             numName := ((postIndex + 2 ^ 32 - nameIndex) % 2 ^ 32 / 4 : Nat) - 1
             numPost := (n + 2 ^ 32 - postIndex) % 2 ^ 32 / postEntrySize }

/-- codesearch/index/read.go:165-172 `str`. -/
def str (ix : RIndex) (off : Nat) : Option Bytes :=
  match ix.sliceFrom off with
  | none => none
  | some s => if s.contains 0 then some (s.takeWhile (· != 0)) else none

/-- codesearch/index/read.go:145-157 `Paths`. Every round but the last moves the offset on, unless it wraps
around 2^32; one round per byte of the file and one more are enough when it does not. -/
def pathsLoop (ix : RIndex) : Nat → Nat → Option (List Bytes)
  | 0, _ => none
  | fuel + 1, off =>
    match ix.str off with
    | none => none
    | some s =>
      if s.length = 0 then some []
      else (pathsLoop ix fuel ((off + (s.length + 1)) % 2 ^ 32)).map (s :: ·)

/-- `Paths` (codesearch/index/read.go:145-157). -/
@[inherit_doc pathsLoop]
def paths (ix : RIndex) : Option (List Bytes) := pathsLoop ix (ix.data.length + 1) ix.pathData

/-- codesearch/index/read.go:160-163, 175-177 `NameBytes`, `Name`. -/
def name (ix : RIndex) (fileid : Nat) : Option Bytes :=
  match ix.uint32 ((ix.nameIndex + 4 * fileid) % 2 ^ 32) with
  | none => none
  | some off => ix.str ((ix.nameData + off) % 2 ^ 32)

/-- Go's `sort.Search` (standard library): the loop, with `none` for a panic in `f`. Every round makes
`j - i` smaller. (called at codesearch/index/read.go:202) -/
def searchLoop (f : Nat → Option Bool) : Nat → Nat → Nat → Option Nat
  | 0, i, _ => some i
  | fuel + 1, i, j =>
    if i < j then
      match f ((i + j) / 2) with
      | none => none
      | some b => if b then searchLoop f fuel i ((i + j) / 2) else searchLoop f fuel ((i + j) / 2 + 1) j
    else some i

/-- Go's `sort.Search`. (called at codesearch/index/read.go:202) -/
def search (n : Nat) (f : Nat → Option Bool) : Option Nat := searchLoop f n 0 n

/-- codesearch/index/read.go:199-218 `findList`: count and offset. -/
def findList (ix : RIndex) (trigram : Nat) : Option (Nat × Nat) :=
  match ix.slice ix.postIndex (postEntrySize * ix.numPost) with
  | none => none
  | some d =>
    match search ix.numPost (fun i => (getTrigram (d.drop (i * postEntrySize))).map (fun t => decide (t ≥ trigram))) with
    | none => none
    | some i =>
      if i ≥ ix.numPost then some (0, 0)
      else
        let d := d.drop (i * postEntrySize)
        match getTrigram d with
        | none => none
        | some t =>
          if t ≠ trigram then some (0, 0)
          else match getUint32 (d.drop 3), getUint32 (d.drop 7) with
            | some count, some offset => some (count, offset)
            | _, _ => none

/-- codesearch/index/read.go:246-274 `postReader.next`, called until it returns false: the file ids it
stops at. `restrict = none` is the nil slice. -/
def readPosts : Nat → Nat → Bytes → Option (List Nat) → Option (List Nat)
  | 0, _, d, _ =>
    match d with
    | b :: _ => if b ≠ 0 then none else some []
    | [] => none
  | count + 1, fileid, d, restrict =>
    match uvarint d with
    | none => none
    | some (delta64, n) =>
      if delta64 % 2 ^ 32 = 0 then none
      else
        let fileid := (fileid + delta64 % 2 ^ 32) % 2 ^ 32
        match restrict with
        | none => (readPosts count fileid (d.drop n) none).map (fileid :: ·)
        | some r =>
          let r := r.dropWhile (· < fileid)
          if r.head? = some fileid then (readPosts count fileid (d.drop n) (some r)).map (fileid :: ·)
          else readPosts count fileid (d.drop n) (some r)

/-- codesearch/index/read.go:229-240, 246-274: `postReader.init`, then `next` until it returns false.
With count 0 nothing is read and `next` returns false at once. -/
def postIds (ix : RIndex) (trigram : Nat) (restrict : Option (List Nat)) : Option (List Nat) :=
  match ix.findList trigram with
  | none => none
  | some (count, offset) =>
    if count = 0 then some []
    else match ix.sliceFrom ((ix.postData + offset + 3) % 2 ^ 32) with
      | none => none
      | some d => readPosts count (2 ^ 32 - 1) d restrict

/-- codesearch/index/read.go:280-288 `postingList`. -/
def postingList (ix : RIndex) (trigram : Nat) (restrict : Option (List Nat)) : Option (List Nat) :=
  ix.postIds trigram restrict

/-- codesearch/index/read.go:299-309, the loop of `postingAnd`: the first list is the part of `list` from `i`
on. The Go code collects the result in the front part of `list` itself; it never overtakes `i`. -/
def andLoop : List Nat → List Nat → List Nat
  | _, [] => []
  | list, f :: fs =>
    match list.dropWhile (· < f) with
    | [] => andLoop [] fs
    | x :: xs => if x = f then f :: andLoop xs fs else andLoop (x :: xs) fs

/-- codesearch/index/read.go:294-310 `postingAnd`. -/
def postingAnd (ix : RIndex) (list : List Nat) (trigram : Nat) (restrict : Option (List Nat)) :
    Option (List Nat) :=
  (ix.postIds trigram restrict).map (andLoop list)

/-- codesearch/index/read.go:321-333, the loop of `postingOr` and the copy of the rest. -/
def orLoop : List Nat → List Nat → List Nat
  | list, [] => list
  | list, f :: fs =>
    list.takeWhile (· < f) ++ f ::
      match list.dropWhile (· < f) with
      | [] => orLoop [] fs
      | x :: xs => if x = f then orLoop xs fs else orLoop (x :: xs) fs

/-- codesearch/index/read.go:316-334 `postingOr`. -/
def postingOr (ix : RIndex) (list : List Nat) (trigram : Nat) (restrict : Option (List Nat)) :
    Option (List Nat) :=
  (ix.postIds trigram restrict).map (orLoop list)

/-- codesearch/index/read.go:392-411 `mergeOr`. -/
def mergeOr : List Nat → List Nat → List Nat
  | [], l2 => l2
  | x :: xs, [] => x :: xs
  | x :: xs, y :: ys =>
    if x < y then x :: mergeOr xs (y :: ys)
    else if x > y then y :: mergeOr (x :: xs) ys
    else x :: mergeOr xs ys
termination_by l1 l2 => l1.length + l2.length

/-- codesearch/index/read.go:357-361: the first trigram, or a further one, of an AND node. -/
def listOrAnd (ix : RIndex) (list : Option (List Nat)) (tri : Nat) (restrict : Option (List Nat)) : Option (List Nat) :=
  match list with
  | none => ix.postingList tri restrict
  | some l => ix.postingAnd l tri restrict

/-- codesearch/index/read.go:378-382: the first trigram, or a further one, of an OR node. -/
def listOrOr (ix : RIndex) (list : Option (List Nat)) (tri : Nat) (restrict : Option (List Nat)) : Option (List Nat) :=
  match list with
  | none => ix.postingList tri restrict
  | some l => ix.postingOr l tri restrict

/-- codesearch/index/read.go:367-369: `if list == nil { list = restrict }`. -/
def orRestrict (list restrict : Option (List Nat)) : Option (List Nat) :=
  match list with
  | none => restrict
  | some l => some l

/-- codesearch/index/read.go:355-365: the trigrams of an AND node. `some none` is the early `return nil`;
`some (some list)` is `list` after the loop, where `list = none` is nil. -/
def andTrigrams (ix : RIndex) (restrict : Option (List Nat)) :
    Option (List Nat) → List Bytes → Option (Option (Option (List Nat)))
  | list, [] => some (some list)
  | list, t :: ts =>
    match getTrigram t with
    | none => none
    | some tri =>
      match ix.listOrAnd list tri restrict with
      | none => none
      | some l => if l.length = 0 then some none else andTrigrams ix restrict (some l) ts

/-- codesearch/index/read.go:376-383: the trigrams of an OR node. -/
def orTrigrams (ix : RIndex) (restrict : Option (List Nat)) :
    Option (List Nat) → List Bytes → Option (Option (List Nat))
  | list, [] => some list
  | list, t :: ts =>
    match getTrigram t with
    | none => none
    | some tri =>
      match ix.listOrOr list tri restrict with
      | none => none
      | some l => orTrigrams ix restrict (some l) ts

mutual

/-- codesearch/index/read.go:340-390 `postingQuery`. The result is the slice returned, nil or empty alike:
callers look at its length and elements only. -/
def postingQuery (ix : RIndex) : Query → Option (List Nat) → Option (List Nat)
  | .mk .none _ _, _ => some []
  | .mk .all _ _, some r => some r
  | .mk .all _ _, none => if ix.numName < 0 then none else some (List.range ix.numName.toNat)
  | .mk .and tri sub, restrict =>
    match andTrigrams ix restrict none tri with
    | none => none
    | some none => some []
    | some (some list) => andSubs ix restrict list sub
  | .mk .or tri sub, restrict =>
    match orTrigrams ix restrict none tri with
    | none => none
    | some list => orSubs ix restrict (list.getD []) sub

/-- codesearch/index/read.go:366-374: the sub-queries of an AND node. -/
def andSubs (ix : RIndex) (restrict : Option (List Nat)) : Option (List Nat) → List Query → Option (List Nat)
  | list, [] => some (list.getD [])
  | list, q :: qs =>
    match postingQuery ix q (orRestrict list restrict) with
    | none => none
    | some l => if l.length = 0 then some [] else andSubs ix restrict (some l) qs

/-- codesearch/index/read.go:384-387: the sub-queries of an OR node. -/
def orSubs (ix : RIndex) (restrict : Option (List Nat)) : List Nat → List Query → Option (List Nat)
  | list, [] => some list
  | list, q :: qs =>
    match postingQuery ix q restrict with
    | none => none
    | some l => orSubs ix restrict (mergeOr list l) qs

end

end RIndex

end Hound
