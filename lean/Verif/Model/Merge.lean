import Verif.Model.IndexRead
import Verif.Model.Utf8

/-!
# Merging two indexes (codesearch/index/merge.go)

`none` is the end of the program: a panic, `corrupt`, or `offset` finding more than 4 GB. `uint32`
arithmetic is arithmetic modulo 2^32. The three files written (`dst`, the name index, the posting list
index) are buffered writers with buffers of `cap` bytes; errors of the operating system are not modelled.
-/

namespace Hound

/-- codesearch/index/read.go:180-186 `listAt`: trigram, count, offset. -/
def RIndex.listAt (ix : RIndex) (off : Nat) : Option (Nat × Nat × Nat) :=
  match ix.slice ((ix.postIndex + off) % 2 ^ 32) postEntrySize with
  | none => none
  | some d =>
    match getTrigram d, getUint32 (d.drop 3), getUint32 (d.drop 7) with
    | some t, some count, some offset => some (t, count, offset)
    | _, _, _ => none

namespace Merge

/-- codesearch/index/merge.go:40-42 `idrange`. -/
structure IdRange where
  lo : Nat
  hi : Nat
  new : Nat
deriving DecidableEq, Repr

/-- `uint32(ix.numName)`. (for codesearch/index/merge.go:53-232) -/
def names (ix : RIndex) : Nat := (ix.numName % 2 ^ 32).toNat

/-- codesearch/index/merge.go:69 `path[:len(path)-1] + string(path[len(path)-1]+1)`: the sum is a byte, and
`string` of a byte is the UTF-8 encoding of the character with this number. The empty path panics. -/
def limitOf (path : Bytes) : Option Bytes :=
  match path.getLast? with
  | none => none
  | some b => some (path.dropLast ++ encodeRune (b + 1).toNat)

/-- The loops of codesearch/index/merge.go:65-67, 70-72 and 88-90, `for i < numName && Name(i) < bound { i++ }`.
The first number is how many names are left. -/
def skip (ix : RIndex) (bound : Bytes) : Nat → Nat → Option Nat
  | 0, i => some i
  | left + 1, i =>
    match ix.name i with
    | none => none
    | some n => if bytesLt n bound then skip ix bound left (i + 1) else some i

/-- codesearch/index/merge.go:60-61: the variables of the first loop. -/
structure Maps where
  i1 : Nat
  i2 : Nat
  new : Nat
  map1 : List IdRange
  map2 : List IdRange

/-- codesearch/index/merge.go:76-79 and 92-95: record a range unless it is empty. -/
def addRange (m : List IdRange) (new lo hi : Nat) : List IdRange × Nat :=
  if lo < hi then (m ++ [⟨lo, hi, new⟩], (new + (hi - lo)) % 2 ^ 32) else (m, new)

/-- codesearch/index/merge.go:62-96: one round of the first loop. -/
def mapStep (ix1 ix2 : RIndex) (st : Maps) (path : Bytes) : Option Maps :=
  match skip ix1 path (names ix1 - st.i1) st.i1 with
  | none => none
  | some lo1 =>
    match limitOf path with
    | none => none
    | some limit =>
      match skip ix1 limit (names ix1 - lo1) lo1 with
      | none => none
      | some hi1 =>
        let r1 := addRange st.map1 st.new st.i1 lo1
        let bad := if st.i2 < names ix2 then (ix2.name st.i2).map (fun n => bytesLt n path) else some false
        match bad with
        | some false =>
          match skip ix2 limit (names ix2 - st.i2) st.i2 with
          | none => none
          | some hi2 =>
            let r2 := addRange st.map2 r1.2 st.i2 hi2
            some ⟨hi1, hi2, r2.2, r1.1, r2.1⟩
        | _ => none

/-- codesearch/index/merge.go:62-96: the first loop. -/
def mapLoop (ix1 ix2 : RIndex) : List Bytes → Maps → Option Maps
  | [], st => some st
  | p :: ps, st =>
    match mapStep ix1 ix2 st p with
    | none => none
    | some st => mapLoop ix1 ix2 ps st

/-- codesearch/index/merge.go:60-105: the two maps of document numbers, and the number of documents. -/
def docMaps (ix1 ix2 : RIndex) (paths2 : List Bytes) : Option (List IdRange × List IdRange × Nat) :=
  match mapLoop ix1 ix2 paths2 ⟨0, 0, 0, [], []⟩ with
  | none => none
  | some st =>
    let r1 := addRange st.map1 st.new st.i1 (names ix1)
    if st.i2 < names ix2 then none else some (r1.1, st.map2, r1.2)

/-- codesearch/index/merge.go:115-130, the order in which paths are taken: the first of `paths1` unless the
first of `paths2` is smaller. -/
def allPaths (paths1 paths2 : List Bytes) : List Bytes := paths1.merge paths2 (fun a b => !bytesLt b a)

/-- codesearch/index/merge.go:124-127: the paths written. -/
def keepPaths : Bytes → List Bytes → List Bytes
  | _, [] => []
  | last, p :: ps => if last.isPrefixOf p then keepPaths last ps else p :: keepPaths p ps

/-- codesearch/index/merge.go:141-147 and 150-156: the names of one range. The first number is how many are left. -/
def copyNames (ix : RIndex) (nameData : Nat) : Nat → Nat → BufWriter × BufWriter → Option (BufWriter × BufWriter)
  | 0, _, st => some st
  | left + 1, i, (out, nif) =>
    match ix.name i, out.offset with
    | some name, some off =>
      copyNames ix nameData left (i + 1)
        ((out.write name).write [0], nif.writeUint32 ((off + 2 ^ 32 - nameData) % 2 ^ 32))
    | _, _ => none

/-- codesearch/index/merge.go:139-161, the loop over the names; `m1`, `m2` are the parts of the maps from `mi1`,
`mi2` on. Every round but the last takes a range from one of them. -/
def nameLoop (ix1 ix2 : RIndex) (nameData numName : Nat) : Nat → Nat → List IdRange → List IdRange →
    BufWriter × BufWriter → Option (Nat × BufWriter × BufWriter)
  | 0, _, _, _, _ => none
  | fuel + 1, new, m1, m2, st =>
    if new < numName then
      if m1.head?.map (·.new) = some new then
        match m1 with
        | [] => none
        | r :: m1 =>
          match copyNames ix1 nameData (r.hi - r.lo) r.lo st with
          | none => none
          | some st => nameLoop ix1 ix2 nameData numName fuel ((new + (r.hi - r.lo)) % 2 ^ 32) m1 m2 st
      else if m2.head?.map (·.new) = some new then
        match m2 with
        | [] => none
        | r :: m2 =>
          match copyNames ix2 nameData (r.hi - r.lo) r.lo st with
          | none => none
          | some st => nameLoop ix1 ix2 nameData numName fuel ((new + (r.hi - r.lo)) % 2 ^ 32) m1 m2 st
      else none
    else some (new, st)

/-- `^uint32(0)`. (for codesearch/index/merge.go:53-232) -/
def none32 : Nat := 2 ^ 32 - 1

/-- codesearch/index/merge.go:234-245 `postMapReader`; `rest` is `idmap[i:]`. -/
structure PostReader where
  ix : RIndex
  idmap : List IdRange
  triNum : Nat := 0
  trigram : Nat := none32
  count : Nat := 0
  d : Bytes := []
  oldid : Nat := 0
  fileid : Nat := 0
  rest : List IdRange := []

namespace PostReader

/-- codesearch/index/merge.go:259-274 `load`. -/
def load (r : PostReader) : Option PostReader :=
  if r.triNum ≥ r.ix.numPost then some { r with trigram := none32, count := 0, fileid := none32 }
  else
    match r.ix.listAt (r.triNum * postEntrySize % 2 ^ 32) with
    | none => none
    | some (t, count, offset) =>
      if count = 0 then some { r with trigram := t, count := 0, fileid := none32 }
      else
        match r.ix.sliceFrom ((r.ix.postData + offset + 3) % 2 ^ 32) with
        | none => none
        | some d => some { r with trigram := t, count, d, oldid := none32, rest := r.idmap }

/-- codesearch/index/merge.go:247-252 `init`. -/
def init (ix : RIndex) (idmap : List IdRange) : Option PostReader := load { ix, idmap }

/-- codesearch/index/merge.go:254-257 `nextTrigram`. -/
def nextTrigram (r : PostReader) : Option PostReader := load { r with triNum := (r.triNum + 1) % 2 ^ 32 }

/-- codesearch/index/merge.go:276-302 `nextId`, the loop; the numbers are `count`, `d`, `oldid` and `rest`. -/
def nextIdLoop (r : PostReader) : Nat → Bytes → Nat → List IdRange → Option (Bool × PostReader)
  | 0, d, oldid, rest => some (false, { r with count := 0, d, oldid, rest, fileid := none32 })
  | count + 1, d, oldid, rest =>
    match uvarint d with
    | none => none
    | some (delta64, n) =>
      if delta64 % 2 ^ 32 = 0 then none
      else
        let d := d.drop n
        let oldid := (oldid + delta64 % 2 ^ 32) % 2 ^ 32
        match rest.dropWhile (fun g => g.hi ≤ oldid) with
        | [] => some (false, { r with count := 0, d, oldid, rest := [], fileid := none32 })
        | g :: gs =>
          if oldid < g.lo then nextIdLoop r count d oldid (g :: gs)
          else some (true, { r with count, d, oldid, rest := g :: gs,
                                    fileid := (g.new + oldid + 2 ^ 32 - g.lo) % 2 ^ 32 })

/-- codesearch/index/merge.go:276-302 `nextId`. -/
def nextId (r : PostReader) : Option (Bool × PostReader) := nextIdLoop r r.count r.d r.oldid r.rest

end PostReader

/-- codesearch/index/merge.go:304-312 `postDataWriter`. -/
structure PostWriter where
  out : BufWriter
  postIndexFile : BufWriter
  base : Nat
  count : Nat := 0
  offset : Nat := 0
  last : Nat := 0
  t : Nat := 0

namespace PostWriter

/-- codesearch/index/merge.go:314-318 `init`. -/
def init (cap : Nat) (out : BufWriter) : Option PostWriter :=
  out.offset.map fun base => { out, postIndexFile := BufWriter.create cap, base }

/-- codesearch/index/merge.go:320-325 `trigram`. -/
def trigram (w : PostWriter) (t : Nat) : Option PostWriter :=
  w.out.offset.map fun offset => { w with offset, count := 0, t, last := none32 }

/-- codesearch/index/merge.go:327-334 `fileid`. -/
def fileid (w : PostWriter) (id : Nat) : PostWriter :=
  let out := if w.count = 0 then w.out.writeTrigram w.t else w.out
  { w with out := out.writeUvarint ((id + 2 ^ 32 - w.last) % 2 ^ 32), last := id, count := (w.count + 1) % 2 ^ 32 }

/-- codesearch/index/merge.go:336-344 `endTrigram`. -/
def endTrigram (w : PostWriter) : PostWriter :=
  if w.count = 0 then w
  else { w with
    out := w.out.writeUvarint 0
    postIndexFile := ((w.postIndexFile.writeTrigram w.t).writeUint32 w.count).writeUint32
      ((w.offset + 2 ^ 32 - w.base) % 2 ^ 32) }

end PostWriter

/-- codesearch/index/merge.go:178-180 and 185-187, `for r.nextId() { w.fileid(r.fileid) }`. Every round but the
last makes `count` smaller. -/
def copyList : Nat → PostReader → PostWriter → Option (PostReader × PostWriter)
  | 0, _, _ => none
  | fuel + 1, r, w =>
    match r.nextId with
    | none => none
    | some (false, r) => some (r, w)
    | some (true, r) => copyList fuel r (w.fileid r.fileid)

/-- codesearch/index/merge.go:197-207: the two lists of the same trigram. -/
def mergeLists : Nat → PostReader → PostReader → PostWriter → Option (PostReader × PostReader × PostWriter)
  | 0, _, _, _ => none
  | fuel + 1, r1, r2, w =>
    if r1.fileid < none32 ∨ r2.fileid < none32 then
      if r1.fileid < r2.fileid then
        match r1.nextId with
        | none => none
        | some (_, r1') => mergeLists fuel r1' r2 (w.fileid r1.fileid)
      else if r2.fileid < r1.fileid then
        match r2.nextId with
        | none => none
        | some (_, r2') => mergeLists fuel r1 r2' (w.fileid r2.fileid)
      else none
    else some (r1, r2, w)

/-- codesearch/index/merge.go:175-212, the loop over the trigrams. Every round but the last moves one of the
readers to its next list. -/
def postLoop : Nat → PostReader → PostReader → PostWriter → Option PostWriter
  | 0, _, _, _ => none
  | fuel + 1, r1, r2, w =>
    if r1.trigram < r2.trigram then do
      let w ← w.trigram r1.trigram
      let (r1, w) ← copyList (r1.count + 1) r1 w
      let r1 ← r1.nextTrigram
      postLoop fuel r1 r2 w.endTrigram
    else if r2.trigram < r1.trigram then do
      let w ← w.trigram r2.trigram
      let (r2, w) ← copyList (r2.count + 1) r2 w
      let r2 ← r2.nextTrigram
      postLoop fuel r1 r2 w.endTrigram
    else if r1.trigram = none32 then some w
    else do
      let w ← w.trigram r1.trigram
      let (_, s1) ← r1.nextId
      let (_, s2) ← r2.nextId
      let (s1, s2, w) ← mergeLists (r1.count + r2.count + 1) s1 s2 w
      let s1 ← s1.nextTrigram
      let s2 ← s2.nextTrigram
      postLoop fuel s1 s2 w.endTrigram

/-- codesearch/index/merge.go:53-232 `Merge`: the content of the file written, from the contents of the two read. -/
def merge (cap : Nat) (src1 src2 : Bytes) : Option Bytes := do
  let ix1 ← RIndex.open src1
  let ix2 ← RIndex.open src2
  let paths1 ← ix1.paths
  let paths2 ← ix2.paths
  let (map1, map2, numName) ← docMaps ix1 ix2 paths2
  let ix3 := (BufWriter.create cap).write IW.magic
  let pathData ← ix3.offset
  let ix3 := (IW.writePaths ix3 (keepPaths [0] (allPaths paths1 paths2))).write [0]
  let nameData ← ix3.offset
  let (new, ix3, nif) ← nameLoop ix1 ix2 nameData numName (map1.length + map2.length + 1) 0 map1 map2
    (ix3, BufWriter.create cap)
  let nifOff ← nif.offset
  if new * 4 % 2 ^ 32 ≠ nifOff then none
  else do
    let last ← ix3.offset
    let nif := nif.writeUint32 last
    let postData ← ix3.offset
    let r1 ← PostReader.init ix1 map1
    let r2 ← PostReader.init ix2 map2
    let w ← PostWriter.init cap ix3
    let w ← postLoop (ix1.numPost + ix2.numPost + 1) r1 r2 w
    let nameIndex ← w.out.offset
    let ix3 := w.out.copyFile nif
    let postIndex ← ix3.offset
    let ix3 := ix3.copyFile w.postIndexFile
    let ix3 := ((((ix3.writeUint32 pathData).writeUint32 nameData).writeUint32 postData).writeUint32 nameIndex).writeUint32
      postIndex
    let ix3 := ix3.write IW.trailerMagic
    return ix3.flush.file

end Merge

end Hound
