import Verif.Model.BufWriter
import Verif.Model.FillFrom
import Verif.Model.PostHeap
import Verif.Model.Sparse
import Verif.Model.SortPost

/-!
# `IndexWriter` (codesearch/index/write.go:35-362, 617-632)

`none` is the end of the program (`log.Fatal` or a run-time panic).  The sizes of the in-memory posting
buffer (`npost`) and of the write buffers (`bufCap`) are parameters; the program uses `64 << 20 / 8` and
`256 << 10`.  Temporary files are values; errors of the operating system while writing are not
modelled, nor are logging, `Verbose` and `LogSkip`.
-/

namespace Hound

/-- codesearch/index/write.go:60 and 516: buffer sizes. -/
structure IWConfig where
  npost : Nat
  bufCap : Nat

/-- The sizes of the program. (codesearch/index/write.go:60, 516) -/
def goConfig : IWConfig := ⟨64 <<< 20 / 8, 256 <<< 10⟩

/-- Why a file is not indexed: the text `Add` returns (codesearch/index/write.go:162, 169, 188, 197). -/
inductive SkipReason where
  /-- "Invalid UTF-8" -/
  | invalidUTF8
  /-- "Too long" -/
  | tooLong
  /-- "Trigram ratio too high (%0.2f), probably not text" -/
  | trigramRatio
  /-- "Too many long lines, ratio: %0.2f" -/
  | longLines
deriving DecidableEq, Repr

/-- codesearch/index/write.go:619-632 `validUTF8`. -/
def validUTF8 (c1 c2 : Nat) : Bool :=
  if c1 < 0x80 then c2 < 0x80 || (0xc0 ≤ c2 && c2 < 0xf8)
  else if c1 < 0xc0 then c2 < 0xf8
  else if c1 < 0xf8 then 0x80 ≤ c2 && c2 < 0xc0
  else false

/-- Conversion `float32(n)` of a non-negative integer: round to 24 significant bits, ties to even.
(for codesearch/index/write.go:186, 195) -/
def float32OfNat (n : Nat) : Nat :=
  if n < 2 ^ 24 then n
  else
    let s := Nat.log2 n - 23
    let q := n / 2 ^ s
    let r := n % 2 ^ s
    let up := 2 * r > 2 ^ s || (2 * r == 2 ^ s && q % 2 == 1)
    (if up then q + 1 else q) * 2 ^ s

/-- `float32(a)/float32(b) > 0.1` (codesearch/index/write.go:186-187, 195-196). The constant is the float32
13421773 * 2^-27, the next float32 is 13421774 * 2^-27; the correctly rounded quotient is above the
constant exactly when the quotient is at least half way to the next one (the tie goes to the even
13421774). `0/0` is NaN: not above. `a/0` for `a > 0` is infinite. -/
def ratioAboveTenth (a b : Nat) : Bool :=
  let fa := float32OfNat a
  let fb := float32OfNat b
  (0 < fa || 0 < fb) && fa * 2 ^ 28 ≥ 26843547 * fb

/-- The local variables of `Add` (codesearch/index/write.go:125-135) and `ix.trigram`. -/
structure Scan where
  tv : Nat := 0
  n : Nat := 0
  linelen : Nat := 0
  numLines : Nat := 0
  longLines : Nat := 0
  set : SSet

/-- How the loop of `Add` goes on after a byte, or ends. (for codesearch/index/write.go:137-183) -/
inductive ScanRes where
  | panic
  /-- return a reason -/
  | skip (set : SSet) (r : SkipReason)
  /-- return "" because the file could not be read -/
  | unread (set : SSet)
  | go (st : Scan)

/-- codesearch/index/write.go:138, 155-182: one byte. -/
def scanByte (st : Scan) (c : UInt8) : ScanRes :=
  let tv := (st.tv <<< 8) &&& (1 <<< 24 - 1) ||| c.toNat
  let n := st.n + 1
  match (if n ≥ 3 then st.set.add tv else some st.set) with
  | none => .panic
  | some set =>
    if !validUTF8 ((tv >>> 8) &&& 0xFF) (tv &&& 0xFF) then .skip set .invalidUTF8
    else if n > 1 <<< 25 then .skip set .tooLong
    else
      let linelen := st.linelen + 1
      if c = NL then
        .go ⟨tv, n, 0, st.numLines + 1,
          if linelen > 2000 then st.longLines + 1 else st.longLines, set⟩
      else .go ⟨tv, n, linelen, st.numLines, st.longLines, set⟩

/-- The bytes one `Read` returned. (for codesearch/index/write.go:137-183) -/
def scanChunk : Scan → Bytes → ScanRes
  | st, [] => .go st
  | st, c :: cs =>
    match scanByte st c with
    | .go st' => scanChunk st' cs
    | r => r

/-- codesearch/index/write.go:137-183, the loop. The pieces are what successive calls of `Read` return
(an empty piece is a 0-length read without error). -/
def scanReader (fails : Bool) : Scan → List Bytes → ScanRes
  | st, [] => if fails then .unread st.set else .go st
  | st, c :: cs =>
    if c.length = 0 then .unread st.set
    else match scanChunk st c with
      | .go st' => scanReader fails st' cs
      | r => r

/-- codesearch/index/write.go:36-58 `IndexWriter`. -/
structure IW where
  cfg : IWConfig
  trigram : SSet
  paths : List Bytes
  nameData : BufWriter
  nameIndex : BufWriter
  numName : Nat
  post : List Nat
  postFile : List (List Nat)
  postIndex : BufWriter
  main : BufWriter

namespace IW

/-- codesearch/index/write.go:63-73 `Create`. -/
def create (cfg : IWConfig) : IW where
  cfg := cfg
  trigram := SSet.new (1 <<< 24)
  paths := []
  nameData := .create cfg.bufCap
  nameIndex := .create cfg.bufCap
  numName := 0
  post := []
  postFile := []
  postIndex := .create cfg.bufCap
  main := .create cfg.bufCap

/-- codesearch/index/write.go:105-107 `AddPaths`. -/
def addPaths (ix : IW) (paths : List Bytes) : IW := { ix with paths := ix.paths ++ paths }

/-- codesearch/index/write.go:277-288 `addName`. -/
def addName (ix : IW) (name : Bytes) : Option (Nat × IW) :=
  if name.contains 0 then none
  else match ix.nameData.offset with
    | none => none
    | some off => some (ix.numName % 2 ^ 32, { ix with
        nameIndex := ix.nameIndex.writeUint32 off
        nameData := (ix.nameData.write name).writeByte 0
        numName := ix.numName + 1 })

/-- codesearch/index/write.go:292-315 `flushPost`. `&ix.post[0]` panics for an empty slice. -/
def flushPost (ix : IW) : Option IW :=
  if ix.post.length = 0 then none
  else some { ix with post := [], postFile := ix.postFile ++ [sortPost ix.post] }

/-- codesearch/index/write.go:212-217: the posting entries of one file. -/
def addPosts (fileid : Nat) : IW → List Nat → Option IW
  | ix, [] => some ix
  | ix, t :: ts =>
    match (if ix.post.length ≥ ix.cfg.npost then ix.flushPost else some ix) with
    | none => none
    | some ix => addPosts fileid { ix with post := ix.post ++ [makePostEntry t fileid] } ts

/-- codesearch/index/write.go:185-203: the tests after reading. -/
def scanVerdict (st : Scan) : Option SkipReason :=
  if st.n > 0 then
    if ratioAboveTenth st.set.len st.n && st.set.len > 20000 then some .trigramRatio
    else if ratioAboveTenth st.longLines st.numLines then some .longLines
    else none
  else none

/-- codesearch/index/write.go:211-219: add the name and the posting entries of a file that passed the tests. -/
def addIndexed (ix : IW) (name : Bytes) (dense : List Nat) : Option (Option SkipReason × IW) :=
  match addName ix name with
  | none => none
  | some (fileid, ix) =>
    match addPosts fileid ix dense with
    | none => none
    | some ix => some (none, ix)

/-- codesearch/index/write.go:123-220 `Add`. The string returned is `none` for "". -/
def add (ix : IW) (name : Bytes) (r : Reader) : Option (Option SkipReason × IW) :=
  match scanReader r.fails { set := ix.trigram.reset } r.chunks with
  | .panic => none
  | .skip set reason => some (some reason, { ix with trigram := set })
  | .unread set => some (none, { ix with trigram := set })
  | .go st =>
    match scanVerdict st with
    | some reason => some (some reason, { ix with trigram := st.set })
    | none => addIndexed { ix with trigram := st.set } name st.set.dense

/-- `h.next()` (codesearch/index/write.go:423-426) with the sentinel entry at the end. -/
def heapNext (h : PostHeap) : Nat × PostHeap :=
  match h.next with
  | none => (makePostEntry (1 <<< 24 - 1) 0, h)
  | some p => p

/-- codesearch/index/write.go:346-350, the inner loop of `mergePost`: one posting list. Every round takes an
entry from the heap, so `count` rounds and one more are enough. -/
def mergeRun (trigram : Nat) : Nat → Nat → PostHeap → BufWriter → Nat → Nat →
    Option (Nat × PostHeap × BufWriter × Nat)
  | 0, _, _, _, _, _ => none
  | fuel + 1, e, h, out, fileid, nfile =>
    if entryTrigram e = trigram ∧ trigram ≠ 1 <<< 24 - 1 then
      let out := out.writeUvarint ((entryFileid e + 2 ^ 32 - fileid) % 2 ^ 32)
      let (e', h') := heapNext h
      mergeRun trigram fuel e' h' out (entryFileid e) ((nfile + 1) % 2 ^ 32)
    else some (e, h, out, nfile)

/-- codesearch/index/write.go:334-361, the outer loop of `mergePost`. -/
def mergeLoop (offset0 : Nat) : Nat → Nat → PostHeap → BufWriter → BufWriter → Option (BufWriter × BufWriter)
  | 0, _, _, _, _ => none
  | fuel + 1, e, h, out, postIndex =>
    match out.offset with
    | none => none
    | some off =>
      let offset := (off + 2 ^ 32 - offset0) % 2 ^ 32
      let trigram := entryTrigram e
      let buf := putTrigram trigram
      match mergeRun trigram (h.count + 2) e h (out.write buf) (2 ^ 32 - 1) 0 with
      | none => none
      | some (e', h', out, nfile) =>
        let out := out.writeUvarint 0
        let postIndex := ((postIndex.write buf).writeUint32 nfile).writeUint32 offset
        if trigram = 1 <<< 24 - 1 then some (out, postIndex)
        else mergeLoop offset0 fuel e' h' out postIndex

/-- codesearch/index/write.go:319-333: the heap of all chunks. -/
def mergeHeap (ix : IW) : PostHeap := (ix.postFile ++ [sortPost ix.post]).foldl PostHeap.addMem #[]

/-- codesearch/index/write.go:319-362 `mergePost`: `out` and the index of posting lists. -/
def mergePost (ix : IW) (out : BufWriter) : Option (BufWriter × BufWriter) :=
  let h := ix.mergeHeap
  let (e, h') := heapNext h
  match out.offset with
  | none => none
  | some offset0 => mergeLoop offset0 (h.count + 2) e h' out ix.postIndex

/-- codesearch/index/read.go:77 `magic`. -/
def magic : Bytes := b!"csearch index 1\n"

/-- codesearch/index/read.go:78 `trailerMagic`. -/
def trailerMagic : Bytes := b!"\ncsearch trailr\n"

/-- codesearch/index/write.go:229-232: the list of paths. -/
def writePaths (out : BufWriter) : List Bytes → BufWriter
  | [] => out
  | p :: ps => writePaths ((out.write p).write [0]) ps

/-- codesearch/index/write.go:223-261 `Flush`: the content of the index file. -/
def flush (ix : IW) : Option Bytes := do
  let (_, ix) ← ix.addName []
  let m := ix.main.write magic
  let off0 ← m.offset
  let m := (writePaths m ix.paths).write [0]
  let off1 ← m.offset
  let m := m.copyFile ix.nameData
  let off2 ← m.offset
  let (m, postIndex) ← ix.mergePost m
  let off3 ← m.offset
  let m := m.copyFile ix.nameIndex
  let off4 ← m.offset
  let m := m.copyFile postIndex
  let m := ((((m.writeUint32 off0).writeUint32 off1).writeUint32 off2).writeUint32 off3).writeUint32 off4
  let m := m.write trailerMagic
  let _ ← m.offset
  return m.flush.file

/-- A sequence of `Add` calls; the strings returned and the writer. (as index/index.go:389-451 calls it) -/
def addAll (ix : IW) : List (Bytes × Reader) → Option (List (Option SkipReason) × IW)
  | [] => some ([], ix)
  | (name, r) :: rest =>
    match ix.add name r with
    | none => none
    | some (res, ix) =>
      match addAll ix rest with
      | none => none
      | some (ress, ix) => some (res :: ress, ix)

end IW

/-- The whole life of an `IndexWriter`: `Create`, `AddPaths`, `Add` for each file, `Flush`: what `Add`
returned and the content of the index file. (as index/index.go:370-464 calls them) -/
def buildIndex (cfg : IWConfig) (paths : List Bytes) (files : List (Bytes × Reader)) :
    Option (List (Option SkipReason) × Bytes) :=
  match ((IW.create cfg).addPaths paths).addAll files with
  | none => none
  | some (ress, ix) =>
    match ix.flush with
    | none => none
    | some data => some (ress, data)

end Hound
