import Verif.Model.Basic

/-!
# `grepper.fillFrom` (index/grep.go:65-85): read a whole file into a reusable buffer
-/

namespace Hound

/-- A reader: the pieces successive `Read` calls can return (a piece larger than the caller's buffer is
returned over several calls, an empty piece is a read of 0 bytes without error), then end of file, or
(`fails`) a read error. (for index/grep.go:65-85) -/
structure Reader where
  chunks : List Bytes
  fails : Bool

/-- How `io.ReadFull` ended: buffer filled; `io.EOF`/`io.ErrUnexpectedEOF`; another error. (for index/grep.go:65-85) -/
inductive ReadEnd where
  | full
  | eof
  | err
deriving DecidableEq

/-- Go `io.ReadFull` with a buffer of `want` bytes (standard library; index/grep.go:72): the bytes
read, the pieces left, and how it ended. -/
def readFull (fails : Bool) : List Bytes → Nat → Bytes × List Bytes × ReadEnd
  | [], want => ([], [], if want = 0 then .full else if fails then .err else .eof)
  | c :: cs, want =>
    if want = 0 then ([], c :: cs, .full)
    else if c.length ≤ want then
      let (d, rest, e) := readFull fails cs (want - c.length)
      (c ++ d, rest, e)
    else (c.take want, c.drop want :: cs, .full)

/-- index/grep.go:70-84, the loop; `buf` is `g.buf`. `fuel` bounds the number of rounds. Returns the
slice and the new `g.buf`; `none` is an error. -/
def fillLoop (fails : Bool) : Nat → Bytes → Nat → List Bytes → Option (Bytes × Bytes)
  | 0, _, _, _ => none
  | fuel + 1, buf, off, chunks =>
    let (d, rest, e) := readFull fails chunks (buf.length - off)
    let buf1 := buf.take off ++ d ++ buf.drop (off + d.length)
    match e with
    | .eof => some (buf1.take (off + d.length), buf1)
    | .err => none
    | .full => fillLoop fails fuel (buf1 ++ List.replicate buf1.length 0) (off + d.length) rest

/-- index/grep.go:65-85 `fillFrom`. `gbuf` is the grepper's buffer, `none` for nil (then 1 MiB are
allocated). Every round but the last reads at least one byte, so the number of bytes plus one bounds
the number of rounds. -/
def fillFrom (gbuf : Option Bytes) (r : Reader) : Option (Bytes × Bytes) :=
  let buf := match gbuf with
    | none => List.replicate (1 <<< 20) 0
    | some b => b
  fillLoop r.fails (r.chunks.flatten.length + 1) buf 0 r.chunks

end Hound
