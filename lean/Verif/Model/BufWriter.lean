import Verif.Model.Coding

/-!
# `bufWriter` (codesearch/index/write.go:490-615)

The file is the list of bytes written to it so far (files are only appended to).  `cap` is the capacity
of the buffer (256 KiB in the program).  `none` is `log.Fatalf`: here only "index is larger than 4GB";
write errors of the operating system are not modelled.
-/

namespace Hound

/-- codesearch/index/write.go:491-496 `bufWriter`. -/
structure BufWriter where
  file : Bytes
  buf : Bytes
  cap : Nat

namespace BufWriter

/-- codesearch/index/write.go:501-519 `bufCreate`: a new, empty file. -/
def create (cap : Nat) : BufWriter := ⟨[], [], cap⟩

/-- codesearch/index/write.go:566-575 `flush`. -/
def flush (b : BufWriter) : BufWriter :=
  if b.buf.length = 0 then b else { b with file := b.file ++ b.buf, buf := [] }

/-- codesearch/index/write.go:521-533 `write`, and 542-554 `writeString` (the same code). -/
def write (b : BufWriter) (x : Bytes) : BufWriter :=
  if x.length > b.cap - b.buf.length then
    let b := b.flush
    if x.length ≥ b.cap then { b with file := b.file ++ x }
    else { b with buf := b.buf ++ x }
  else { b with buf := b.buf ++ x }

/-- codesearch/index/write.go:535-540 `writeByte`. -/
def writeByte (b : BufWriter) (x : UInt8) : BufWriter :=
  let b := if b.buf.length ≥ b.cap then b.flush else b
  { b with buf := b.buf ++ [x] }

/-- codesearch/index/write.go:585-590 `writeTrigram`. -/
def writeTrigram (b : BufWriter) (t : Nat) : BufWriter :=
  let b := if b.cap - b.buf.length < 3 then b.flush else b
  { b with buf := b.buf ++ putTrigram t }

/-- codesearch/index/write.go:592-597 `writeUint32`. -/
def writeUint32 (b : BufWriter) (x : Nat) : BufWriter :=
  let b := if b.cap - b.buf.length < 4 then b.flush else b
  { b with buf := b.buf ++ putUint32 x }

/-- codesearch/index/write.go:599-615 `writeUvarint`. -/
def writeUvarint (b : BufWriter) (x : Nat) : BufWriter :=
  let b := if b.cap - b.buf.length < 5 then b.flush else b
  { b with buf := b.buf ++ putUvarint x }

/-- codesearch/index/write.go:557-564 `offset`. -/
def offset (b : BufWriter) : Option Nat :=
  if b.file.length + b.buf.length < 2 ^ 32 then some (b.file.length + b.buf.length) else none

/-- codesearch/index/write.go:578-583 `finish`: the bytes a reader gets. -/
def finish (b : BufWriter) : Bytes := b.flush.file

/-- codesearch/index/write.go:267-273 `copyFile`. -/
def copyFile (dst src : BufWriter) : BufWriter :=
  let dst := dst.flush
  { dst with file := dst.file ++ src.finish }

/-- One call of the API. (codesearch/index/write.go:491-615) -/
inductive Call where
  | write (x : Bytes)
  | writeByte (x : UInt8)
  | writeTrigram (t : Nat)
  | writeUint32 (x : Nat)
  | writeUvarint (x : Nat)
  | flush
  | copyFile (src : BufWriter)

/-- What a call does (codesearch/index/write.go:491-615). -/
def call (b : BufWriter) : Call → BufWriter
  | .write x => b.write x
  | .writeByte x => b.writeByte x
  | .writeTrigram t => b.writeTrigram t
  | .writeUint32 x => b.writeUint32 x
  | .writeUvarint x => b.writeUvarint x
  | .flush => b.flush
  | .copyFile src => b.copyFile src

/-- A sequence of calls (codesearch/index/write.go:491-615). -/
def run (b : BufWriter) : List Call → BufWriter
  | [] => b
  | c :: cs => run (b.call c) cs

end BufWriter
end Hound
