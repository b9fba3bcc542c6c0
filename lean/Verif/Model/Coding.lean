import Verif.Model.Basic

/-!
# Integer codings of the index file

`uint32`/`uint64` values are natural numbers; the operations are Go's bit operations on them.
`none` stands for `n <= 0` (Uvarint) or too few bytes.
-/

namespace Hound

/-- `byte(x)`. (for codesearch/index/write.go:585-597) -/
def byteOf (x : Nat) : UInt8 := UInt8.ofNat x

/-- codesearch/index/write.go:592-597 `writeUint32`: the bytes written. -/
def putUint32 (x : Nat) : Bytes := [byteOf (x >>> 24), byteOf (x >>> 16), byteOf (x >>> 8), byteOf x]

/-- codesearch/index/write.go:585-590 `writeTrigram`, and lines 338-340: the bytes written. -/
def putTrigram (t : Nat) : Bytes := [byteOf (t >>> 16), byteOf (t >>> 8), byteOf t]

/-- codesearch/index/write.go:599-615 `writeUvarint`: the bytes written. -/
def putUvarint (x : Nat) : Bytes :=
  if x < 1 <<< 7 then [byteOf x]
  else if x < 1 <<< 14 then [byteOf (x ||| 0x80), byteOf (x >>> 7)]
  else if x < 1 <<< 21 then [byteOf (x ||| 0x80), byteOf (x >>> 7 ||| 0x80), byteOf (x >>> 14)]
  else if x < 1 <<< 28 then
    [byteOf (x ||| 0x80), byteOf (x >>> 7 ||| 0x80), byteOf (x >>> 14 ||| 0x80), byteOf (x >>> 21)]
  else
    [byteOf (x ||| 0x80), byteOf (x >>> 7 ||| 0x80), byteOf (x >>> 14 ||| 0x80),
      byteOf (x >>> 21 ||| 0x80), byteOf (x >>> 28)]

/-- Go `binary.BigEndian.Uint32` (standard library; codesearch/index/read.go:128, 183, 215). -/
def getUint32 : Bytes → Option Nat
  | a :: b :: c :: d :: _ =>
    some (d.toNat ||| c.toNat <<< 8 ||| b.toNat <<< 16 ||| a.toNat <<< 24)
  | _ => none

/-- `uint32(d[0])<<16 | uint32(d[1])<<8 | uint32(d[2])` (codesearch/index/read.go:182, 204, 211, 356). -/
def getTrigram : Bytes → Option Nat
  | a :: b :: c :: _ => some (a.toNat <<< 16 ||| b.toNat <<< 8 ||| c.toNat)
  | _ => none

/-- The loop of Go's `binary.Uvarint`; `i` counts the bytes read.
(called at codesearch/index/read.go:137, 249 and codesearch/index/merge.go:279) -/
def uvarintLoop : Nat → Nat → Bytes → Option (Nat × Nat)
  | _, _, [] => none
  | i, x, b :: bs =>
    if i = 10 then none
    else if b < 0x80 then
      if i = 9 ∧ b > 1 then none
      else some ((x ||| b.toNat <<< (7 * i)) % 2 ^ 64, i + 1)
    else uvarintLoop (i + 1) ((x ||| (b.toNat &&& 0x7f) <<< (7 * i)) % 2 ^ 64) bs

/-- Go `binary.Uvarint` (standard library; codesearch/index/read.go:137, 249): value and length. -/
def uvarint (buf : Bytes) : Option (Nat × Nat) := uvarintLoop 0 0 buf

/-- codesearch/index/write.go:86-88 `makePostEntry`. -/
def makePostEntry (trigram fileid : Nat) : Nat := (trigram <<< 32) % 2 ^ 64 ||| fileid

/-- codesearch/index/write.go:78-80 `postEntry.trigram`. -/
def entryTrigram (p : Nat) : Nat := (p >>> 32) % 2 ^ 32

/-- codesearch/index/write.go:82-84 `postEntry.fileid`. -/
def entryFileid (p : Nat) : Nat := p % 2 ^ 32

end Hound
