import Verif.Model.Utf8
import Verif.Model.FillFrom

/-!
# The text check (index/index.go:259-308)

`utf8.DecodeRune`, `utf8.Valid` and `utf8.RuneStart` are standard library functions; they are written
out here from their source (tables `first` and `acceptRanges`).
-/

namespace Hound

/-- The second byte accepted after first byte `b0` (`acceptRanges`, unicode/utf8/utf8.go).
(`utf8.Valid`, called at index/index.go:276, 293-307) -/
def acceptRange (b0 : Nat) : Nat × Nat :=
  if b0 = 0xE0 then (0xA0, 0xBF)
  else if b0 = 0xED then (0x80, 0x9F)
  else if b0 = 0xF0 then (0x90, 0xBF)
  else if b0 = 0xF4 then (0x80, 0x8F)
  else (0x80, 0xBF)

/-- A continuation byte (`locb`, `hicb`). (`utf8.Valid`, called at index/index.go:276, 293-307) -/
def isCont (b : UInt8) : Bool := 0x80 ≤ b.toNat && b.toNat ≤ 0xBF

/-- `accept.lo <= b && b <= accept.hi`. (`utf8.Valid`, called at index/index.go:276, 293-307) -/
def accepted (b0 b : UInt8) : Bool :=
  (acceptRange b0.toNat).1 ≤ b.toNat && b.toNat ≤ (acceptRange b0.toNat).2

/-- Go `utf8.DecodeRune`: the first rune and its size in bytes; (U+FFFD, 1) for an invalid or cut off
encoding, (U+FFFD, 0) for no bytes. (standard library; used at index/index.go:297) -/
def decodeRune : Bytes → Rune × Nat
  | [] => (runeError, 0)
  | b0 :: t =>
    let x := b0.toNat
    if x < 0x80 then (x, 1)
    else if x < 0xC2 then (runeError, 1)
    else if x < 0xE0 then
      match t with
      | b1 :: _ => if accepted b0 b1 then ((x - 0xC0) * 64 + (b1.toNat - 0x80), 2) else (runeError, 1)
      | [] => (runeError, 1)
    else if x < 0xF0 then
      match t with
      | b1 :: b2 :: _ =>
        if accepted b0 b1 && isCont b2 then
          ((x - 0xE0) * 4096 + (b1.toNat - 0x80) * 64 + (b2.toNat - 0x80), 3)
        else (runeError, 1)
      | _ => (runeError, 1)
    else if x < 0xF5 then
      match t with
      | b1 :: b2 :: b3 :: _ =>
        if accepted b0 b1 && isCont b2 && isCont b3 then
          ((x - 0xF0) * 262144 + (b1.toNat - 0x80) * 4096 + (b2.toNat - 0x80) * 64 + (b3.toNat - 0x80), 4)
        else (runeError, 1)
      | _ => (runeError, 1)
    else (runeError, 1)

/-- Go `utf8.RuneStart`. (standard library; used at index/index.go:302) -/
def runeStart (b : UInt8) : Bool := b.toNat < 0x80 || 0xC0 ≤ b.toNat

/-- The loop shared by `utf8.Valid` and `validUTF8IgnoringPartialTrailingRune` (index/index.go:293-307): `atError`
is what is returned for the rest `p[i:]` that does not begin with a rune. Every round advances, so `fuel`
= the number of bytes is enough. -/
def validLoop (atError : Bytes → Bool) : Nat → Bytes → Bool
  | _, [] => true
  | 0, _ :: _ => false
  | fuel + 1, b :: t =>
    if b.toNat < 0x80 then validLoop atError fuel t
    else
      let size := (decodeRune (b :: t)).2
      if size = 1 then atError (b :: t)
      else validLoop atError fuel ((b :: t).drop size)

/-- Go `utf8.Valid`. (standard library; used at index/index.go:276; its fast path for ASCII is left out) -/
def utf8Valid (p : Bytes) : Bool := validLoop (fun _ => false) p.length p

/-- index/index.go:289-308 `validUTF8IgnoringPartialTrailingRune`. -/
def validUTF8IgnoringPartialTrailingRune (p : Bytes) : Bool :=
  validLoop (fun rest => match rest with
    | [] => false
    | b :: t => (b :: t).length < 4 && runeStart b) p.length p

/-- index/index.go:21 `filePeekSize`. -/
def filePeekSize : Nat := 2048

/-- index/index.go:259-282 `isTextFile`, for a file that can be opened; `none` is a read error. -/
def isTextFile (r : Reader) : Option Bool :=
  match readFull r.fails r.chunks filePeekSize with
  | (_, _, .err) => none
  | (buf, _, _) =>
    some (if buf.length < filePeekSize then utf8Valid buf
      else validUTF8IgnoringPartialTrailingRune buf)

end Hound
