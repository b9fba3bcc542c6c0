import Verif.Spec.Lines
import Verif.Spec.SetCalls

/-!
# Specification: which file contents are indexed, and what the index knows about them

Independent of the model of the index writer: only lists of bytes.
-/

namespace Hound.Spec

def isAscii (b : UInt8) : Bool := b < 0x80
/-- Continuation byte of a multi-byte UTF-8 sequence. -/
def isCont (b : UInt8) : Bool := 0x80 ≤ b && b < 0xc0
/-- First byte of a multi-byte sequence. -/
def isLead (b : UInt8) : Bool := 0xc0 ≤ b && b < 0xf8

/-- Byte `b` may follow byte `a` in UTF-8 text. -/
def pairOk (a b : UInt8) : Bool :=
  (isAscii a && (isAscii b || isLead b)) ||
  (isCont a && (isAscii b || isCont b || isLead b)) ||
  (isLead a && isCont b)

/-- Every byte may follow the one before it; the text starts as after an ASCII byte. -/
def looksUtf8 : UInt8 → List UInt8 → Bool
  | _, [] => true
  | a, b :: bs => pairOk a b && looksUtf8 b bs

/-- Value of a block of three bytes. -/
def triVal (a b c : UInt8) : Nat := a.toNat * 65536 + b.toNat * 256 + c.toNat

/-- The blocks of three consecutive bytes of a text, as numbers, in order. -/
def blocks3 : List UInt8 → List Nat
  | a :: b :: c :: rest => triVal a b c :: blocks3 (b :: c :: rest)
  | _ => []

/-- The different blocks of a text, in order of first occurrence. -/
def trigramsOf (w : List UInt8) : List Nat := firsts (blocks3 w)

/-- The lines that end with a newline. -/
def endedLines (w : List UInt8) : List (List UInt8) := (pieces w).dropLast

/-- The lines that end with a newline and have more than 2000 bytes, newline included. -/
def longEndedLines (w : List UInt8) : List (List UInt8) :=
  (endedLines w).filter (fun l => decide (2000 < l.length + 1))

end Hound.Spec
