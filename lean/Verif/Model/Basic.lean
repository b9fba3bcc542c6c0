/-!
# Bytes and the few Go standard-library byte functions the code uses

A Go `string` or `[]byte` is a `List UInt8`.
-/

namespace Hound

/-- A Go `[]byte` or `string`, as a value. (for every string of the program, for example `g.buf`, index/grep.go:14-16) -/
abbrev Bytes := List UInt8

/-- `'\n'`. (index/grep.go:12) -/
abbrev NL : UInt8 := 10

/-- `b!"text"` is the list of the UTF-8 bytes of a string literal (used in examples only). -/
macro:max "b!" s:str : term => do
  let bytes := s.getString.toUTF8.toList
  let elems ← bytes.mapM fun b => `(($(Lean.quote b.toNat) : UInt8))
  `(([$(elems.toArray),*] : List UInt8))

/-- Go `bytes.IndexByte(b, c)`: position of the first occurrence, `none` for -1.
(standard library; used at index/grep.go:21, 116) -/
def indexByte : Bytes → UInt8 → Option Nat
  | [], _ => none
  | b :: bs, c => if b = c then some 0 else (indexByte bs c).map (· + 1)

/-- Go `bytes.LastIndex(b, []byte{c})`: position of the last occurrence, `none` for -1.
(standard library; used at index/grep.go:94, 157) -/
def lastIndexByte : Bytes → UInt8 → Option Nat
  | [], _ => none
  | b :: bs, c =>
    match lastIndexByte bs c with
    | some i => some (i + 1)
    | none => if b = c then some 0 else none

/-- Go `bytes.TrimRight(b, "\n")`. (standard library; used at index/grep.go:174) -/
def trimRightNL (b : Bytes) : Bytes := (b.reverse.dropWhile (· = NL)).reverse

end Hound
