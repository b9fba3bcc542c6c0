import Verif.Model.Basic

/-!
# Runes and UTF-8, as used through Go's `unicode/utf8` and `string(rune)` (standard library)
-/

namespace Hound

/-- A Go `rune`. Runes reaching the modelled code come from `regexp/syntax` and are never negative.
(for codesearch/index/regexp.go:467, 516, 533) -/
abbrev Rune := Nat

/-- `utf8.RuneError`, U+FFFD. (for codesearch/index/regexp.go:467, 516, 533) -/
def runeError : Rune := 0xFFFD

/-- UTF-8 encoding of a rune without the validity check. (for codesearch/index/regexp.go:467, 516, 533) -/
def encodeRaw (r : Rune) : Bytes :=
  if r < 0x80 then [UInt8.ofNat r]
  else if r < 0x800 then [UInt8.ofNat (0xC0 + r / 64), UInt8.ofNat (0x80 + r % 64)]
  else if r < 0x10000 then
    [UInt8.ofNat (0xE0 + r / 4096), UInt8.ofNat (0x80 + r / 64 % 64), UInt8.ofNat (0x80 + r % 64)]
  else
    [UInt8.ofNat (0xF0 + r / 262144), UInt8.ofNat (0x80 + r / 4096 % 64),
     UInt8.ofNat (0x80 + r / 64 % 64), UInt8.ofNat (0x80 + r % 64)]

/-- `utf8.ValidRune`. (for codesearch/index/regexp.go:467, 516, 533) -/
def validRune (r : Rune) : Bool := r < 0xD800 || (0xE000 ≤ r && r ≤ 0x10FFFF)

/-- Go's `string(rune)` / `utf8.EncodeRune`: invalid runes are replaced by U+FFFD.
(for codesearch/index/regexp.go:467, 516, 533) -/
def encodeRune (r : Rune) : Bytes := if validRune r then encodeRaw r else encodeRaw runeError

/-- Go's `string([]rune)`. (for codesearch/index/regexp.go:467, 516, 533) -/
def encodeRunes (rs : List Rune) : Bytes := rs.flatMap encodeRune

end Hound
