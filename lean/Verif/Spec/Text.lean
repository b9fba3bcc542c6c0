import Verif.Model.Utf8

/-!
# Valid UTF-8, independent of any decoder
-/

namespace Hound.Spec

/-- A sequence of encodings of characters: code points up to U+10FFFF that are not surrogates. -/
def ValidUtf8 (w : Bytes) : Prop := ∃ rs : List Rune, (∀ r ∈ rs, validRune r = true) ∧ w = rs.flatMap encodeRaw

end Hound.Spec
