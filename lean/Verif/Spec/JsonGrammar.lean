import Verif.Model.JsonText
import Verif.Spec.Api

/-!
# Specification: JSON texts and the values they stand for

The grammar of RFC 8259, as far as it is needed: texts in UTF-8, numbers without fraction and exponent, and strings in which
every surrogate has its partner.
-/

namespace Hound.Spec.Rfc
open JsonText (Value)

/-- Blanks, tabs and line ends. -/
def Blank (w : Bytes) : Prop := ∀ c ∈ w, c = 32 ∨ c = 9 ∨ c = 10 ∨ c = 13

/-- A hexadecimal digit and its value. -/
def Hex (c : UInt8) (n : Nat) : Prop :=
  (48 ≤ c.toNat ∧ c.toNat ≤ 57 ∧ n = c.toNat - 48) ∨ (97 ≤ c.toNat ∧ c.toNat ≤ 102 ∧ n = c.toNat - 97 + 10) ∨
  (65 ≤ c.toNat ∧ c.toNat ≤ 70 ∧ n = c.toNat - 65 + 10)

/-- Four hexadecimal digits. -/
def FourHex (h : Bytes) (n : Nat) : Prop :=
  ∃ a b c d w x y z, h = [a, b, c, d] ∧ Hex a w ∧ Hex b x ∧ Hex c y ∧ Hex d z ∧ n = ((w * 16 + x) * 16 + y) * 16 + z

/-- The letters behind a backslash and what they stand for. -/
def shortForms : List (UInt8 × Rune) := [(34, 34), (92, 92), (47, 47), (98, 8), (102, 12), (110, 10), (114, 13), (116, 9)]

/-- What stands between quotation marks, and the characters it stands for. -/
inductive Chars : Bytes → List Rune → Prop where
  | nil : Chars [] []
  | plain (r : Rune) (t : Bytes) (rs : List Rune) : validRune r = true → 32 ≤ r → r ≠ 34 → r ≠ 92 → Chars t rs →
      Chars (encodeRaw r ++ t) (r :: rs)
  | short (c : UInt8) (r : Rune) (t : Bytes) (rs : List Rune) : (c, r) ∈ shortForms → Chars t rs → Chars (92 :: c :: t) (r :: rs)
  | code (h : Bytes) (r : Rune) (t : Bytes) (rs : List Rune) : FourHex h r → validRune r = true → Chars t rs →
      Chars (92 :: 117 :: (h ++ t)) (r :: rs)
  | pair (h h' : Bytes) (a b : Nat) (t : Bytes) (rs : List Rune) : FourHex h a → FourHex h' b →
      0xD800 ≤ a → a < 0xDC00 → 0xDC00 ≤ b → b < 0xE000 → Chars t rs →
      Chars (92 :: 117 :: (h ++ 92 :: 117 :: (h' ++ t))) ((0x10000 + (a - 0xD800) * 0x400 + (b - 0xDC00)) :: rs)

/-- A string and its content. -/
def Quoted (s content : Bytes) : Prop := ∃ b rs, s = 34 :: (b ++ [34]) ∧ Chars b rs ∧ content = rs.flatMap encodeRaw

/-- A natural number without leading zeros. -/
def Natural (s : Bytes) (n : Nat) : Prop := IsNumeral s n ∧ (s.head? = some 48 → s = [48])

mutual
/-- A text and its value. -/
inductive Doc : Bytes → Value Bytes → Prop where
  | null : Doc b!"null" .null
  | true : Doc b!"true" (.bool true)
  | false : Doc b!"false" (.bool false)
  | num (s : Bytes) (n : Nat) : Natural s n → Doc s (.num n)
  | neg (s : Bytes) (n : Nat) : Natural s n → Doc (45 :: s) (.num (-n))
  | str (s x : Bytes) : Quoted s x → Doc s (.str x)
  | arr0 (w : Bytes) : Blank w → Doc (91 :: (w ++ [93])) (.arr [])
  | arr (s : Bytes) (xs : List (Value Bytes)) : Elems s xs → Doc (91 :: (s ++ [93])) (.arr xs)
  | obj0 (w : Bytes) : Blank w → Doc (123 :: (w ++ [125])) (.obj [])
  | obj (s : Bytes) (ms : List (Bytes × Value Bytes)) : Members s ms → Doc (123 :: (s ++ [125])) (.obj ms)
/-- The elements of a list. -/
inductive Elems : Bytes → List (Value Bytes) → Prop where
  | one (a s b : Bytes) (v : Value Bytes) : Blank a → Doc s v → Blank b → Elems (a ++ (s ++ b)) [v]
  | more (a s b t : Bytes) (v : Value Bytes) (vs : List (Value Bytes)) : Blank a → Doc s v → Blank b → Elems t vs →
      Elems (a ++ (s ++ (b ++ 44 :: t))) (v :: vs)
/-- The members of an object. -/
inductive Members : Bytes → List (Bytes × Value Bytes) → Prop where
  | one (a k b c s d key : Bytes) (v : Value Bytes) : Blank a → Quoted k key → Blank b → Blank c → Doc s v → Blank d →
      Members (a ++ (k ++ (b ++ 58 :: (c ++ (s ++ d))))) [(key, v)]
  | more (a k b c s d t key : Bytes) (v : Value Bytes) (ms : List (Bytes × Value Bytes)) : Blank a → Quoted k key → Blank b →
      Blank c → Doc s v → Blank d → Members t ms →
      Members (a ++ (k ++ (b ++ 58 :: (c ++ (s ++ (d ++ 44 :: t)))))) ((key, v) :: ms)
end

/-- A text with blanks before and behind it. -/
def IsJson (text : Bytes) (v : Value Bytes) : Prop := ∃ a s b, text = a ++ (s ++ b) ∧ Blank a ∧ Doc s v ∧ Blank b

end Hound.Spec.Rfc
