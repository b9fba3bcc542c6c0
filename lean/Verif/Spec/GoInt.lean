import Verif.Model.Basic
/-!
# Specification: integers as Go writes them

Written without reference to the model.
-/

namespace Hound
namespace GoInt

/-- The value of a digit; 36 for what is no digit. -/
def worth (c : UInt8) : Nat :=
  if 48 ≤ c ∧ c ≤ 57 then c.toNat - 48
  else if 97 ≤ c ∧ c ≤ 122 then c.toNat - 87
  else if 65 ≤ c ∧ c ≤ 90 then c.toNat - 55
  else 36

/-- The prefixes and the bases they tell. -/
def Prefix (pre : Bytes) (base : Nat) : Prop :=
  (pre = [] ∧ base = 10) ∨ (pre = b!"0" ∧ base = 8) ∨ ((pre = b!"0b" ∨ pre = b!"0B") ∧ base = 2) ∨
  ((pre = b!"0o" ∨ pre = b!"0O") ∧ base = 8) ∨ ((pre = b!"0x" ∨ pre = b!"0X") ∧ base = 16)

/-- `s` is a natural number of value `n`: a prefix and digits, between which there may be single underscores (also behind the prefix, but
not at the end). Without prefix the first digit is not 0, and only behind `0` there may be no digits. -/
def IsNat (s : Bytes) (n : Nat) : Prop :=
  ∃ pre base ds, s = pre ++ ds ∧ Prefix pre base ∧ (pre = b!"0" ∨ ds ≠ []) ∧ (pre = [] → ds.head? ≠ some 48 ∧ ds.head? ≠ some 95) ∧
    (∀ c ∈ ds, c = 95 ∨ worth c < base) ∧ (∀ a b, ds ≠ a ++ 95 :: 95 :: b) ∧ ds.getLast? ≠ some 95 ∧
    n = (ds.filter fun c => c ≠ 95).foldl (fun a c => a * base + worth c) 0

/-- `s` is an integer of value `i` that fits into 64 bits, with a sign or without. -/
def IsInt (s : Bytes) (i : Int) : Prop :=
  ∃ d n, IsNat d n ∧ ((s = d ∧ i = n) ∨ (s = 43 :: d ∧ i = n) ∨ (s = 45 :: d ∧ i = -(n : Int))) ∧ -(2 ^ 63) ≤ i ∧ i < 2 ^ 63

end GoInt
end Hound
