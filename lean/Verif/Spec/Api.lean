import Verif.Model.Basic

/-!
# Specification of request parameters

Written without reference to the model of `api/api.go`.
-/

namespace Hound.Spec

/-- `s` is a decimal numeral of value `n` (leading zeros allowed). -/
def IsNumeral (s : Bytes) (n : Nat) : Prop :=
  s ≠ [] ∧ (∀ c ∈ s, 48 ≤ c ∧ c ≤ 57) ∧ n = s.foldl (fun a c => a * 10 + (c.toNat - 48)) 0

/-- `s` is a signed decimal numeral of value `n`. -/
def IsSigned (s : Bytes) (n : Int) : Prop :=
  ∃ d m, IsNumeral d m ∧ ((s = d ∧ n = m) ∨ (s = 43 :: d ∧ n = m) ∨ (s = 45 :: d ∧ n = -(m : Int)))

/-- Items joined by commas. -/
def joinComma : List Bytes → Bytes
  | [] => []
  | [x] => x
  | x :: y :: r => x ++ 44 :: joinComma (y :: r)

/-- A sequence of white space characters (`ws` lists their encodings). -/
inductive AllSpace (ws : List Bytes) : Bytes → Prop
  | nil : AllSpace ws []
  | cons {w s : Bytes} : w ∈ ws → AllSpace ws s → AllSpace ws (w ++ s)

/-- `s` is the word `w`, in which capital letters may stand for small ones. -/
def IsWord : Bytes → Bytes → Prop
  | [], [] => True
  | c :: s, d :: w => (c = d ∨ (65 ≤ c.toNat ∧ c.toNat ≤ 90 ∧ d.toNat = c.toNat + 32)) ∧ IsWord s w
  | _, _ => False

/-- The parameter says yes: `true`, `1` or `fosho`. -/
def IsYes (s : Bytes) : Prop := IsWord s b!"true" ∨ IsWord s b!"1" ∨ IsWord s b!"fosho"

end Hound.Spec
