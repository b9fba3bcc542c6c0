import Verif.Model.Sparse

/-! # Specification of the sparse set: what a history of calls should leave in it -/

namespace Hound.Spec
open Hound

/-- The values of a list in order of first occurrence. -/
def firsts : List Nat → List Nat
  | [] => []
  | x :: xs => x :: (firsts xs).filter (· ≠ x)

/-- The values added since the last `Reset`; `acc` are those added so far. -/
def sinceReset : List Nat → List SSet.Call → List Nat
  | acc, [] => acc
  | _, .reset :: cs => sinceReset [] cs
  | acc, .init _ :: cs => sinceReset acc cs
  | acc, .add x :: cs => sinceReset (acc ++ [x]) cs

/-- Every value added is below the current maximum, and maxima fit in 32 bits. -/
def InRange : Nat → List SSet.Call → Prop
  | _, [] => True
  | m, .reset :: cs => InRange m cs
  | _, .init m' :: cs => m' < 2 ^ 32 ∧ InRange m' cs
  | m, .add x :: cs => x < m ∧ InRange m cs

/-- `Init` is only called when nothing was added since the last `Reset`. -/
def InitOnEmpty : List Nat → List SSet.Call → Prop
  | _, [] => True
  | _, .reset :: cs => InitOnEmpty [] cs
  | acc, .init _ :: cs => acc = [] ∧ InitOnEmpty acc cs
  | acc, .add x :: cs => InitOnEmpty (acc ++ [x]) cs

end Hound.Spec
