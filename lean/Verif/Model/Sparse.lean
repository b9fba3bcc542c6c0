import Verif.Model.Basic

/-!
# `codesearch/sparse/set.go`

`uint32` values are natural numbers, reduced modulo 2^32 where Go converts.  `none` is a run-time
panic (index out of range).
-/

namespace Hound

/-- codesearch/sparse/set.go:14-17 `Set`. -/
structure SSet where
  dense : List Nat
  sparse : List Nat

namespace SSet

/-- codesearch/sparse/set.go:21-25 `NewSet`. (Go zeroes the array.) -/
def new (max : Nat) : SSet := ⟨[], List.replicate max 0⟩

/-- codesearch/sparse/set.go:29-31 `Init`: the `dense` part is left as it is. -/
def init (s : SSet) (max : Nat) : SSet := { s with sparse := List.replicate max 0 }

/-- codesearch/sparse/set.go:34-36 `Reset`: `sparse` keeps its old content. -/
def reset (s : SSet) : SSet := { s with dense := [] }

/-- codesearch/sparse/set.go:50-53 `Has`. -/
def has (s : SSet) (x : Nat) : Option Bool :=
  match s.sparse[x]? with
  | none => none
  | some v => some (decide (v < s.dense.length % 2 ^ 32) && s.dense[v]? == some x)

/-- codesearch/sparse/set.go:39-47 `Add`. -/
def add (s : SSet) (x : Nat) : Option SSet :=
  match s.sparse[x]? with
  | none => none
  | some v =>
    if v < s.dense.length % 2 ^ 32 ∧ s.dense[v]? = some x then some s
    else some ⟨s.dense ++ [x], s.sparse.set x (s.dense.length % 2 ^ 32)⟩

/-- codesearch/sparse/set.go:63-65 `Len`. -/
def len (s : SSet) : Nat := s.dense.length

/-- `Add` for each value of a list. (for codesearch/sparse/set.go:14-65) -/
def addAll (s : SSet) : List Nat → Option SSet
  | [] => some s
  | x :: xs =>
    match s.add x with
    | none => none
    | some s' => addAll s' xs

/-- A call of the API. (for codesearch/sparse/set.go:14-65) -/
inductive Call where
  | init (max : Nat)
  | reset
  | add (x : Nat)

/-- What a call does (codesearch/sparse/set.go:21-65). -/
def call (s : SSet) : Call → Option SSet
  | .init max => some (s.init max)
  | .reset => some s.reset
  | .add x => s.add x

/-- A sequence of calls. (for codesearch/sparse/set.go:14-65) -/
def run (s : SSet) : List Call → Option SSet
  | [] => some s
  | c :: cs =>
    match s.call c with
    | none => none
    | some s' => run s' cs

end SSet
end Hound
