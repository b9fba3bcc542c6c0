import Verif.Model.Basic
/-!
Go's `strconv.ParseInt(s, 0, 64)` (from the Go source as known, since the standard library is not in the sandbox), with which package
`flag` reads numbers: `cmds/hound/main.go:87, 92`.
-/

namespace Hound
namespace GoInt

/-- `lower`. (for cmds/hound/main.go:92) -/
def lower (c : UInt8) : UInt8 := c ||| 32

/-- The value of a digit; `none` for any other byte. (for cmds/hound/main.go:92) -/
def digit (c : UInt8) : Option Nat :=
  if 48 ≤ c ∧ c ≤ 57 then some (c.toNat - 48)
  else if 97 ≤ lower c ∧ lower c ≤ 122 then some ((lower c).toNat - 97 + 10)
  else none

/-- The loop of `ParseUint` over the digits; underscores are passed over. Simplification: a number that is too big is found to be so
behind the loop. (for cmds/hound/main.go:92) -/
def digits (base : Nat) : Nat → Bytes → Option Nat
  | acc, [] => some acc
  | acc, c :: r =>
    if c = 95 then digits base acc r
    else
      match digit c with
      | some d => if d ≥ base then none else digits base (acc * base + d) r
      | none => none

/-- The base, and what is behind the prefix that tells it. (for cmds/hound/main.go:92) -/
def baseOf : Bytes → Nat × Bytes
  | [] => (10, [])
  | z :: r =>
    if z ≠ 48 then (10, z :: r)
    else
      match r with
      | c :: d :: t =>
        if lower c = 98 then (2, d :: t)
        else if lower c = 111 then (8, d :: t)
        else if lower c = 120 then (16, d :: t)
        else (8, c :: d :: t)
      | _ => (8, r)

/-- What `underscoreOK` has seen last. (for cmds/hound/main.go:92) -/
inductive Seen where
  | start
  | digit
  | under
  | other
deriving DecidableEq

/-- The loop of `underscoreOK`. (for cmds/hound/main.go:92) -/
def underLoop (hex : Bool) : Seen → Bytes → Bool
  | i, [] => i ≠ .under
  | i, c :: r =>
    if (48 ≤ c ∧ c ≤ 57) ∨ (hex ∧ 97 ≤ lower c ∧ lower c ≤ 102) then underLoop hex .digit r
    else if c = 95 then (if i ≠ .digit then false else underLoop hex .under r)
    else if i = .under then false
    else underLoop hex .other r

/-- `underscoreOK` of a number without sign. (for cmds/hound/main.go:92) -/
def underscoreOK : Bytes → Bool
  | z :: c :: r =>
    if z = 48 ∧ (lower c = 98 ∨ lower c = 111 ∨ lower c = 120) then underLoop (lower c = 120) .digit r
    else underLoop false .start (z :: c :: r)
  | s => underLoop false .start s

/-- `strconv.ParseUint(s, 0, 64)`. (for cmds/hound/main.go:92) -/
def parseUint (s : Bytes) : Option Nat :=
  if s = [] then none
  else
    match digits (baseOf s).1 0 (baseOf s).2 with
    | none => none
    | some n => if n < 2 ^ 64 ∧ ((95 : UInt8) ∈ s → underscoreOK s = true) then some n else none

/-- `strconv.ParseInt(s, 0, 64)`. (for cmds/hound/main.go:92) -/
def parseInt : Bytes → Option Int
  | [] => none
  | c :: r =>
    match parseUint (if c = 43 ∨ c = 45 then r else c :: r) with
    | none => none
    | some n =>
      if c = 45 then (if n > 2 ^ 63 then none else some (-(n : Int)))
      else if n ≥ 2 ^ 63 then none else some (n : Int)

end GoInt
end Hound
