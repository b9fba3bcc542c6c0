import Verif.Spec.Terminal

/-!
# Specification: what a terminal makes of colour codes

The codes of ECMA-48 ("select graphic rendition") that hound uses: `ESC [ n ; n ; … m`.
-/

namespace Hound.Spec.Ansi
open Hound Hound.Spec

/-- How characters look: one of eight colours, normal or bright, for the character and for what is behind it (`none`: what the terminal
has). -/
structure Look where
  bold : Bool := false
  blink : Bool := false
  underline : Bool := false
  inverse : Bool := false
  front : Option (Nat × Bool) := none
  back : Option (Nat × Bool) := none
deriving DecidableEq, Repr

/-- What one number does. -/
def Look.select (l : Look) (n : Nat) : Look :=
  if n = 0 then {}
  else if n = 1 then { l with bold := true }
  else if n = 4 then { l with underline := true }
  else if n = 5 then { l with blink := true }
  else if n = 7 then { l with inverse := true }
  else if 30 ≤ n ∧ n ≤ 37 then { l with front := some (n - 30, false) }
  else if 40 ≤ n ∧ n ≤ 47 then { l with back := some (n - 40, false) }
  else if 90 ≤ n ∧ n ≤ 97 then { l with front := some (n - 90, true) }
  else if 100 ≤ n ∧ n ≤ 107 then { l with back := some (n - 100, true) }
  else l

/-- The numbers, separated by semicolons, `n` being what has been read of the first. -/
def numbers (n : Nat) : Bytes → List Nat
  | [] => [n]
  | c :: cs => if c = 59 then n :: numbers 0 cs else numbers (10 * n + (c.toNat - 48)) cs

/-- A terminal in which characters look like `l` is sent `out`: the characters it shows, and how characters look after that. -/
inductive Displays : Look → Bytes → List (UInt8 × Look) → Look → Prop
  | nil (l : Look) : Displays l [] [] l
  | char {l l' : Look} {out : Bytes} {shown : List (UInt8 × Look)} (c : UInt8) : c ≠ 27 → Displays l out shown l' →
      Displays l (c :: out) ((c, l) :: shown) l'
  | code {l l' : Look} {out : Bytes} {shown : List (UInt8 × Look)} (ps : Bytes) : IsParams ps →
      Displays ((numbers 0 ps).foldl Look.select l) out shown l' → Displays l (27 :: 91 :: (ps ++ 109 :: out)) shown l'

end Hound.Spec.Ansi
