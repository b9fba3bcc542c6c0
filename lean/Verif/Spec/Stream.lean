import Verif.Spec.Lines
import Verif.Spec.Api

/-!
# Specification: searching a stream line by line
-/

namespace Hound.Spec

/-- The lines of a text, each with the newline that ends it. -/
def fullLines : List UInt8 → List (List UInt8)
  | [] => []
  | c :: cs =>
    if c = 10 then [10] :: fullLines cs
    else match fullLines cs with
      | [] => [[c]]
      | l :: ls => (c :: l) :: ls

/-- A line without the newline that ends it. -/
def lineBody (l : List UInt8) : List UInt8 := if l.getLast? = some 10 then l.dropLast else l

/-- The accepted lines with their numbers. `first` holds for the first line of the text only; a line without a newline
ends the text. -/
def report (acc : LineAcc) : Bool → Nat → List (List UInt8) → List (Nat × List UInt8)
  | _, _, [] => []
  | first, n, l :: ls =>
    (if acc first (l.getLast? ≠ some 10) (lineBody l) then [(n, l)] else []) ++ report acc false (n + 1) ls

/-- What a matcher must return that is told whether the buffer begins and whether it ends the text. -/
def IsStreamMatcher (mt : List UInt8 → Bool → Bool → Option Nat) (acc : LineAcc) : Prop :=
  ∀ buf bt et, buf ≠ [] → mt buf bt et = firstEnd (fun f l p => acc (f && bt) (l && et) p) true (pieces buf) 0

/-- Hand over numbered lines one after the other until told to stop; whether it went to the end. -/
def handOver {σ : Type} (fn : σ → Nat → List UInt8 → σ × Bool) : List (Nat × List UInt8) → σ → σ × Bool
  | [], st => (st, true)
  | x :: xs, st => if (fn st x.1 x.2).2 then handOver fn xs (fn st x.1 x.2).1 else ((fn st x.1 x.2).1, false)

/-- The pattern accepts no empty line. -/
def NoEmptyLine (acc : LineAcc) : Prop := ∀ f l, acc f l [] = false

/-- What is to be printed for a file with the given matching lines: with `l` the name of the file, with `c` the name and
how many there are, otherwise the lines, after the name unless `h` and after the number if `n`. -/
def printed (l c n h : Bool) (name : List UInt8) (num : Nat → List UInt8) (found : List (Nat × List UInt8)) : List UInt8 :=
  if l then if found = [] then [] else name ++ [10]
  else if c then if found = [] then [] else name ++ [58, 32] ++ num found.length ++ [10]
  else (found.map fun x => (if h then [] else name ++ [58]) ++ (if n then num x.1 ++ [58] else []) ++ x.2).flatten

end Hound.Spec
