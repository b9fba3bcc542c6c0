import Verif.Model.Basic

/-!
# Specification of coloured terminal output

A colour code is ESC `[`, digits and semicolons, `m`; with the single parameter `0` it switches
all attributes off.
-/

namespace Hound.Spec

/-- The parameters of a colour code. -/
def IsParams (ps : Bytes) : Prop := ∀ p ∈ ps, (48 ≤ p ∧ p ≤ 57) ∨ p = 59

/-- `out` is `text` with colour codes inserted. -/
inductive Coloured : Bytes → Bytes → Prop
  | nil : Coloured [] []
  | char {out text : Bytes} (c : UInt8) : Coloured out text → Coloured (c :: out) (c :: text)
  | code {out text : Bytes} (ps : Bytes) : IsParams ps → Coloured out text →
      Coloured (27 :: 91 :: (ps ++ 109 :: out)) text

/-- What a terminal shows: characters, each with the attribute "highlighted" in force. -/
inductive Shows : Bool → Bytes → List (UInt8 × Bool) → Prop
  | nil (hi : Bool) : Shows hi [] []
  | char {hi : Bool} {out : Bytes} {scr : List (UInt8 × Bool)} (c : UInt8) :
      Shows hi out scr → Shows hi (c :: out) ((c, hi) :: scr)
  | on {hi : Bool} {out : Bytes} {scr : List (UInt8 × Bool)} (ps : Bytes) :
      IsParams ps → ps ≠ [] → ps ≠ [48] → Shows true out scr →
      Shows hi (27 :: 91 :: (ps ++ 109 :: out)) scr
  | off {hi : Bool} {out : Bytes} {scr : List (UInt8 × Bool)} :
      Shows false out scr → Shows hi (27 :: 91 :: 48 :: 109 :: out) scr

/-- Positions of successive matches in a line of the given length, from `beg` on: in order, not
overlapping, inside the line. -/
def SpansFrom (len : Nat) : Nat → List (Nat × Nat) → Prop
  | beg, [] => beg ≤ len
  | beg, (i, j) :: r => beg ≤ i ∧ i ≤ j ∧ SpansFrom len j r

end Hound.Spec

namespace Hound.Spec

/-- A line with the characters at the positions of the matches highlighted, and no others. -/
def highlighted (idxs : List (Nat × Nat)) (line : Bytes) : List (UInt8 × Bool) :=
  line.zipIdx.map fun p => (p.1, idxs.any fun q => decide (q.1 ≤ p.2 ∧ p.2 < q.2))

/-- Two lists of the same length, related element by element. -/
inductive Each {α β : Type} (R : α → β → Prop) : List α → List β → Prop
  | nil : Each R [] []
  | cons {a : α} {b : β} {l : List α} {m : List β} : R a b → Each R l m → Each R (a :: l) (b :: m)

/-- A row of the plain output: number, `:` for a matched line and `-` for context, blanks up to
column 7, text. -/
def plainRow (num : Bytes) (hasMatch : Bool) (line : Bytes) : Bytes :=
  num ++ [if hasMatch then 58 else 45] ++ List.replicate (6 - num.length) 32 ++ line ++ [10]

end Hound.Spec
