import Verif.Spec.Automaton

/-!
# Specification: the paths of a program of rune instructions through one line

`regexp/syntax` compiles patterns to programs whose instructions read whole code points.  This is their meaning
on UTF-8 text, independent of how `toByteProg` rewrites them.
-/

namespace Hound.Spec
open Hound

/-- The range pairs of a rune list. -/
def rangePairs : List Rune → List (Rune × Rune)
  | a :: b :: rs => (a, b) :: rangePairs rs
  | _ => []

/-- The runes a rune instruction accepts (documentation of `syntax.Inst`: one rune, possibly folded, or pairs of
range bounds). -/
def InstHas (orbit : Rune → List Rune) : Inst → Rune → Prop
  | .rune [x] fold _, r => FoldsTo orbit fold x r
  | .rune rs _ _, r => ∃ p ∈ rangePairs rs, p.1 ≤ r ∧ r ≤ p.2
  | .rune1 x _, r => r = x
  | .runeAny _, _ => True
  | .runeAnyNotNL _, r => r ≠ 10
  | _, _ => False

/-- Where a rune instruction continues. -/
def runeOut : Inst → Option Nat
  | .rune _ _ out | .rune1 _ out | .runeAny out | .runeAnyNotNL out => some out
  | _ => none

/-- One step of a program that may contain rune instructions.  `At r i j`: the rune `r` stands between positions
`i` and `j` of the line. -/
inductive RStep (orbit : Rune → List Rune) (At : Rune → Nat → Nat → Prop) (p : Prog) (l : Bytes) (bot eot : Bool) :
    Nat × Nat → Nat × Nat → Prop
  | plain {a b} (h : PStep p l bot eot a b) : RStep orbit At p l bot eot a b
  | rune {pos pc i out r pos'} (h : p.inst[pc]? = some i) (ho : runeOut i = some out) (hr : InstHas orbit i r)
      (hat : At r pos pos') : RStep orbit At p l bot eot (pos, pc) (pos', out)

/-- Zero or more steps. -/
inductive RPath (orbit : Rune → List Rune) (At : Rune → Nat → Nat → Prop) (p : Prog) (l : Bytes) (bot eot : Bool) :
    Nat × Nat → Nat × Nat → Prop
  | refl (a) : RPath orbit At p l bot eot a a
  | tail {a b c} (h : RPath orbit At p l bot eot a b) (s : RStep orbit At p l bot eot b c) :
      RPath orbit At p l bot eot a c

/-- The program of rune instructions matches somewhere inside the line (valid code points only). -/
def RuneAccepts (orbit : Rune → List Rune) (p : Prog) (bot eot : Bool) (l : Bytes) : Prop :=
  ∃ i j pc, i ≤ l.length ∧ RPath orbit (RuneAt l) p l bot eot (i, p.start) (j, pc) ∧ p.inst[pc]? = some .accept

/-- The line contains no encoded surrogate (`ED A0 80` – `ED BF BF`), which valid UTF-8 never does. -/
def NoSurrogate (l : Bytes) : Prop :=
  ∀ r : Nat, 0xD800 ≤ r → r < 0xE000 → ∀ i, ¬ encodeRaw r <+: l.drop i

/-- The part of Unicode's simple case folding that concerns ASCII: besides its case variant, `K` folds to U+212A
(KELVIN SIGN) and `S` to U+017F (LONG S). -/
def AsciiFolds (orbit : Rune → List Rune) : Prop :=
  (∀ r : Nat, r < 0x80 → orbit r =
    if r = 75 then [107, 0x212A] else if r = 107 then [0x212A, 75]
    else if r = 83 then [115, 0x17F] else if r = 115 then [0x17F, 83]
    else if 65 ≤ r ∧ r ≤ 90 then [r + 32] else if 97 ≤ r ∧ r ≤ 122 then [r - 32] else []) ∧
  orbit 0x212A = [75, 107] ∧ orbit 0x17F = [83, 115]

/-- The range of code points does not begin or end in the surrogate block, and where it contains the block, it
contains U+D000 to U+EFFF. -/
def ClearRange (lo hi : Nat) : Prop := hi < 0xD800 ∨ 0xE000 ≤ lo ∨ (lo ≤ 0xD000 ∧ 0xEFFF ≤ hi)

/-- The rune instructions `toByteProg` compiles correctly.
* single runes are valid code points;
* a folded rune is the smallest of its orbit (as `regexp/syntax` produces it), at most U+1044F unless the orbit is
  trivial;
* ranges are ordered, `ClearRange`, and not of the form `[AA aa]` with two case variants outside ASCII. -/
def RuneOK (orbit : Rune → List Rune) : Inst → Prop
  | .rune [x] false _ => validRune x = true
  | .rune [x] true _ => validRune x = true ∧ (∀ y ∈ orbit x, validRune y = true) ∧ ¬ (97 ≤ x ∧ x ≤ 122) ∧
      (x ≤ 0x1044f ∨ orbit x = [])
  | .rune rs fold _ => fold = false ∧
      (∀ p ∈ rangePairs rs, p.1 ≤ p.2 ∧ p.2 ≤ 0x10FFFF ∧ ClearRange p.1 p.2) ∧
      (∀ a c : Rune, rs = [a, a, c, c] → c = (orbit a).headD a → a = (orbit c).headD c → a < 0x80 ∧ a < c)
  | .rune1 x _ => validRune x = true
  | _ => True

end Hound.Spec
