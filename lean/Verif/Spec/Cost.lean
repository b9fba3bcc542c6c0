import Verif.Spec.GoTree

/-!
# Specification: what a pattern costs
-/

namespace Hound.Spec
open Hound GoRe

/-- The matcher keeps at least `n` states. It never gives one up (codesearch/regexp/match.go:266-278). -/
def KeepsStates (M : Matcher) (n : Nat) : Prop :=
  ∃ l : List Bytes, l.Nodup ∧ l.length = n ∧ ∀ k ∈ l, (M.dstate k).isSome = true

/-- The bytes that the calls of `match` were given. -/
def bytesGiven : List (Bytes × Bool × Bool) → Nat
  | [] => 0
  | (b, _, _) :: history => b.length + bytesGiven history

/-- The calls of `cache` for the start state of a new matcher come to an end when at most `n` of them are nested inside the first
(codesearch/regexp/match.go:128-145, 260-278). -/
def StackSuffices (q : Prog) (n : Nat) : Prop := (cacheKey q n (fun _ => none) (startState q).enc).isSome = true

/-- No instruction of the program reads a newline. -/
def NoNewline (q : Prog) : Prop := ∀ lo hi fold out, Inst.byteRange lo hi fold out ∈ q.inst → ¬ ByteIn lo hi fold NL

mutual
/-- Every character the tree can match is a code point that can be encoded, and not a newline: there is no `.`, and no class such as
`[^a]` or `\s`. -/
def OneLine (orbit : Rune → List Rune) : Syn → Prop
  | .literal rs fold => ∀ r ∈ rs, ∀ x, FoldsTo orbit fold r x → validRune x = true ∧ x ≠ 10
  | .charClass ranges => ∀ p ∈ ranges, ∀ x : Rune, p.1 ≤ x → x ≤ p.2 → validRune x = true ∧ x ≠ 10
  | .anyChar => False
  | .anyCharNotNL => False
  | .capture _ _ r => OneLine orbit r
  | .star _ r => OneLine orbit r
  | .plus _ r => OneLine orbit r
  | .quest _ r => OneLine orbit r
  | .rep _ r _ _ => OneLine orbit r
  | .concat rs => OneLineL orbit rs
  | .alternate rs => OneLineL orbit rs
  | _ => True
/-- The same of every tree of a list. -/
def OneLineL (orbit : Rune → List Rune) : List Syn → Prop
  | [] => True
  | r :: rs => OneLine orbit r ∧ OneLineL orbit rs
end

end Hound.Spec
