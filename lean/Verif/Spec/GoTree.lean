import Verif.Model.GoCompile
import Verif.Spec.EndToEnd

/-!
# Specification: the trees Go's parser makes
-/

namespace Hound.Spec
open GoRe

mutual
/-- Every repetition `x{n,m}` of the tree has `n ≤ m`. -/
def Bounded : Syn → Prop
  | .capture _ _ r => Bounded r
  | .star _ r => Bounded r
  | .plus _ r => Bounded r
  | .quest _ r => Bounded r
  | .rep _ r lo hi => Bounded r ∧ ∀ h, hi = some h → lo ≤ h
  | .concat rs => BoundedL rs
  | .alternate rs => BoundedL rs
  | _ => True
/-- The same of every tree of a list. -/
def BoundedL : List Syn → Prop
  | [] => True
  | r :: rs => Bounded r ∧ BoundedL rs
end

mutual
/-- The characters and classes of the tree are among those `toByteProg` compiles correctly (C17). -/
def RunesOK (orbit : Rune → List Rune) : Syn → Prop
  | .literal rs fold => ∀ r ∈ rs, RuneOK orbit (.rune [r] fold 0)
  | .charClass ranges => (∀ p ∈ ranges, p.1 ≤ p.2 ∧ p.2 ≤ 0x10FFFF ∧ ClearRange p.1 p.2) ∧
      ∀ a c : Rune, ranges = [(a, a), (c, c)] → c = (orbit a).headD a → a = (orbit c).headD c → a < 0x80 ∧ a < c
  | .capture _ _ r => RunesOK orbit r
  | .star _ r => RunesOK orbit r
  | .plus _ r => RunesOK orbit r
  | .quest _ r => RunesOK orbit r
  | .rep _ r _ _ => RunesOK orbit r
  | .concat rs => RunesOKL orbit rs
  | .alternate rs => RunesOKL orbit rs
  | _ => True
/-- The same of every tree of a list. -/
def RunesOKL (orbit : Rune → List Rune) : List Syn → Prop
  | [] => True
  | r :: rs => RunesOK orbit r ∧ RunesOKL orbit rs
end

mutual
/-- Every character the tree can match is a code point that can be encoded: there is no `.`, and no class with surrogates. -/
def NoSurrogates (orbit : Rune → List Rune) : Syn → Prop
  | .literal rs fold => ∀ r ∈ rs, ∀ x, FoldsTo orbit fold r x → validRune x = true
  | .charClass ranges => ∀ p ∈ ranges, ∀ x : Rune, p.1 ≤ x → x ≤ p.2 → validRune x = true
  | .anyChar => False
  | .anyCharNotNL => False
  | .capture _ _ r => NoSurrogates orbit r
  | .star _ r => NoSurrogates orbit r
  | .plus _ r => NoSurrogates orbit r
  | .quest _ r => NoSurrogates orbit r
  | .rep _ r _ _ => NoSurrogates orbit r
  | .concat rs => NoSurrogatesL orbit rs
  | .alternate rs => NoSurrogatesL orbit rs
  | _ => True
/-- The same of every tree of a list. -/
def NoSurrogatesL (orbit : Rune → List Rune) : List Syn → Prop
  | [] => True
  | r :: rs => NoSurrogates orbit r ∧ NoSurrogatesL orbit rs
end

mutual
/-- The tree has no `\A` (or `^` without the flag `m`). -/
def NoBeginTextTree : Syn → Prop
  | .beginText => False
  | .capture _ _ r => NoBeginTextTree r
  | .star _ r => NoBeginTextTree r
  | .plus _ r => NoBeginTextTree r
  | .quest _ r => NoBeginTextTree r
  | .rep _ r _ _ => NoBeginTextTree r
  | .concat rs => NoBeginTextTreeL rs
  | .alternate rs => NoBeginTextTreeL rs
  | _ => True
/-- The same of every tree of a list. -/
def NoBeginTextTreeL : List Syn → Prop
  | [] => True
  | r :: rs => NoBeginTextTree r ∧ NoBeginTextTreeL rs
end

/-- codesearch/regexp/regexp.go:33-54 `Compile` after parsing to the tree `s`: `c` is what `Search` uses of the result. The
programs have fewer than 2^32 instructions. -/
structure CompiledTree (grow : Nat → Nat → Nat) (orbit : Rune → List Rune) (s : Syn) (c : Compiled Query) : Prop where
  matcher : ∃ p q, compileProg orbit (simplify s) = some p ∧ p.inst.length < 2 ^ 32 ∧ toByteProg orbit p = some q ∧
    q.inst.length < 2 ^ 32 ∧ MatcherOf q c.mt
  query : c.query = (HInfo.regexpQuery grow orbit s.re).1

end Hound.Spec
