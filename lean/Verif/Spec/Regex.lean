import Verif.Model.Syntax
import Verif.Model.Query

/-!
# Specification: what a regular expression matches, and what a trigram query accepts

Independent of the analysis in `codesearch/index/regexp.go`: the usual denotation of the syntax tree on
byte strings (RE2 semantics without greediness, which only influences *which* match is reported).
-/

namespace Hound.Spec
open Hound

/-- The bytes of `w` from position `i` up to position `j`. -/
def slice (w : Bytes) (i j : Nat) : Bytes := (w.drop i).take (j - i)

/-- `R` iterated `n` times. -/
def Iter (R : Nat → Nat → Prop) : Nat → Nat → Nat → Prop
  | 0, i, j => i = j
  | n + 1, i, j => ∃ k, R i k ∧ Iter R n k j

/-- An ASCII word character, `[0-9A-Za-z_]`. -/
def isWord (b : UInt8) : Bool :=
  (48 ≤ b && b ≤ 57) || (65 ≤ b && b ≤ 90) || b == 95 || (97 ≤ b && b ≤ 122)

/-- Is there a word boundary at position `i`? -/
def wordBoundaryAt (w : Bytes) (i : Nat) : Bool :=
  ((decide (0 < i) && (w[i - 1]?.map isWord).getD false)) !=
    ((w[i]?.map isWord).getD false)

/-- The single (valid) rune `r` is what stands in `w` between `i` and `j`. -/
def RuneAt (w : Bytes) (r : Rune) (i j : Nat) : Prop :=
  validRune r = true ∧ j = i + (encodeRaw r).length ∧ j ≤ w.length ∧ slice w i j = encodeRaw r

/-- Runes a case-folded `r` stands for. -/
def FoldsTo (orbit : Rune → List Rune) (foldCase : Bool) (r r' : Rune) : Prop :=
  r' = r ∨ (foldCase = true ∧ r' ∈ orbit r)

/-- The runes of a literal, one after the other. -/
def LitAt (orbit : Rune → List Rune) (fold : Bool) (w : Bytes) : List Rune → Nat → Nat → Prop
  | [], i, j => i = j
  | r :: rs, i, j => ∃ r' k, FoldsTo orbit fold r r' ∧ RuneAt w r' i k ∧ LitAt orbit fold w rs k j

mutual
/-- `re` matches the text `w` between positions `i` and `j`. -/
def MatchAt (orbit : Rune → List Rune) (w : Bytes) : Re → Nat → Nat → Prop
  | .noMatch, _, _ => False
  | .emptyMatch, i, j => i = j
  | .literal rs fold, i, j => LitAt orbit fold w rs i j
  | .charClass ranges, i, j => ∃ p ∈ ranges, ∃ r, p.1 ≤ r ∧ r ≤ p.2 ∧ RuneAt w r i j
  | .anyCharNotNL, i, j => ∃ r, r ≠ 10 ∧ RuneAt w r i j
  | .anyChar, i, j => ∃ r, RuneAt w r i j
  | .beginLine, i, j => i = j ∧ (i = 0 ∨ w[i - 1]? = some NL)
  | .endLine, i, j => i = j ∧ (i = w.length ∨ w[i]? = some NL)
  | .beginText, i, j => i = j ∧ i = 0
  | .endText, i, j => i = j ∧ i = w.length
  | .wordBoundary, i, j => i = j ∧ wordBoundaryAt w i = true
  | .noWordBoundary, i, j => i = j ∧ wordBoundaryAt w i = false
  | .capture r, i, j => MatchAt orbit w r i j
  | .star r, i, j => ∃ n, Iter (MatchAt orbit w r) n i j
  | .plus r, i, j => ∃ n, Iter (MatchAt orbit w r) (n + 1) i j
  | .quest r, i, j => i = j ∨ MatchAt orbit w r i j
  | .rep r lo hi, i, j =>
    ∃ n, lo ≤ n ∧ (∀ h, hi = some h → n ≤ h) ∧ Iter (MatchAt orbit w r) n i j
  | .concat rs, i, j => ConcatAt orbit w rs i j
  | .alternate rs, i, j => AlternateAt orbit w rs i j
/-- The expressions match one after the other. -/
def ConcatAt (orbit : Rune → List Rune) (w : Bytes) : List Re → Nat → Nat → Prop
  | [], i, j => i = j
  | r :: rs, i, j => ∃ k, MatchAt orbit w r i k ∧ ConcatAt orbit w rs k j
/-- One of the expressions matches. -/
def AlternateAt (orbit : Rune → List Rune) (w : Bytes) : List Re → Nat → Nat → Prop
  | [], _, _ => False
  | r :: rs, i, j => MatchAt orbit w r i j ∨ AlternateAt orbit w rs i j
end

/-- The text contains a match. -/
def Matches (orbit : Rune → List Rune) (re : Re) (w : Bytes) : Prop :=
  ∃ i j, i ≤ w.length ∧ MatchAt orbit w re i j

/-- `t` occurs in `w` as a block of three consecutive bytes. -/
def HasTrigram (w t : Bytes) : Prop := t.length = 3 ∧ ∃ a b, w = a ++ t ++ b

mutual
/-- A file with the trigrams `T` satisfies a query. -/
def Sat (T : Bytes → Prop) : Query → Prop
  | .mk .all _ _ => True
  | .mk .none _ _ => False
  | .mk .and tri sub => (∀ t ∈ tri, T t) ∧ SatAll T sub
  | .mk .or tri sub => (∃ t ∈ tri, T t) ∨ SatAny T sub
def SatAll (T : Bytes → Prop) : List Query → Prop
  | [] => True
  | q :: qs => Sat T q ∧ SatAll T qs
def SatAny (T : Bytes → Prop) : List Query → Prop
  | [] => False
  | q :: qs => Sat T q ∨ SatAny T qs
end

end Hound.Spec
