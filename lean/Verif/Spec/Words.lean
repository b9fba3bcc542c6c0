import Verif.Spec.LiteralPage
import Verif.Spec.Unicode

/-!
# Specification: a search for one of several words
-/

namespace Hound.Spec
open Hound

/-- The words, each of them quoted, with `|` between them. -/
def orPattern : List (List Rune) → Bytes
  | [] => []
  | [w] => goQuoteMeta (w.flatMap encodeRaw)
  | w :: ws => goQuoteMeta (w.flatMap encodeRaw) ++ 124 :: orPattern ws

/-- The line has one of the words. -/
def HasWord (orbit : Rune → List Rune) (caseless : Bool) (ws : List (List Rune)) (line : Bytes) : Prop :=
  ∃ w ∈ ws, HasText orbit caseless w line

/-- Of two words next to each other, one begins with another character than the other. -/
def BeginApart (orbit : Rune → List Rune) (caseless : Bool) : List (List Rune) → Prop
  | v :: w :: ws => (∀ r x, v.head? = some r → w.head? = some x → ¬ FoldsTo orbit caseless r x) ∧ BeginApart orbit caseless (w :: ws)
  | _ => True

/-- The first word has four characters or more, or all the others have three bytes or less and case matters. -/
def LongWordFirst (caseless : Bool) : List (List Rune) → Prop
  | [] => True
  | w :: more => 4 ≤ w.length ∨ (caseless = false ∧ ∀ v ∈ more, (v.flatMap encodeRaw).length ≤ 3)

/-! ## Patterns that begin their alternations with the long ones -/

mutual
/-- There is a repetition, a `.`, or a text of at least four characters in it. -/
def Long : Re → Prop
  | .literal rs _ => 4 ≤ rs.length
  | .star _ | .plus _ | .rep _ _ _ | .anyChar | .anyCharNotNL => True
  | .capture r | .quest r => Long r
  | .concat rs | .alternate rs => LongL rs
  | _ => False
/-- There is one in one of them. -/
def LongL : List Re → Prop
  | [] => False
  | r :: rs => Long r ∨ LongL rs
end

/-- It is a text of at most three bytes, of which case matters, or only asks for a place. -/
def Short : Re → Prop
  | .literal rs fold => fold = false ∧ (encodeRunes rs).length ≤ 3
  | .emptyMatch | .beginLine | .endLine | .beginText | .endText | .wordBoundary | .noWordBoundary => True
  | _ => False

mutual
/-- Of the alternatives in each place, the first is long, or all the others are short. -/
def LongFirst : Re → Prop
  | .capture r | .star r | .plus r | .quest r | .rep r _ _ => LongFirst r
  | .concat rs => LongFirstL rs
  | .alternate rs => LongFirstL rs ∧ ∀ r more, rs = r :: more → Long r ∨ ∀ s ∈ more, Short s
  | _ => True
/-- The same for each of them. -/
def LongFirstL : List Re → Prop
  | [] => True
  | r :: rs => LongFirst r ∧ LongFirstL rs
end

end Hound.Spec
