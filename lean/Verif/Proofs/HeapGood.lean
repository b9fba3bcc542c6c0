import Verif.Model.HeapQuery
import Verif.Proofs.RegexpQuery

/-!
The queries made with shared slices are well formed, whatever happens to the slices.
-/

namespace Hound
open Spec

namespace HInfo
variable {grow : Nat → Nat → Nat}

theorem addExact_good {h : Heap} {i : HInfo} (hi : GoodQ i.mat) : GoodQ (addExact h i).mat := by
  unfold addExact
  split
  · exact goodQ_andTrigrams hi _
  · exact hi

theorem simplifySets_good {h : Heap} {i : HInfo} (hi : GoodQ i.mat) : GoodQ (simplifySets h i).2.mat :=
  goodQ_andTrigrams (goodQ_andTrigrams hi _) _

theorem simplify_good {h : Heap} {i : HInfo} {f : Bool} (hi : GoodQ i.mat) : GoodQ (simplify grow h i f).2.mat := by
  unfold simplify
  split
  · dsimp only
    split
    · apply simplifySets_good
      exact addExact_good (i := { i with exact := _ }) hi
    · exact hi
  · exact simplifySets_good hi

theorem concat_good {x y : HInfo} {st : HSt} (hx : GoodQ x.mat) (hy : GoodQ y.mat) : GoodQ (concat grow x y st).2.mat := by
  have hm := goodQ_and hx hy
  unfold concat
  apply simplify_good
  cases x.exact <;> cases y.exact
  · dsimp only
    split
    · exact goodQ_andTrigrams hm _
    · exact hm
  · exact hm
  · exact hm
  · exact hm

theorem alternate_good {x y : HInfo} {st : HSt} (hx : GoodQ x.mat) (hy : GoodQ y.mat) : GoodQ (alternate grow x y st).2.mat := by
  unfold alternate
  apply simplify_good
  cases x.exact <;> cases y.exact
  · exact goodQ_or hx hy
  · exact goodQ_or hx (addExact_good hy)
  · exact goodQ_or (addExact_good hx) hy
  · exact goodQ_or hx hy

theorem class_good {ranges : List (Rune × Rune)} {st : HSt} : GoodQ (analyzeClass grow ranges st).2.mat := by
  unfold analyzeClass
  split
  · exact goodQ_none
  split
  · exact goodQ_all
  · exact simplify_good goodQ_all

theorem folds_good {orbit : Rune → List Rune} : ∀ (rs : List Rune) {i : HInfo} {st : HSt}, GoodQ i.mat → GoodQ (analyzeFolds grow orbit rs i st).2.mat
  | [], _, _, h => h
  | r :: rs, _, st, h => by
    rw [analyzeFolds]
    have h1 : GoodQ (analyzeFold1 grow orbit r st).2.mat := class_good (ranges := (r, r) :: (orbit r).map fun r1 => (r1, r1))
    exact folds_good rs (concat_good h h1)

theorem literal_good {orbit : Rune → List Rune} {rs : List Rune} {f : Bool} {st : HSt} : GoodQ (analyzeLiteral grow orbit rs f st).2.mat := by
  unfold analyzeLiteral
  split
  · split
    · exact goodQ_all
    · exact class_good
    · exact folds_good _ goodQ_all
  · exact simplify_good goodQ_all

theorem plus_good {i : HInfo} {st : HSt} (h : GoodQ i.mat) : GoodQ (analyzePlus grow i st).2.mat := by
  unfold analyzePlus
  split
  · exact simplify_good h
  · exact simplify_good h

mutual
theorem analyze_good {orbit : Rune → List Rune} : ∀ (re : Re) {st : HSt}, GoodQ (analyze grow orbit re st).2.mat
  | .noMatch, _ => goodQ_none
  | .emptyMatch, _ => goodQ_all
  | .beginLine, _ => goodQ_all
  | .endLine, _ => goodQ_all
  | .beginText, _ => goodQ_all
  | .endText, _ => goodQ_all
  | .wordBoundary, _ => goodQ_all
  | .noWordBoundary, _ => goodQ_all
  | .literal _ _, _ => literal_good
  | .anyCharNotNL, _ => goodQ_all
  | .anyChar, _ => goodQ_all
  | .capture r, _ => by rw [analyze]; exact analyze_good r
  | .concat [], _ => goodQ_all
  | .concat (r :: rs), _ => by rw [analyze]; exact foldConcat_good rs (analyze_good r)
  | .alternate [], _ => goodQ_none
  | .alternate (r :: rs), _ => by rw [analyze]; exact foldAlternate_good rs (analyze_good r)
  | .quest r, _ => by rw [analyze]; exact alternate_good (analyze_good r) goodQ_all
  | .star _, _ => goodQ_all
  | .rep r _ _, _ => by
    rw [analyze]
    split
    · exact goodQ_all
    · exact plus_good (analyze_good r)
  | .plus r, _ => by rw [analyze]; exact plus_good (analyze_good r)
  | .charClass _, _ => class_good
theorem foldConcat_good {orbit : Rune → List Rune} : ∀ (rs : List Re) {x : HInfo} {st : HSt}, GoodQ x.mat → GoodQ (foldConcat grow orbit rs x st).2.mat
  | [], _, _, h => h
  | r :: rs, _, _, h => by rw [foldConcat]; exact foldConcat_good rs (concat_good h (analyze_good r))
theorem foldAlternate_good {orbit : Rune → List Rune} : ∀ (rs : List Re) {x : HInfo} {st : HSt}, GoodQ x.mat → GoodQ (foldAlternate grow orbit rs x st).2.mat
  | [], _, _, h => h
  | r :: rs, _, _, h => by rw [foldAlternate]; exact foldAlternate_good rs (alternate_good h (analyze_good r))
end

theorem regexpQuery_good {orbit : Rune → List Rune} (re : Re) : GoodQ (regexpQuery grow orbit re).1 := by
  unfold regexpQuery
  exact addExact_good (simplify_good (analyze_good re))

end HInfo
end Hound
