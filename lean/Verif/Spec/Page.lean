import Verif.Model.UiLines
import Verif.Spec.Blocks

/-!
# Specification of what the web page shows of one file

`text n` is the text of line `n` of a file.
-/

namespace Hound.Spec
open Hound

/-- What is expected of the blocks of lines shown for the matches `ms` of a file. -/
structure PageFor (text : Int → Bytes) (ms : List LineMatch) (bs : List (List Ui.Line)) : Prop where
  /-- a block is a run of consecutive lines -/
  runs : ∀ b ∈ bs, b ≠ [] ∧ ∀ i (h : i + 1 < b.length), b[i + 1].number = b[i].number + 1
  /-- read from top to bottom the line numbers increase; no line is shown twice -/
  increasing : (bs.flatten.map (·.number)).Pairwise (· < ·)
  /-- beside its number stands the text of that line of the file -/
  content : ∀ l ∈ bs.flatten, l.content = text l.number
  /-- the lines shown are the matched lines and their context, no more and no less -/
  lines_iff : ∀ n, (∃ l ∈ bs.flatten, l.number = n) ↔ ∃ m ∈ ms, ShownBy m n
  /-- a line is marked if and only if it is the line of a match -/
  marked_iff : ∀ l ∈ bs.flatten, (l.isMatch = true ↔ ∃ m ∈ ms, (m.lineno : Int) = l.number)

end Hound.Spec
