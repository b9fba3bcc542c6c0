import Verif.Model.Coalesce

/-!
# Specification of blocks of lines

`text n` is the text of line `n` of a file.
-/

namespace Hound.Spec
open Hound.Client

/-- The values of `f` at `n` consecutive numbers from `s`. -/
def runOf {α : Type} (f : Int → α) (s : Int) (n : Nat) : List α :=
  (List.range n).map fun (i : Nat) => f (s + (i : Int))

/-- A match shows the matched line of the file, between the lines before and after it. -/
def MatchOf (text : Int → Bytes) (m : LineMatch) : Prop :=
  m.before = runOf text ((m.lineno : Int) - m.before.length) m.before.length ∧
  m.line = text m.lineno ∧
  m.after = runOf text ((m.lineno : Int) + 1) m.after.length

/-- Line `n` is shown by the match, as matched line or as context. -/
def ShownBy (m : LineMatch) (n : Int) : Prop :=
  (m.lineno : Int) - m.before.length ≤ n ∧ n ≤ (m.lineno : Int) + m.after.length

/-- Line `n` is in the block. -/
def InBlock (b : Block) (n : Int) : Prop := b.start ≤ n ∧ n < b.start + b.lines.length

/-- The matches come in the order of the file: neither the matched lines nor the contexts go back. -/
def InFileOrder (ms : List LineMatch) : Prop :=
  ms.Pairwise fun a b => a.lineno ≤ b.lineno ∧
    (a.lineno : Int) - a.before.length ≤ (b.lineno : Int) - b.before.length

end Hound.Spec
