import Verif.Spec.JsonGrammar
import Verif.Model.UiNumber

/-!
# Specification: numbers with commas
-/

namespace Hound.Spec
open Ui

/-- Counted from the end, exactly every fourth character is a comma, and it does not begin with one. -/
def InThrees (s : JsStr) : Prop :=
  (∀ (k : Nat) (c : UInt16), s.reverse[k]? = some c → (c = 44 ↔ k % 4 = 3)) ∧ s.head? ≠ some 44

/-- The text is a number written with commas: without them, its decimal numeral. -/
def WritesNumber (s : JsStr) (n : Nat) : Prop :=
  InThrees s ∧ ∃ ds, Rfc.Natural ds n ∧ s.filter (fun c => decide (c ≠ 44)) = js ds

end Hound.Spec
