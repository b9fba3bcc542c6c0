import Verif.Model.Gate
import Verif.Spec.Fair
/-!
# Specification: the server begins to serve

What is assumed of the scheduler: a goroutine that can go on does so some time.
-/

namespace Hound
namespace Gate
open Spec

/-- An unending history of a server with the health check at `uri` and pages that can be made (`content`) or not; no goroutine is
passed over for ever. Nothing is assumed of when requests come, whether the searchers are ever made, and when listening fails. -/
structure Runs (uri : Bytes) (content : Bool) (st : Nat → St) (ev : Nat → Option Ev) : Prop where
  start : st 0 = start uri content
  steps : History Step st ev
  main : Moves Step (fun e => e = .main) st ev
  request : ∀ n, Moves Step (fun e => e = .request n) st ev

/-- The process has ended. -/
def Gone (s : St) : Prop := ∃ why, s.main = .gone why

/-- If the address cannot be listened on, the program ends and says so. -/
def FailureReportedFull : Prop := ∀ uri content st ev, Runs uri content st ev → ∀ m, (st m).failed = true →
  ∃ k, m ≤ k ∧ Gone (st k)

end Gate
end Hound
