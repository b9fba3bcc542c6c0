import Verif.Model.LockWait
import Verif.Spec.Fair

/-!
# Specification: nobody waits for ever

What is assumed of the scheduler: a goroutine that can go on does so some time. Nothing is assumed of the locks beyond what
the model says, and nothing of how searches and updates are timed.
-/

namespace Hound
namespace Lw
open Spec

/-- The steps of the goroutine that polls. -/
def isPoller (e : Ev) : Prop := e = .poller
/-- The steps of search `n`. -/
def isSearch (n : Nat) (e : Ev) : Prop := e = .search n

/-- No goroutine is passed over for ever. -/
structure FairLocks (st : Nat → St) (ev : Nat → Option Ev) : Prop where
  poller : Moves Step isPoller st ev
  search : ∀ n, Moves Step (isSearch n) st ev

end Lw
end Hound
