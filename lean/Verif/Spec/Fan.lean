import Verif.Model.Fan
import Verif.Spec.LockWait

/-!
# Specification: a search of several repositories

What is assumed of the scheduler, and what it means that a request is over.
-/

namespace Hound
namespace Fan
open Spec

/-- The steps of the goroutine of request `r`. -/
def isMain (r : Nat) (e : Ev) : Prop := e = .main r

/-- The steps of the goroutine that searches the `j`-th repository for request `r`. -/
def isGo (r j : Nat) (e : Ev) : Prop := (∃ i x, e = .lock r j i x) ∨ (∃ err, e = .found r j err) ∨ e = .send r j

/-- The steps of the goroutine that polls repository `i`. -/
def isPoll (i : Nat) (e : Ev) : Prop := e = .own i .poller

/-- No goroutine is passed over for ever. -/
structure Fair (st : Nat → St) (ev : Nat → Option Ev) : Prop where
  main : ∀ r, Moves Step (isMain r) st ev
  go : ∀ r j, Moves Step (isGo r j) st ev
  poll : ∀ i, Moves Step (isPoll i) st ev

/-- The request has been answered, and all its goroutines have ended. -/
def Req.over (q : Req) : Prop := (∃ ok, q.main = .answered ok) ∧ ∀ j, j < q.repos.length → ∃ err, q.gos j = .gone err

end Fan
end Hound
