import Verif.Model.MakeAll
import Verif.Spec.Fair

/-!
# Specification: the server starts

What is assumed of the scheduler (and of the commands that fetch repositories: making a searcher ends), and what it means that
all repositories have been dealt with.
-/

namespace Hound
namespace Mk
open Spec

/-- No goroutine is passed over for ever. -/
structure Fair (n cap : Nat) (st : Nat → St) (ev : Nat → Option Ev) : Prop where
  main : Moves (Step n cap) (fun e => e = .main) st ev
  worker : ∀ i, Moves (Step n cap) (fun e => e = .worker i) st ev

/-- Every repository has one outcome, and it is what its goroutine got; all goroutines have ended, and the limiter is free. -/
structure Done (n : Nat) (s : St) : Prop where
  returned : s.main = .returned
  count : s.got.length = n
  one : ∀ i, i < n → ∃ ok, (i, ok) ∈ s.got ∧ s.ws i = .gone ok ∧ ∀ ok', (i, ok') ∈ s.got → ok' = ok
  free : s.chan = 0

/-- The server with this configuration starts: the limiter can be made, and in every fair history all repositories are dealt with. -/
def Starts (L : Config.Loaded) : Prop :=
  ∃ cap, limiterSize L.maxConcurrentIndexers = some cap ∧ ∀ st ev, History (Step L.repos.length cap) st ev → st 0 = start →
    Fair L.repos.length cap st ev → ∃ K, ∀ m, K ≤ m → Done L.repos.length (st m)

end Mk
end Hound
