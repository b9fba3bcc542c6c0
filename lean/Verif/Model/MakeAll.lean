import Verif.Model.Config
/-!
How the searchers are made when the server starts: `MakeAll` (searcher/searcher.go:285-327), the goroutine it starts for each
repository (searcher/searcher.go:506-530), the limiter they share (searcher/searcher.go:59-69) and the channel for their results.
What a goroutine does to make its searcher (searcher/searcher.go:395-501) is one step here, with or without an error;
`Model/Startup` has what happens to the data directory, `Model/Race` the memory that is shared.
-/

namespace Hound
namespace Mk

/-- Where `MakeAll` is. (searcher/searcher.go:302-326) -/
inductive Main where
  /-- lines 302-304: starting the goroutine of the `j`-th repository -/
  | spawning (j : Nat)
  /-- line 308: has received `k` results -/
  | waiting (k : Nat)
  /-- has all of them -/
  | returned
deriving DecidableEq, Repr

/-- Where the goroutine for a repository is. (searcher/searcher.go:506-530) -/
inductive W where
  /-- not started yet -/
  | none
  /-- line 514, `Acquire` -/
  | started
  /-- line 517, `newSearcher` -/
  | working
  /-- lines 519 and 526: has a searcher or an error -/
  | sending (ok : Bool)
  /-- line 515, `Release` -/
  | releasing (ok : Bool)
  | gone (ok : Bool)
deriving DecidableEq, Repr

/-- `MakeAll`, the goroutines, the number of tokens in the limiter, the channel, and the results received: with the number of the repository
and whether there is a searcher. (searcher/searcher.go:285-327) -/
structure St where
  main : Main
  ws : Nat → W
  chan : Nat
  buf : List (Nat × Bool)
  got : List (Nat × Bool)

/-- The size of the limiter: `make` panics if it is negative. Simplified: it also fails if there is not enough memory. (searcher/searcher.go:59-61, 294) -/
def limiterSize (n : Int) : Option Nat := if n < 0 then none else some n.toNat

/-- Change the state of a goroutine. (for searcher/searcher.go:506-530) -/
def upd (f : Nat → W) (i : Nat) (x : W) : Nat → W := fun k => if k = i then x else f k

/-- What happens: `MakeAll` goes on, or the goroutine of a repository. (searcher/searcher.go:285-327, 506-530) -/
inductive Ev where
  | main
  | worker (i : Nat)
deriving DecidableEq, Repr

/-- One step, for `n` repositories and a limiter of size `cap`. (searcher/searcher.go:285-327, 506-530) -/
inductive Step (n cap : Nat) : St → Ev → St → Prop where
  /-- lines 302-303 -/
  | spawn (s : St) (j : Nat) : s.main = .spawning j → j < n → Step n cap s .main { s with main := .spawning (j + 1), ws := upd s.ws j .started }
  /-- line 304: the loop ends -/
  | spawned (s : St) (j : Nat) : s.main = .spawning j → n ≤ j → Step n cap s .main { s with main := .waiting 0 }
  /-- lines 307-315 -/
  | receive (s : St) (k i : Nat) (ok : Bool) (rest : List (Nat × Bool)) : s.main = .waiting k → k < n → s.buf = (i, ok) :: rest →
      Step n cap s .main { s with main := .waiting (k + 1), buf := rest, got := s.got ++ [(i, ok)] }
  /-- lines 307, 326 -/
  | return (s : St) (k : Nat) : s.main = .waiting k → n ≤ k → Step n cap s .main { s with main := .returned }
  /-- lines 63-65, 514: there is room in the limiter -/
  | acquire (s : St) (i : Nat) : s.ws i = .started → s.chan < cap → Step n cap s (.worker i) { s with ws := upd s.ws i .working, chan := s.chan + 1 }
  /-- line 517: `newSearcher` returns -/
  | make (s : St) (i : Nat) (ok : Bool) : s.ws i = .working → Step n cap s (.worker i) { s with ws := upd s.ws i (.sending ok) }
  /-- lines 519, 526: there is room in the channel, made at line 298 -/
  | send (s : St) (i : Nat) (ok : Bool) : s.ws i = .sending ok → s.buf.length < n →
      Step n cap s (.worker i) { s with ws := upd s.ws i (.releasing ok), buf := s.buf ++ [(i, ok)] }
  /-- lines 67-69, 515 -/
  | release (s : St) (i : Nat) (ok : Bool) : s.ws i = .releasing ok → 0 < s.chan →
      Step n cap s (.worker i) { s with ws := upd s.ws i (.gone ok), chan := s.chan - 1 }

/-- `MakeAll` at line 302. (searcher/searcher.go:285-302) -/
def start : St := ⟨.spawning 0, fun _ => .none, 0, [], []⟩

end Mk
end Hound
