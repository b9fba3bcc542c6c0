import Verif.Model.Searcher

/-!
# The server's end (cmds/houndd/main.go:60-80, 149-165; searcher/searcher.go:59-69, 164-180, 317-324)

All searchers of a server, the goroutine that `handleShutdown` starts, and the channel on which the operating system's
termination signal arrives. Each searcher is the state machine of `Model/Searcher`; a step of the server is a step of one of
its searchers or of that goroutine, in any order.

Simplifications. The searchers are numbered; `for range` over the map of searchers takes any order, a new one each time. The limiter's
channel holds one element for each searcher between `Acquire` and `Release` (C25). The searchers' first indexing is over
(`MakeAll` collects all results before the first `begin`). Searches and `Update` calls may come as soon as `begin` was called
(in the program: a little later). Other ends of the process (a panic, a kill) are left out. -/

namespace Hound.Down

open Hound.Sr (Cfg PC)

/-- The number of searchers, their configurations and the revisions they start with; max-concurrent-indexers.
(for cmds/houndd/main.go:60-80, 149-165) -/
structure Site where
  n : Nat
  cfg : Nat → Cfg
  rev : Nat → Nat
  cap : Nat

/-- Where the goroutine of cmds/houndd/main.go:60-74 stands. -/
inductive DPC where
  /-- `main` is still in `makeSearchers`; the goroutine does not exist -/
  | absent
  /-- cmds/houndd/main.go:62 -/
  | listening
  /-- cmds/houndd/main.go:64-66: `Stop` is still to be called on these -/
  | stopping (todo : List Nat)
  /-- in `Stop` of this one, between the send and the assignment (searcher/searcher.go:167-168) -/
  | inStop (i : Nat) (todo : List Nat)
  /-- cmds/houndd/main.go:68-70: `Wait` is still to be called (or to return) on these -/
  | waiting (todo : List Nat)
  /-- cmds/houndd/main.go:72: the process has ended -/
  | exited
deriving DecidableEq, Repr

structure St where
  srs : Nat → Sr.St
  /-- is there something in `shutdownCh` (capacity 1, cmds/houndd/main.go:77) -/
  chan : Bool
  pc : DPC

/-- What happened in a step. (for cmds/houndd/main.go:60-80, 149-165) -/
inductive Ev where
  /-- a step of a searcher, or a call from outside other than `Stop` -/
  | own (i : Nat) (e : Sr.Ev)
  /-- the termination signal arrives -/
  | signal
  /-- `main` calls `handleShutdown` -/
  | handle
  /-- the goroutine takes the signal -/
  | notice
  | stopSend (i : Nat)
  | stopSkip (i : Nat)
  | stopReturn (i : Nat)
  /-- the loop of `Stop` calls ends -/
  | stopped
  /-- `Wait` of this searcher returns -/
  | waited (i : Nat)
  | exit
deriving DecidableEq, Repr

/-- Between `lim.Acquire()` and `lim.Release()` (searcher/searcher.go:354-355). -/
def holdsToken : PC → Bool
  | .pulling | .building _ | .swapping _ | .swapped _ _ | .undo _ | .releasing _ => true
  | _ => false

/-- The elements in the limiter's channel (searcher/searcher.go:59-69). -/
def St.used (n : Nat) (s : St) : Nat := ((List.range n).filter fun i => holdsToken (s.srs i).pc).length

/-- One searcher is in a new state. (for cmds/houndd/main.go:60-80, 149-165) -/
def setSr (s : St) (i : Nat) (t : Sr.St) : Nat → Sr.St := fun j => if j = i then t else s.srs j

/-- One step of the server (cmds/houndd/main.go:60-80, 149-165). -/
inductive Step (w : Site) : St → Ev → St → Prop where
  /-- a step of searcher `i`; `begin` is called by `MakeAll` (searcher/searcher.go:321-324), `Acquire` waits for a free
  place (63-65) -/
  | own (s : St) (i : Nat) (e : Sr.Ev) (t : Sr.St) : s.pc ≠ .exited → i < w.n → e.stop = false →
      (e = .begin → s.pc = .absent) → (e = .check → s.used w.n < w.cap) → Sr.Step (w.cfg i) (s.srs i) e t →
      Step w s (.own i e) { s with srs := setSr s i t }
  /-- cmds/houndd/main.go:76-80: `Notify` puts it into the channel, or drops it if that is full -/
  | signal (s : St) : s.pc ≠ .exited → Step w s .signal { s with chan := true }
  /-- cmds/houndd/main.go:155-165: after `makeSearchers` -/
  | handle (s : St) : s.pc = .absent → (∀ i < w.n, (s.srs i).begun = true) →
      Step w s .handle { s with pc := .listening }
  /-- cmds/houndd/main.go:62 -/
  | notice (s : St) (order : List Nat) : s.pc = .listening → s.chan = true → order.Perm (List.range w.n) →
      Step w s .notice { s with chan := false, pc := .stopping order }
  /-- cmds/houndd/main.go:64-66, searcher/searcher.go:165-171 -/
  | stopSend (s : St) (i : Nat) (todo : List Nat) (t : Sr.St) : s.pc = .stopping (i :: todo) →
      Sr.Step (w.cfg i) (s.srs i) .stopSend t →
      Step w s (.stopSend i) { s with srs := setSr s i t, pc := .inStop i todo }
  | stopSkip (s : St) (i : Nat) (todo : List Nat) (t : Sr.St) : s.pc = .stopping (i :: todo) →
      Sr.Step (w.cfg i) (s.srs i) .stopSkip t →
      Step w s (.stopSkip i) { s with srs := setSr s i t, pc := .stopping todo }
  | stopReturn (s : St) (i : Nat) (todo : List Nat) (t : Sr.St) : s.pc = .inStop i todo →
      Sr.Step (w.cfg i) (s.srs i) .stopReturn t →
      Step w s (.stopReturn i) { s with srs := setSr s i t, pc := .stopping todo }
  | stopped (s : St) (order : List Nat) : s.pc = .stopping [] → order.Perm (List.range w.n) →
      Step w s .stopped { s with pc := .waiting order }
  /-- cmds/houndd/main.go:68-70, searcher/searcher.go:174-176: `doneCh` is closed -/
  | waited (s : St) (i : Nat) (todo : List Nat) : s.pc = .waiting (i :: todo) → (s.srs i).pc = .done →
      Step w s (.waited i) { s with pc := .waiting todo }
  /-- cmds/houndd/main.go:72 -/
  | exit (s : St) : s.pc = .waiting [] → Step w s .exit { s with pc := .exited }

/-- cmds/houndd/main.go:154-155: the signal is registered, `makeSearchers` has made the searchers. -/
def St.init (w : Site) : St where
  srs := fun i => .init (w.rev i)
  chan := false
  pc := .absent

/-- A sequence of steps. (for cmds/houndd/main.go:60-80, 149-165) -/
inductive Exec (w : Site) : St → List Ev → St → Prop where
  | nil (s : St) : Exec w s [] s
  | cons {s t u : St} {e : Ev} {es : List Ev} : Step w s e t → Exec w t es u → Exec w s (e :: es) u

/-- The states that can occur, with everything that happened. (for cmds/houndd/main.go:60-80, 149-165) -/
def Run (w : Site) (es : List Ev) (s : St) : Prop := Exec w (.init w) es s

end Hound.Down
