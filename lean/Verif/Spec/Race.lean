/-!
When two accesses to memory race.

This is Go's memory model (https://go.dev/ref/mem), for goroutines, mutexes and channels: an access happens before another
if the order follows from the order inside a goroutine, the start of goroutines, locks and channels.  Two accesses
to the same place by different goroutines, one of them a write, race if neither happens before the other; then the
program has no defined meaning.
-/

namespace Hound
namespace Race

/-- The goroutines that know about one repository. -/
inductive Who where
  /-- the goroutine of `main` -/
  | main
  /-- the goroutine that makes the searcher when the server starts -/
  | maker
  /-- the goroutine that polls the repository -/
  | poller
  /-- the goroutine that waits for the signal to shut down -/
  | stopper
  /-- the goroutine that accepts connections -/
  | server
  /-- the goroutine that answers request `n` -/
  | request (n : Nat)
  /-- a goroutine that searches the repository for request `n` -/
  | search (n m : Nat)
deriving DecidableEq, Repr

/-- The places in memory that are shared. -/
inductive Var where
  /-- the index that is live -/
  | idx
  /-- what is in index number `h`: the files it has open -/
  | data (h : Nat)
  /-- whether a shutdown was requested -/
  | flag
  /-- the handlers of the web server -/
  | mux
deriving DecidableEq, Repr

/-- The locks: of the web server, of the searcher, and of index number `h`. -/
inductive Lock where
  | web
  | live
  | own (h : Nat)
deriving DecidableEq, Repr

/-- The channels. -/
inductive Chan where
  | result
  | update
  | shutdown
  | done
deriving DecidableEq, Repr

/-- How many messages a channel holds. -/
def cap : Chan → Nat
  | .result => 1
  | .update => 1
  | .shutdown => 1
  | .done => 0

/-- What a goroutine does.  Messages are numbered in each channel. -/
inductive Op where
  | read (x : Var)
  | write (x : Var)
  | go (w : Who)
  | lock (l : Lock)
  | unlock (l : Lock)
  | rlock (l : Lock)
  | runlock (l : Lock)
  | send (c : Chan) (k : Nat)
  | recv (c : Chan) (k : Nat)
  | close (c : Chan)
  | recvClosed (c : Chan)
  /-- something that touches nothing shared -/
  | other
deriving DecidableEq, Repr

/-- What has happened, in order. -/
abbrev Trace := List (Who × Op)

/-- Event number `i` was `o`, done by `w`. -/
def At (tr : Trace) (i : Nat) (w : Who) (o : Op) : Prop := tr[i]? = some (w, o)

/-- Event `i` happens before event `j`. -/
inductive Hb (tr : Trace) : Nat → Nat → Prop where
  /-- the order inside a goroutine -/
  | inside {i j : Nat} {w : Who} {o o' : Op} : i < j → At tr i w o → At tr j w o' → Hb tr i j
  /-- a `go` statement, and what the new goroutine does -/
  | go {i j : Nat} {w u : Who} {o : Op} : i < j → At tr i w (.go u) → At tr j u o → Hb tr i j
  /-- a lock is released, and later acquired for writing -/
  | lock {i j : Nat} {w u : Who} {l : Lock} : i < j → At tr i w (.unlock l) → At tr j u (.lock l) → Hb tr i j
  /-- a lock is released, and later acquired for reading -/
  | rlock {i j : Nat} {w u : Who} {l : Lock} : i < j → At tr i w (.unlock l) → At tr j u (.rlock l) → Hb tr i j
  /-- a lock is released by a reader, and later acquired for writing -/
  | runlock {i j : Nat} {w u : Who} {l : Lock} : i < j → At tr i w (.runlock l) → At tr j u (.lock l) → Hb tr i j
  /-- a message is sent, and that message is received -/
  | send {i j : Nat} {w u : Who} {c : Chan} {k : Nat} : i < j → At tr i w (.send c k) → At tr j u (.recv c k) →
      Hb tr i j
  /-- a message is received, which makes room for another -/
  | room {i j : Nat} {w u : Who} {c : Chan} {k : Nat} : i < j → At tr i w (.recv c k) →
      At tr j u (.send c (k + cap c)) → Hb tr i j
  /-- a channel is closed, and that is noticed -/
  | close {i j : Nat} {w u : Who} {c : Chan} : i < j → At tr i w (.close c) → At tr j u (.recvClosed c) → Hb tr i j
  | trans {i j k : Nat} : Hb tr i j → Hb tr j k → Hb tr i k

/-- An event reads the place `x`. -/
def Reads (tr : Trace) (i : Nat) (w : Who) (x : Var) : Prop := At tr i w (.read x)
/-- An event writes to the place `x`. -/
def Writes (tr : Trace) (i : Nat) (w : Who) (x : Var) : Prop := At tr i w (.write x)

/-- Goroutines `w` and `u` access the same place `x` with events `i` and `j`, and at least one of them writes. -/
def Conflict (tr : Trace) (i j : Nat) (w u : Who) (x : Var) : Prop :=
  w ≠ u ∧ ((Writes tr i w x ∧ Writes tr j u x) ∨ (Writes tr i w x ∧ Reads tr j u x) ∨
    (Reads tr i w x ∧ Writes tr j u x))

/-- The events `i` and `j` of `w` and `u` race at the place `x`. -/
def Races (tr : Trace) (i j : Nat) (w u : Who) (x : Var) : Prop :=
  Conflict tr i j w u x ∧ ¬ Hb tr i j ∧ ¬ Hb tr j i

end Race
end Hound
