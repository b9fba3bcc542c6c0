/-!
# One `Searcher`: its polling goroutine, the calls from outside, and the live index
(searcher/searcher.go:21-35, 115-201, 329-501; index/index.go:30-34, 118-125)

A state is everything the goroutines share, and where each of them stands; a step is one atomic action of
one of them. Any number of searches, `Update` and `Stop` calls can be under way. Simplifications: memory is
sequentially consistent; `Destroy` is one step, which waits until nobody searches that index; a lock is granted
in any order; logging, garbage collection and `MsBetweenPolls` as a duration are left out (a timer, if there
is one, can fire at any moment). What the version control system and the file system do is arbitrary.
-/

namespace Hound.Sr

/-- What matters of `config.Repo`: are poll and push updates enabled, and is `MsBetweenPolls` positive
(config/config.go:50-58, searcher/searcher.go:185-188, 468-471). -/
structure Cfg where
  poll : Bool
  push : Bool
  msPositive : Bool
deriving DecidableEq, Repr

/-- searcher/searcher.go:185-188, 468-471: is there a timer in `waitForUpdate`? -/
def Cfg.timer (c : Cfg) : Bool := c.poll && c.msPositive

/-- index/index.go:30-34 `Index`: the revision in its `Ref`; has its file not been unmapped; is its directory
there. -/
structure Handle where
  rev : Nat
  opened : Bool
  onDisk : Bool
deriving DecidableEq, Repr

/-- A search can use the index. (for searcher/searcher.go:115-201, 343-391, 457-498) -/
def Handle.Usable (h : Handle) : Prop := h.opened = true ∧ h.onDisk = true

/-- Where the polling goroutine stands (searcher/searcher.go:457-498, 343-391). -/
inductive PC where
  /-- searcher/searcher.go:460: before `<-s.updateCh` -/
  | hold
  /-- searcher/searcher.go:463 -/
  | gated
  /-- searcher/searcher.go:191: in the `select` of `waitForUpdate` -/
  | waiting
  /-- searcher/searcher.go:477: before reading `shutdownRequested` -/
  | woken
  /-- searcher/searcher.go:354: in `lim.Acquire()` -/
  | acquiring
  /-- searcher/searcher.go:358: in `PullOrClone` -/
  | pulling
  /-- searcher/searcher.go:370: building the index of a new revision -/
  | building (rev : Nat)
  /-- searcher/searcher.go:118: in `s.lck.Lock()` of `swapIndexes`, for a new index -/
  | swapping (new : Nat)
  /-- searcher/searcher.go:124: `s.idx` is the new index, `oldIdx.Destroy()` comes next; the lock is held -/
  | swapped (old new : Nat)
  /-- searcher/searcher.go:384: the swap reported an error, `idx.Destroy()` comes next -/
  | undo (new : Nat)
  /-- `lim.Release()` and the return of `updateAndReindex`: the new revision, or none for `rev, false` -/
  | releasing (res : Option Nat)
  /-- the goroutine has closed `doneCh` and ended -/
  | done
deriving DecidableEq, Repr

structure St where
  /-- all indexes ever opened; `s.idx` is one of them -/
  handles : Nat → Handle
  /-- number of indexes ever opened -/
  count : Nat
  /-- `s.idx` -/
  live : Nat
  /-- the variable `rev` of the goroutine -/
  rev : Nat
  pc : PC
  /-- is there something in `s.updateCh`, `s.shutdownCh` (capacity 1) -/
  updateCh : Bool
  shutdownCh : Bool
  /-- `s.shutdownRequested` -/
  flag : Bool
  /-- has `begin` been called (the searcher is not handed out before) -/
  begun : Bool
  /-- calls of `Stop` between the send and the assignment -/
  stopping : Nat
  /-- searches under way: number, and the index `s.idx.Search` was called on (none: just got `s.lck.RLock`) -/
  searches : List (Nat × Option Nat)

/-- What happened in a step. (for searcher/searcher.go:115-201, 343-391, 457-498) -/
inductive Ev where
  | begin
  /-- `Update` returned true -/
  | updateAccepted
  /-- `Update` returned false -/
  | updateRefused
  | stopSend
  | stopSkip
  /-- a call of `Stop` that got through has set the flag and returns -/
  | stopReturn
  | searchStart (i : Nat)
  | searchRead (i : Nat)
  /-- a search returns, with this revision, having used this index -/
  | searchEnd (i : Nat) (rev h : Nat)
  -- the polling goroutine
  | gate
  | enter
  | wake
  /-- `doneCh` is closed: `Wait` returns from now on -/
  | finished
  | goOn
  /-- a check of the repository starts -/
  | check
  /-- `PullOrClone` reported this revision, or an error -/
  | pulled (head : Option Nat)
  /-- the new index was built and opened, or that failed -/
  | built (ok : Bool)
  | swapLock
  /-- `Destroy` of the index replaced: did it succeed -/
  | destroyed (ok : Bool)
  | undone
  | release
deriving DecidableEq, Repr

/-- Is it a step of the polling goroutine? (for searcher/searcher.go:115-201, 343-391, 457-498) -/
def Ev.poller : Ev → Bool
  | .begin | .updateAccepted | .updateRefused | .stopSend | .stopSkip | .stopReturn
  | .searchStart _ | .searchRead _ | .searchEnd _ _ _ => false
  | _ => true

/-- Is it part of a call of `Stop`? (for searcher/searcher.go:115-201, 343-391, 457-498) -/
def Ev.stop : Ev → Bool
  | .stopSend | .stopSkip | .stopReturn => true
  | _ => false

/-- Change one index. (for searcher/searcher.go:115-201, 343-391, 457-498) -/
def setHandle (s : St) (i : Nat) (h : Handle) : Nat → Handle := fun j => if j = i then h else s.handles j

/-- The possible outcomes of `Destroy` on an index (index/index.go:118-125): closing and removing succeed; closing
fails and nothing else happens (always so when it was closed before); removing fails. -/
inductive Destroy : Handle → Bool → Handle → Prop where
  | ok (h : Handle) : h.opened = true → Destroy h true { h with opened := false, onDisk := false }
  | closeFails (h : Handle) : Destroy h false h
  | removeFails (h : Handle) : h.opened = true → Destroy h false { h with opened := false }

/-- `s.lck` is held for writing. (for searcher/searcher.go:115-201, 343-391, 457-498) -/
def St.locked (s : St) : Bool := match s.pc with
  | .swapped _ _ => true
  | _ => false

/-- One step of a searcher and of those who use it (searcher/searcher.go:115-201, 343-391, 457-498). -/
inductive Step (c : Cfg) : St → Ev → St → Prop where
  /-- searcher/searcher.go:199-201 `begin`, called once, before the searcher is handed out (321-324, 331-340) -/
  | begin (s : St) : s.begun = false → s.updateCh = false →
      Step c s .begin { s with begun := true, updateCh := true }
  /-- searcher/searcher.go:149-162 `Update` -/
  | updateAccepted (s : St) : s.begun = true → c.push = true →
      Step c s .updateAccepted { s with updateCh := true }
  | updateRefused (s : St) : s.begun = true → c.push = false → Step c s .updateRefused s
  /-- searcher/searcher.go:165-171 `Stop`: the channel is empty, and then the assignment -/
  | stopSend (s : St) : s.begun = true → s.shutdownCh = false →
      Step c s .stopSend { s with shutdownCh := true, stopping := s.stopping + 1 }
  | stopReturn (s : St) : 0 < s.stopping →
      Step c s .stopReturn { s with flag := true, stopping := s.stopping - 1 }
  /-- `Stop` when the channel is full: nothing -/
  | stopSkip (s : St) : s.begun = true → s.shutdownCh = true → Step c s .stopSkip s
  /-- searcher/searcher.go:131-135 `Search`: the lock, the call on `s.idx`, the end -/
  | searchStart (s : St) (i : Nat) : s.begun = true → s.locked = false → (∀ x, (i, x) ∉ s.searches) →
      Step c s (.searchStart i) { s with searches := (i, none) :: s.searches }
  | searchRead (s : St) (i : Nat) : (i, none) ∈ s.searches →
      Step c s (.searchRead i)
        { s with searches := s.searches.map fun p => if p = (i, none) then (i, some s.live) else p }
  | searchEnd (s : St) (i h : Nat) : (i, some h) ∈ s.searches →
      Step c s (.searchEnd i (s.handles h).rev h) { s with searches := s.searches.filter fun p => p ≠ (i, some h) }
  /-- searcher/searcher.go:460 -/
  | gate (s : St) : s.pc = .hold → s.updateCh = true → Step c s .gate { s with updateCh := false, pc := .gated }
  /-- searcher/searcher.go:463-466 -/
  | neverUpdates (s : St) : s.pc = .gated → c.poll = false → c.push = false →
      Step c s .finished { s with pc := .done }
  | enter (s : St) : s.pc = .gated → (c.poll = true ∨ c.push = true) → Step c s .enter { s with pc := .waiting }
  /-- searcher/searcher.go:191-195, the three cases -/
  | wakeUpdate (s : St) : s.pc = .waiting → s.updateCh = true →
      Step c s .wake { s with updateCh := false, pc := .woken }
  | wakeTimer (s : St) : s.pc = .waiting → c.timer = true → Step c s .wake { s with pc := .woken }
  | wakeStop (s : St) : s.pc = .waiting → s.shutdownCh = true →
      Step c s .wake { s with shutdownCh := false, pc := .woken }
  /-- searcher/searcher.go:477-480 -/
  | finish (s : St) : s.pc = .woken → s.flag = true → Step c s .finished { s with pc := .done }
  | goOn (s : St) : s.pc = .woken → s.flag = false → Step c s .goOn { s with pc := .acquiring }
  /-- searcher/searcher.go:354-358 -/
  | check (s : St) : s.pc = .acquiring → Step c s .check { s with pc := .pulling }
  /-- searcher/searcher.go:360-363 -/
  | pullFails (s : St) : s.pc = .pulling → Step c s (.pulled none) { s with pc := .releasing none }
  /-- searcher/searcher.go:365-367 -/
  | pullSame (s : St) : s.pc = .pulling → Step c s (.pulled (some s.rev)) { s with pc := .releasing none }
  | pullNew (s : St) (r : Nat) : s.pc = .pulling → r ≠ s.rev →
      Step c s (.pulled (some r)) { s with pc := .building r }
  /-- searcher/searcher.go:370-380 -/
  | buildFails (s : St) (r : Nat) : s.pc = .building r → Step c s (.built false) { s with pc := .releasing none }
  | buildOk (s : St) (r : Nat) : s.pc = .building r →
      Step c s (.built true)
        { s with handles := setHandle s s.count ⟨r, true, true⟩, count := s.count + 1, pc := .swapping s.count }
  /-- searcher/searcher.go:118-122: `Lock` waits for the searches -/
  | swapLock (s : St) (n : Nat) : s.pc = .swapping n → s.searches = [] →
      Step c s .swapLock { s with live := n, pc := .swapped s.live n }
  /-- searcher/searcher.go:124 `return oldIdx.Destroy()` -/
  | destroyed (s : St) (o n : Nat) (ok : Bool) (h : Handle) : s.pc = .swapped o n → Destroy (s.handles o) ok h →
      Step c s (.destroyed ok)
        { s with handles := setHandle s o h, pc := if ok then .releasing (some (s.handles n).rev) else .undo n }
  /-- searcher/searcher.go:382-388: `idx.Destroy()`, which waits for the searches on it -/
  | undo (s : St) (n : Nat) (ok : Bool) (h : Handle) : s.pc = .undo n → (∀ i, (i, some n) ∉ s.searches) →
      Destroy (s.handles n) ok h → Step c s .undone { s with handles := setHandle s n h, pc := .releasing none }
  /-- searcher/searcher.go:355, 483-488 -/
  | release (s : St) (res : Option Nat) : s.pc = .releasing res →
      Step c s .release { s with pc := .waiting, rev := res.getD s.rev }

/-- searcher/searcher.go:449-455: a searcher just made, with an index of revision `rev`. -/
def St.init (rev : Nat) : St where
  handles := fun _ => ⟨rev, true, true⟩
  count := 1
  live := 0
  rev := rev
  pc := .hold
  updateCh := false
  shutdownCh := false
  flag := false
  begun := false
  stopping := 0
  searches := []

/-- A sequence of steps. (for searcher/searcher.go:115-201, 343-391, 457-498) -/
inductive Exec (c : Cfg) : St → List Ev → St → Prop where
  | nil (s : St) : Exec c s [] s
  | cons {s t u : St} {e : Ev} {es : List Ev} : Step c s e t → Exec c t es u → Exec c s (e :: es) u

/-- The states that can occur, with everything that happened. (for searcher/searcher.go:115-201, 343-391, 457-498) -/
def Run (c : Cfg) (rev : Nat) (es : List Ev) (s : St) : Prop := Exec c (.init rev) es s

end Hound.Sr
