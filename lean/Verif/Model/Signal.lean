import Verif.Spec.Signal

/-!
# Model of ui/assets/js/signal.js

JavaScript arrays are objects: `heap` holds the arrays created so far, `cur` is the address of the
array the field `listeners` refers to. A listener may do anything: between any two steps of a delivery
the program may tap, untap and raise again (the same listener or other code), and a listener may throw.
JavaScript runs one thing at a time, so only the innermost delivery advances.
-/

namespace Hound.Signal

/-- A running `forEach` of `raise` (signal.js:48): the array it iterates over, the next index and the
length read at the start. -/
structure Frame where
  id : Nat
  addr : Nat
  next : Nat
  stop : Nat

/-- The state of the program: the arrays, the field `listeners`, the running deliveries (innermost
first), the number of deliveries begun and what happened so far. (for ui/assets/js/signal.js:6-50) -/
structure State (L : Type) where
  heap : List (List L)
  cur : Nat
  frames : List Frame
  begun : Nat
  trace : List (Event L)

variable {L : Type} [DecidableEq L]

/-- signal.js:7-9, the constructor. -/
def State.init (L : Type) : State L := ⟨[[]], 0, [], 0, []⟩

/-- The content of the array at an address. (for ui/assets/js/signal.js:6-50) -/
def State.array (s : State L) (a : Nat) : List L := s.heap.getD a []

/-- signal.js:16-20 `tap`: a new array with the listener appended. -/
def tap (l : L) (s : State L) : State L :=
  { s with
    heap := s.heap ++ [s.array s.cur ++ [l]]
    cur := s.heap.length
    trace := s.trace ++ [.tapped l] }

/-- Array.prototype.splice(ix, 1) on the array at an address. (standard library) (for ui/assets/js/signal.js:6-50) -/
def spliceAt (heap : List (List L)) (a ix : Nat) : List (List L) :=
  heap.set a ((heap.getD a []).eraseIdx ix)

/-- signal.js:29-39 `untap`: find the first occurrence, copy the array, splice the copy. -/
def untap (l : L) (s : State L) : State L :=
  match (s.array s.cur).idxOf? l with
  | none => { s with trace := s.trace ++ [.untapped l] }
  | some ix =>
    let heap := s.heap ++ [s.array s.cur]
    let cur := s.heap.length
    { s with heap := spliceAt heap cur ix, cur := cur, trace := s.trace ++ [.untapped l] }

/-- signal.js:47-49 `raise`: begin iterating over the current array. -/
def raise (s : State L) : State L :=
  { s with
    frames := ⟨s.begun, s.cur, 0, (s.array s.cur).length⟩ :: s.frames
    begun := s.begun + 1
    trace := s.trace ++ [.raised s.begun] }

/-- One step of the program. `forEach` reads the element at each index when it gets there, and skips an
index that no longer exists. (for ui/assets/js/signal.js:6-50) -/
inductive Step : State L → State L → Prop
  | tap (l s) : Step s (tap l s)
  | untap (l s) : Step s (untap l s)
  | raise (s) : Step s (raise s)
  | call (s f fs l) : s.frames = f :: fs → f.next < f.stop → (s.array f.addr)[f.next]? = some l →
      Step s { s with
        frames := { f with next := f.next + 1 } :: fs, trace := s.trace ++ [.called f.id l] }
  | skip (s f fs) : s.frames = f :: fs → f.next < f.stop → (s.array f.addr)[f.next]? = none →
      Step s { s with frames := { f with next := f.next + 1 } :: fs }
  | finish (s f fs) : s.frames = f :: fs → f.stop ≤ f.next →
      Step s { s with frames := fs, trace := s.trace ++ [.finished f.id] }
  | throw (s f fs) : s.frames = f :: fs →
      Step s { s with frames := fs, trace := s.trace ++ [.threw f.id] }

/-- The states the program can reach. (for ui/assets/js/signal.js:6-50) -/
inductive Reach : State L → Prop
  | init : Reach (State.init L)
  | step {s s'} : Reach s → Step s s' → Reach s'

end Hound.Signal
