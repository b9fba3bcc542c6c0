/-!
# Specification: who listens, and who was called

Only in terms of what happened (`Event`), not of how the program stores listeners.
-/

namespace Hound.Signal

/-- What happens, in order. A delivery (one call of `raise`) is identified by a number. -/
inductive Event (L : Type) where
  | tapped (l : L)
  | untapped (l : L)
  | raised (id : Nat)
  | called (id : Nat) (l : L)
  | finished (id : Nat)
  | threw (id : Nat)
deriving DecidableEq, Repr

end Hound.Signal

namespace Hound.Spec
open Hound.Signal

variable {L : Type} [DecidableEq L]

/-- How one event changes who listens. A listener tapped twice listens twice; untapping removes its
oldest entry, or nothing if it does not listen. -/
def listen (ls : List L) : Event L → List L
  | .tapped l => ls ++ [l]
  | .untapped l => ls.erase l
  | _ => ls

/-- The listeners tapped and not yet untapped, in tap order. -/
def listening (es : List (Event L)) : List L := es.foldl listen []

/-- The listeners called by one delivery, in order. -/
def callsOf (id : Nat) (es : List (Event L)) : List L :=
  es.filterMap fun e => match e with
    | .called id' l => if id' = id then some l else none
    | _ => none

end Hound.Spec
