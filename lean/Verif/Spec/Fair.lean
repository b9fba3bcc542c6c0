import Verif.Spec.Shutdown
import Verif.Spec.Current

/-!
# Specification: what happens in the long run

A history that never ends: the state at every moment, and what happens then (nothing, perhaps). What is assumed of the scheduler,
of the locks and of the searches.
-/

namespace Hound.Spec
open Hound.Sr (Cfg)

/-- At every moment a step is made, or nothing happens. -/
def History {σ ε : Type} (Step : σ → ε → σ → Prop) (st : Nat → σ) (ev : Nat → Option ε) : Prop :=
  ∀ n, match ev n with
    | some e => Step (st n) e (st (n + 1))
    | none => st (n + 1) = st n

/-- A goroutine (given by the steps that are its own) is not passed over for ever: if from some moment on it can always make a step, it
makes one. -/
def Moves {σ ε : Type} (Step : σ → ε → σ → Prop) (own : ε → Prop) (st : Nat → σ) (ev : Nat → Option ε) : Prop :=
  ∀ n, (∀ m, n ≤ m → ∃ e t, own e ∧ Step (st m) e t) → ∃ m, n ≤ m ∧ ∃ e, ev m = some e ∧ own e

/-- Every search comes to an end, unless the process does (`over`). -/
def SearchesEnd (over : Nat → Prop) (st : Nat → Sr.St) : Prop :=
  ∀ n i x, (i, x) ∈ (st n).searches → ∃ m, n ≤ m ∧ ((∀ y, (i, y) ∉ (st m).searches) ∨ over m)

/-- The promise of `sync.RWMutex`: no reader gets a lock that a writer is waiting for. The writer is the goroutine that wants to make a
new index live, or to close one. -/
def WritersFirst (st : Nat → Sr.St) (ev : Nat → Option Sr.Ev) : Prop :=
  ∀ n i, (ev n = some (.searchStart i) → ∀ k, (st n).pc ≠ .swapping k) ∧ (ev n = some (.searchRead i) → (st n).pc ≠ .undo (st n).live)

/-! ## One searcher -/

/-- The goroutine of the searcher is not passed over, searches end, and writers go first. -/
structure FairSearcher (c : Cfg) (st : Nat → Sr.St) (ev : Nat → Option Sr.Ev) : Prop where
  moves : Moves (Sr.Step c) (fun e => e.poller = true) st ev
  ends : SearchesEnd (fun _ => False) st
  writers : WritersFirst st ev

/-! ## A repository that changes -/

/-- What happened at the searcher. -/
def atSearcher (ev : Nat → Option Cur.Ev) (n : Nat) : Option Sr.Ev :=
  match ev n with
  | some (.sr e) => some e
  | _ => none

structure FairRepo {F : Type} (c : Cfg) (tree : Nat → F) (st : Nat → Cur.St F) (ev : Nat → Option Cur.Ev) : Prop where
  moves : Moves (Cur.Step c tree) (fun e => ownStep e = true) st ev
  ends : SearchesEnd (fun _ => False) fun n => (st n).sr
  writers : WritersFirst (fun n => (st n).sr) (atSearcher ev)

/-- Every search that starts at moment `n` or later reports, when it ends, revision `r`, and has been made from the files of that
revision. -/
def ShowsFrom {F : Type} (tree : Nat → F) (st : Nat → Cur.St F) (ev : Nat → Option Cur.Ev) (n r : Nat) : Prop :=
  ∀ a b i r' h, n ≤ a → a < b → ev a = some (.sr (.searchStart i)) → ev b = some (.sr (.searchEnd i r' h)) →
    (∀ m, a < m → m < b → ∀ r h, ev m ≠ some (.sr (.searchEnd i r h))) → r' = r ∧ (st b).files h = tree r

/-! ## The server -/

/-- What happened at searcher `i`. -/
def atNumber (ev : Nat → Option Down.Ev) (i n : Nat) : Option Sr.Ev := (ev n).bind (Down.at_ i)

/-- No goroutine of the server is passed over, searches end or are cut off by the end of the process, and writers go first. -/
structure FairServer (w : Down.Site) (st : Nat → Down.St) (ev : Nat → Option Down.Ev) : Prop where
  ending : Moves (Down.Step w) (fun e => e.ender = true) st ev
  updating : ∀ i, i < w.n → Moves (Down.Step w) (fun e => ∃ x, e = .own i x ∧ x.poller = true) st ev
  ends : ∀ i, i < w.n → SearchesEnd (fun n => (st n).pc = .exited) fun n => (st n).srs i
  writers : ∀ i, i < w.n → WritersFirst (fun n => (st n).srs i) (atNumber ev i)

/-- Nobody waits for ever at the limiter, whose channel serves those who wait in their turn: a searcher for which there is a free place again
and again gets one. -/
def LimiterFair (w : Down.Site) (st : Nat → Down.St) (ev : Nat → Option Down.Ev) : Prop :=
  ∀ i n, i < w.n → (∀ m, n ≤ m → ∃ k, m ≤ k ∧ ∃ t, Down.Step w (st k) (.own i .check) t) →
    ∃ m, n ≤ m ∧ ev m = some (.own i .check)

end Hound.Spec
