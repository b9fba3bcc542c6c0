import Verif.Model.Current

/-!
# Specification: searches of a repository that changes

In terms of what happens to the repository and of the calls and answers of the searcher.
-/

namespace Hound.Spec
open Hound.Cur
open Hound.Sr (Cfg)

variable {F : Type}

/-- A search that starts in this state, if it comes to an end, reports revision `r` and is made from the files of that revision. -/
def AnswersFrom (c : Cfg) (tree : Nat → F) (s : St F) (r : Nat) : Prop :=
  ∀ i s1 es s2 r' h s3, Step c tree s (.sr (.searchStart i)) s1 → Exec c tree s1 es s2 → (∀ r h, Ev.sr (.searchEnd i r h) ∉ es) →
    Step c tree s2 (.sr (.searchEnd i r' h)) s3 → r' = r ∧ s2.files h = tree r

/-- Nobody changes the repository or stops the searcher, and fetching, building and removing what is replaced do not fail. -/
def Undisturbed (es : List Ev) : Prop :=
  ∀ e ∈ es, (∀ r, e ≠ .changed r) ∧ (∀ x, e = .sr x → x.stop = false) ∧
    e ≠ .sr (.pulled none) ∧ e ≠ .sr (.built false) ∧ e ≠ .sr (.destroyed false)

/-- Is it a step of the goroutine that keeps the index current? -/
def ownStep : Ev → Bool
  | .changed _ => false
  | .fetched _ => true
  | .sr e => e.poller

/-- The goroutine can make a step, without an error; or it waits for a search to end. -/
def MovesOn (c : Cfg) (tree : Nat → F) (s : St F) : Prop :=
  (∃ e t, ownStep e = true ∧ Undisturbed [e] ∧ Step c tree s e t) ∨ s.sr.searches ≠ []

/-- In a bounded number of steps of the goroutine, and with nothing that stops it, searches are made from the files of revision `r`, as
long as nothing disturbs. -/
def ComesToShow (c : Cfg) (tree : Nat → F) (s : St F) (r : Nat) : Prop :=
  ∃ k, ∀ es t, Exec c tree s es t → Undisturbed es →
    AnswersFrom c tree t r ∨ ((es.filter ownStep).length ≤ k ∧ MovesOn c tree t)

end Hound.Spec
