import Verif.Model.Shutdown

/-!
# What a graceful end of the server means
-/

namespace Hound.Down

/-- A step of the goroutine that ends the server. -/
def Ev.ender : Ev → Bool
  | .notice | .stopSend _ | .stopSkip _ | .stopReturn _ | .stopped | .waited _ | .exit => true
  | _ => false

/-- A step of the program's own goroutines that the end depends on: the one that ends the server and those that update
the repositories. -/
def Ev.program : Ev → Bool
  | .own _ e => e.poller
  | e => e.ender

/-- What happened at searcher `i`. -/
def at_ (i : Nat) : Ev → Option Sr.Ev
  | .own j e => if j = i then some e else none
  | .stopSend j => if j = i then some .stopSend else none
  | .stopSkip j => if j = i then some .stopSkip else none
  | .stopReturn j => if j = i then some .stopReturn else none
  | _ => none

/-- The server will end: until then its goroutines make at most `k` steps, whatever else happens, and always one of them can
make one, or a search is under way that one of them waits for. -/
def WillEnd (w : Site) (s : St) : Prop :=
  ∃ k, ∀ es t, Exec w s es t → (es.filter Ev.program).length ≤ k ∧
    (t.pc = .exited ∨ (∃ e u, e.program = true ∧ Step w t e u) ∨ ∃ i < w.n, (t.srs i).searches ≠ [])

/-- All searchers have been told to stop. -/
def AllTold (s : St) : Prop := s.pc = .exited ∨ ∃ todo, s.pc = .waiting todo

/-- All searchers will be told to stop: until then the ending goroutine makes at most `k` steps, whatever else happens, and it
can always make one. -/
def WillTell (w : Site) (s : St) : Prop :=
  ∃ k, ∀ es t, Exec w s es t → ¬ AllTold t →
    (es.filter Ev.ender).length ≤ k ∧ ∃ e u, e.ender = true ∧ Step w t e u

/-- While `Stop` of searcher `i` ran, its goroutine made no step. -/
def Undisturbed (i : Nat) (es : List Ev) : Prop :=
  ∃ a b c, es.filterMap (at_ i) = a ++ .stopSend :: b ++ .stopReturn :: c ∧ ∀ e ∈ b, e.poller = false

end Hound.Down
