import Verif.Model.Startup

/-! Notions used in the statements about start-up and crashes. -/

namespace Hound.Up

/-- Some worker is in the middle of building an index in directory `d`. -/
def Building (s : St) (d : Nat) : Prop :=
  ∃ i : Nat, (∃ rev st, s.ws[i]? = some (.building rev d st)) ∨ ∃ l rev st, s.ws[i]? = some (.updating l rev d st)

/-- No removal that has begun without deleting the manifest is still unfinished when the process dies. -/
def Uninterrupted (es : List Ev) : Prop :=
  ∀ es1 es2 es3 d, es = es1 ++ .removePart d true :: es2 ++ .crash :: es3 → Ev.removed d ∈ es2

/-- Since the last start no build has failed. -/
def NoFailedBuild (es : List Ev) : Prop :=
  ∀ es1 es2 i, es = es1 ++ .buildFails i :: es2 → Ev.crash ∈ es2

end Hound.Up
