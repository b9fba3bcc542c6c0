import Verif.Model.Startup

/-!
# One run of the program after another (searcher/searcher.go:203-250, 285-327, 343-447; index/index.go:488-526)

`Verif.Model.Startup` with what the index directories are made of: the files that were in the working copy, and the settings of the
repository (`index.IndexOptions`: which files are left out, which are marked as generated). Between two runs the
configuration may change, and the program may have died at any moment. What a fetch gives, a revision and files, is arbitrary.
-/

namespace Hound.Again
open Up

/-- The configuration of one run: the urls of the repositories and their settings (searcher/searcher.go:285-304, 416-427). -/
structure Life (O : Type) where
  urls : List Bytes
  opts : Nat → O

variable {F O : Type}

/-- What the last fetch for each repository gave (searcher/searcher.go:411, 358); what each index directory was made of
(index/index.go:488-516); all that was ever fetched: url, revision, files, and the settings at that time. -/
structure Made (F O : Type) where
  got : Nat → Bytes × F
  made : Nat → Option (F × O)
  seen : List (Bytes × Bytes × F × O)

/-- A worker has fetched this revision, at the start or for an update (searcher/searcher.go:411, 358-370). -/
def Fetches (w w' : WPC) (rev : Bytes) : Prop :=
  (w = .todo ∧ w' = .pulled rev) ∨ ∃ d n, w = .ok d ∧ w' = .updating d rev n .started

/-- A worker has indexed all files of its working copy into this directory (index/index.go:499). -/
def Writes (w w' : WPC) (d : Nat) : Prop :=
  (∃ rev, w = .building rev d .started ∧ w' = .building rev d .flushed) ∨
  ∃ l rev, w = .updating l rev d .started ∧ w' = .updating l rev d .flushed

/-- One step of a run, with the files. (searcher/searcher.go:285-327, 343-447 and index/index.go:488-526) -/
inductive MStep (l : Life O) : St → Made F O → Ev → St → Made F O → Prop where
  /-- searcher/searcher.go:358, 411 -/
  | fetch (s t : St) (g : Made F O) (i : Nat) (w w' : WPC) (url rev : Bytes) (f : F) : Step l.urls s (.work i) t →
      s.ws[i]? = some w → t.ws[i]? = some w' → Fetches w w' rev → l.urls[i]? = some url →
      MStep l s g (.work i) t
        { g with got := fun j => if j = i then (rev, f) else g.got j, seen := (url, rev, f, l.opts i) :: g.seen }
  /-- index/index.go:499: the files of the working copy, with the settings of `newSearcher` (searcher/searcher.go:423-427) -/
  | write (s t : St) (g : Made F O) (i : Nat) (w w' : WPC) (d : Nat) : Step l.urls s (.work i) t →
      s.ws[i]? = some w → t.ws[i]? = some w' → Writes w w' d →
      MStep l s g (.work i) t { g with made := fun e => if e = d then some ((g.got i).2, l.opts i) else g.made e }
  /-- everything else -/
  | other (s t : St) (g : Made F O) (e : Ev) : Step l.urls s e t → e ≠ .crash →
      (∀ (i : Nat) w w', s.ws[i]? = some w → t.ws[i]? = some w' → (∀ rev, ¬ Fetches w w' rev) ∧ ∀ d, ¬ Writes w w' d) →
      MStep l s g e t g

/-- All that can happen: the configurations of the runs so far, the present one first. (for searcher/searcher.go:285-327) -/
inductive Hist : List (Life O) → St → Made F O → Prop where
  /-- the first run, with an empty data directory -/
  | first (l : Life O) (s : St) (g : Made F O) : Start l.urls (fun _ => none) s → g.seen = [] → Hist [l] s g
  | step (l : Life O) (ls : List (Life O)) (s t : St) (g g' : Made F O) (e : Ev) : Hist (l :: ls) s g → MStep l s g e t g' →
      Hist (l :: ls) t g'
  /-- the program ends or dies, at any moment, and is started again, perhaps with another configuration -/
  | again (l l' : Life O) (ls : List (Life O)) (s t : St) (g : Made F O) : Hist (l :: ls) s g → Start l'.urls s.fs t →
      Hist (l' :: l :: ls) t g

end Hound.Again
