import Verif.Model.Basic

/-!
# Sharing between repositories while fetching and indexing (searcher/searcher.go:59-69, 264-274, 343-391, 395-447, 506-530)

All repositories' workers (start-up and updates), the token channel that limits them, and the working directories they
fetch into. A worker's working directory is determined by the repository's url only (`vcsDirFor`, 272-274: the sha1 of the
url), so repositories with the same url share one.

Simplifications. `PullOrClone` changes the working directory at one moment, when it returns (or leaves it at anything when it
fails); `index.Build` reads the files one after the other, each at its own moment. A worker that finds an existing index
at start-up builds nothing. Panics are not modelled.
-/

namespace Hound.Ix

/-- A worker. (for searcher/searcher.go:343-391, 506-530) -/
inductive W where
  /-- not fetching: not started, finished, or its searcher waits for the next check -/
  | idle
  /-- searcher/searcher.go:354, 514: in `lim.Acquire()` -/
  | waiting
  /-- token held, in `PullOrClone` -/
  | fetching
  /-- token held, in `index.Build` of revision `rev`; `seen`: the revisions of the files read so far -/
  | indexing (rev : Nat) (seen : List Nat)
  /-- in the deferred `lim.Release()` -/
  | releasing
deriving DecidableEq, Repr

/-- Fetching or indexing, as the property means it. (for searcher/searcher.go:358, 370, 411, 438) -/
def W.busy : W → Bool
  | .fetching | .indexing _ _ => true
  | _ => false

/-- Between `Acquire` and the end of `Release`. (for searcher/searcher.go:63-69) -/
def W.holds : W → Bool
  | .fetching | .indexing _ _ | .releasing => true
  | _ => false

/-- An index that was built: the revision it is labelled with, and the revisions of the files in it.
(for searcher/searcher.go:343-391, 395-447) -/
structure Built where
  worker : Nat
  rev : Nat
  files : List Nat
deriving DecidableEq, Repr

/-- All workers, the tokens in the limiter, the working directories and the indexes built (searcher/searcher.go:59-69, 343-391, 395-447). -/
structure St where
  ws : List W
  /-- the number of elements in the limiter's channel -/
  chan : Nat
  /-- the revision of the files in the working directory of a url -/
  wdir : Nat → Nat
  /-- the indexes built so far -/
  built : List Built

def St.put (s : St) (i : Nat) (w : W) : St := { s with ws := s.ws.set i w }

/-- One step, with `cap` = max-concurrent-indexers (`makeLimiter`, 59-61) and the url of each worker's repository.
(for searcher/searcher.go:343-391, 395-447) -/
inductive Step (cap : Nat) (url : Nat → Nat) : St → St → Prop where
  /-- searcher/searcher.go:303 `go newSearcherConcurrent`, or 483 a check of an existing searcher -/
  | start (s : St) (i : Nat) : s.ws[i]? = some .idle → Step cap url s (s.put i .waiting)
  /-- searcher/searcher.go:63-65 `Acquire`: a send on a buffered channel -/
  | acquire (s : St) (i : Nat) : s.ws[i]? = some .waiting → s.chan < cap →
      Step cap url s { s.put i .fetching with chan := s.chan + 1 }
  /-- searcher/searcher.go:358, 411: `PullOrClone` returns a revision; the files of the working directory are that revision's -/
  | fetched (s : St) (i rev : Nat) : s.ws[i]? = some .fetching →
      Step cap url s { s.put i (.indexing rev []) with wdir := fun u => if u = url i then rev else s.wdir u }
  /-- the same, when nothing is to be built (searcher/searcher.go:365, 430-436) -/
  | unchanged (s : St) (i rev : Nat) : s.ws[i]? = some .fetching →
      Step cap url s { s.put i .releasing with wdir := fun u => if u = url i then rev else s.wdir u }
  /-- searcher/searcher.go:360-363, 412-414: it fails; the working directory may hold anything -/
  | fetchFails (s : St) (i junk : Nat) : s.ws[i]? = some .fetching →
      Step cap url s { s.put i .releasing with wdir := fun u => if u = url i then junk else s.wdir u }
  /-- searcher/searcher.go:370, 438, `index.Build`: one more file is read -/
  | read (s : St) (i rev : Nat) (seen : List Nat) : s.ws[i]? = some (.indexing rev seen) →
      Step cap url s (s.put i (.indexing rev (s.wdir (url i) :: seen)))
  /-- the index is complete -/
  | build (s : St) (i rev : Nat) (seen : List Nat) : s.ws[i]? = some (.indexing rev seen) →
      Step cap url s { s.put i .releasing with built := ⟨i, rev, seen⟩ :: s.built }
  | buildFails (s : St) (i rev : Nat) (seen : List Nat) : s.ws[i]? = some (.indexing rev seen) →
      Step cap url s (s.put i .releasing)
  /-- searcher/searcher.go:67-69 `Release`: a receive -/
  | release (s : St) (i : Nat) : s.ws[i]? = some .releasing → 0 < s.chan →
      Step cap url s { s.put i .idle with chan := s.chan - 1 }

/-- The states that can occur (searcher/searcher.go:285-327, 343-391). -/
inductive Reach (cap n : Nat) (url : Nat → Nat) : St → Prop where
  | init (wdir : Nat → Nat) : Reach cap n url ⟨List.replicate n .idle, 0, wdir, []⟩
  | step {s t : St} : Reach cap n url s → Step cap url s t → Reach cap n url t

end Hound.Ix
