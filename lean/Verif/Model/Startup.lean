import Verif.Model.Basic

/-!
# Start-up, index directories, crashes (searcher/searcher.go:49-113, 203-250, 285-327, 343-447, 506-530;
index/index.go:79-110, 470-526)

The `idx-*` directories in the data directory and everything that creates, claims and removes them, for all repositories
at once. One worker per configured repository: first `newSearcherConcurrent`, later the updates of its
searcher. Steps of different workers interleave in any way, and the process can die between any two steps.

Simplifications. A directory is described by what a later start can see of it: is there a readable manifest, and with
which url and revision; are the index file and the copies of the files complete. A half-written manifest
(`gob` stream cut off) cannot be read. A name made by `nextIndexDir` (64 random bits) is not in use.
`RemoveAll` deletes the contents in any order, and the directory last. "The process dies" means that no
further step is made: what was written stays written. The limit on concurrent indexing and the channels are
in `Verif.Model.Indexers` and `Verif.Model.Searcher`.
-/

namespace Hound.Up

/-- An index directory: `metadata.gob` as (url, revision) if it can be read; is the rest complete.
(for searcher/searcher.go:285-327, 343-447) -/
structure DirSt where
  manifest : Option (Bytes × Bytes)
  complete : Bool
deriving DecidableEq, Repr

/-- The index directories by name. (for searcher/searcher.go:285-327, 343-447) -/
abbrev FS := Nat → Option DirSt

/-- One directory changes (for searcher/searcher.go:240-249). -/
def FS.set (fs : FS) (d : Nat) (x : Option DirSt) : FS := fun e => if e = d then x else fs e

/-- index/index.go:79-85 `IndexRef`. -/
structure Ref where
  dir : Nat
  url : Bytes
  rev : Bytes
deriving DecidableEq, Repr

/-- index/index.go:470-486 `Read`, as used by searcher/searcher.go:220: errors are ignored, and leave url and revision
empty. -/
def readRef (fs : FS) (d : Nat) : Ref :=
  match (fs d).bind (·.manifest) with
  | some (url, rev) => ⟨d, url, rev⟩
  | none => ⟨d, [], []⟩

/-- searcher/searcher.go:75-82 `find`. -/
def findRef (refs : List Ref) (url rev : Bytes) : Option Ref := refs.find? (fun r => r.url = url ∧ r.rev = rev)

/-- The stages of `index.Build` (index/index.go:488-516) in a new directory. -/
inductive Stage where
  /-- the directory was made; files are being indexed -/
  | started
  /-- the index file is written (`ix.Flush()`), the manifest not yet -/
  | flushed
deriving DecidableEq, Repr

/-- Where the worker of one repository stands. (for searcher/searcher.go:285-327, 343-447) -/
inductive WPC where
  /-- searcher/searcher.go:395-411, before `PullOrClone` returns -/
  | todo
  /-- searcher/searcher.go:429-436: revision known -/
  | pulled (rev : Bytes)
  /-- searcher/searcher.go:438, 240: about to look for directory `d` -/
  | chosen (rev : Bytes) (d : Nat)
  /-- in `index.Build` of the first index -/
  | building (rev : Bytes) (d : Nat) (st : Stage)
  /-- the searcher exists, its live index is in `d` -/
  | ok (d : Nat)
  /-- `newSearcher` returned an error -/
  | failed
  /-- searcher/searcher.go:370: an update builds in `n`; `d` is live -/
  | updating (d : Nat) (rev : Bytes) (n : Nat) (st : Stage)
  /-- searcher/searcher.go:382: `n` is live, `d` is being removed -/
  | swapping (d n : Nat)
  /-- searcher/searcher.go:384: that failed, and `n` is removed although it is live -/
  | dropping (n : Nat)
deriving DecidableEq, Repr

/-- Where `MakeAll` stands. (for searcher/searcher.go:285-327, 343-447) -/
inductive Main where
  /-- searcher/searcher.go:302-315: waiting for the workers -/
  | collecting
  /-- searcher/searcher.go:317: in `removeUnclaimed`; the references still to look at -/
  | removing (left : List Ref)
  /-- searcher/searcher.go:326: returned -/
  | serving
  /-- the program has ended or `MakeAll` returned an error (`houndd` panics) -/
  | dead
deriving DecidableEq, Repr

structure St where
  fs : FS
  /-- what `findExistingRefs` found -/
  refs : List Ref
  /-- directories claimed -/
  claimed : List Nat
  ws : List WPC
  main : Main

inductive Ev where
  | work (i : Nat)
  /-- a build of worker `i` failed and left its directory behind -/
  | buildFails (i : Nat)
  /-- a worker claims a directory of an earlier run -/
  | claim (i d : Nat)
  /-- part of a directory was removed; is its manifest still there -/
  | removePart (d : Nat) (manifestKept : Bool)
  | removed (d : Nat)
  | removeFails (d : Nat)
  | keep (d : Nat)
  | collected
  /-- `MakeAll` returns -/
  | serve
  /-- the process dies and starts again -/
  | crash
deriving DecidableEq, Repr

/-- The directories workers are using or about to use. (for searcher/searcher.go:285-327, 343-447) -/
def WPC.dirs : WPC → List Nat
  | .todo | .pulled _ | .failed => []
  | .chosen _ d | .building _ d _ | .ok d | .dropping d => [d]
  | .updating d _ n _ | .swapping d n => [d, n]

/-- A name of which nothing exists and which nobody uses: what `nextIndexDir` (searcher/searcher.go:205-208) is taken to
give. -/
def Fresh (s : St) (d : Nat) : Prop := s.fs d = none ∧ ∀ w ∈ s.ws, d ∉ w.dirs

/-- searcher/searcher.go:212-228 `findExistingRefs`: one reference for every directory. -/
def Found (fs : FS) (refs : List Ref) : Prop :=
  (refs.map (·.dir)).Nodup ∧ ∀ r, r ∈ refs ↔ fs r.dir ≠ none ∧ r = readRef fs r.dir

/-- The start of `MakeAll` for these repositories (their urls) on this disk (searcher/searcher.go:285-304). -/
structure Start (urls : List Bytes) (fs : FS) (s : St) : Prop where
  fs_eq : s.fs = fs
  found : Found fs s.refs
  claimed : s.claimed = []
  ws : s.ws = urls.map (fun _ => .todo)
  main : s.main = .collecting

/-- The worker of one repository goes on (for searcher/searcher.go:395-447). -/
def St.put (s : St) (i : Nat) (w : WPC) : St := { s with ws := s.ws.set i w }

/-- One step of a start (searcher/searcher.go:285-327, 343-447 and index/index.go:470-526). -/
inductive Step (urls : List Bytes) : St → Ev → St → Prop where
  /-- searcher/searcher.go:405-414: an unknown vcs, or `PullOrClone` fails -/
  | pullFails (s : St) (i : Nat) : s.ws[i]? = some .todo → s.main ≠ .dead → Step urls s (.work i) (s.put i .failed)
  /-- searcher/searcher.go:411: any revision -/
  | pull (s : St) (i : Nat) (rev : Bytes) : s.ws[i]? = some .todo → s.main ≠ .dead →
      Step urls s (.work i) (s.put i (.pulled rev))
  /-- searcher/searcher.go:430-436: a directory of an earlier run fits -/
  | claim (s : St) (i : Nat) (url rev : Bytes) (r : Ref) : s.ws[i]? = some (.pulled rev) → s.main ≠ .dead →
      urls[i]? = some url → findRef s.refs url rev = some r →
      Step urls s (.claim i r.dir) { s.put i (.chosen rev r.dir) with claimed := r.dir :: s.claimed }
  | fresh (s : St) (i : Nat) (url rev : Bytes) (d : Nat) : s.ws[i]? = some (.pulled rev) → s.main ≠ .dead →
      urls[i]? = some url → findRef s.refs url rev = none → Fresh s d →
      Step urls s (.work i) (s.put i (.chosen rev d))
  /-- searcher/searcher.go:249, index/index.go:519-526: the directory is there and is opened -/
  | openOk (s : St) (i : Nat) (rev : Bytes) (d : Nat) (x : DirSt) : s.ws[i]? = some (.chosen rev d) →
      s.main ≠ .dead → s.fs d = some x → x.manifest ≠ none → x.complete = true →
      Step urls s (.work i) (s.put i (.ok d))
  /-- its manifest cannot be read -/
  | openFails (s : St) (i : Nat) (rev : Bytes) (d : Nat) (x : DirSt) : s.ws[i]? = some (.chosen rev d) →
      s.main ≠ .dead → s.fs d = some x → x.manifest = none → Step urls s (.work i) (s.put i .failed)
  /-- its index file is missing or damaged: `log.Fatal` -/
  | openFatal (s : St) (i : Nat) (rev : Bytes) (d : Nat) (x : DirSt) : s.ws[i]? = some (.chosen rev d) →
      s.main ≠ .dead → s.fs d = some x → x.manifest ≠ none → x.complete = false →
      Step urls s (.work i) { s with main := .dead }
  /-- searcher/searcher.go:240-241, index/index.go:488-497: the directory is made -/
  | mkdir (s : St) (i : Nat) (rev : Bytes) (d : Nat) : s.ws[i]? = some (.chosen rev d) → s.main ≠ .dead →
      s.fs d = none →
      Step urls s (.work i) { s.put i (.building rev d .started) with fs := s.fs.set d (some ⟨none, false⟩) }
  /-- index/index.go:499, all files indexed and the index file written -/
  | flush (s : St) (i : Nat) (rev : Bytes) (d : Nat) (x : DirSt) : s.ws[i]? = some (.building rev d .started) →
      s.main ≠ .dead → s.fs d = some x →
      Step urls s (.work i) { s.put i (.building rev d .flushed) with fs := s.fs.set d (some { x with complete := true }) }
  /-- index/index.go:511-513 `writeManifest`, then `Open` -/
  | manifest (s : St) (i : Nat) (url rev : Bytes) (d : Nat) (x : DirSt) :
      s.ws[i]? = some (.building rev d .flushed) → s.main ≠ .dead → urls[i]? = some url → s.fs d = some x →
      Step urls s (.work i) { s.put i (.ok d) with fs := s.fs.set d (some { x with manifest := some (url, rev) }) }
  | buildFails (s : St) (i : Nat) (rev : Bytes) (d : Nat) (st : Stage) : s.ws[i]? = some (.building rev d st) →
      s.main ≠ .dead → Step urls s (.buildFails i) (s.put i .failed)
  /-- searcher/searcher.go:306-315: all results are in -/
  | collected (s : St) : s.main = .collecting → (∀ w ∈ s.ws, w = .failed ∨ ∃ d, w = .ok d) →
      Step urls s .collected { s with main := .removing s.refs }
  /-- searcher/searcher.go:104-106 -/
  | keep (s : St) (r : Ref) (rs : List Ref) : s.main = .removing (r :: rs) → r.dir ∈ s.claimed →
      Step urls s (.keep r.dir) { s with main := .removing rs }
  /-- searcher/searcher.go:108, `RemoveAll`: first some contents, then the directory -/
  | removePart (s : St) (r : Ref) (rs : List Ref) (x : DirSt) (m : Option (Bytes × Bytes)) :
      s.main = .removing (r :: rs) → r.dir ∉ s.claimed → s.fs r.dir = some x → (m = x.manifest ∨ m = none) →
      Step urls s (.removePart r.dir m.isSome) { s with fs := s.fs.set r.dir (some ⟨m, false⟩) }
  | remove (s : St) (r : Ref) (rs : List Ref) : s.main = .removing (r :: rs) → r.dir ∉ s.claimed →
      Step urls s (.removed r.dir) { s with main := .removing rs, fs := s.fs.set r.dir none }
  | removeFails (s : St) (r : Ref) (rs : List Ref) : s.main = .removing (r :: rs) → r.dir ∉ s.claimed →
      Step urls s (.removeFails r.dir) { s with main := .dead }
  /-- searcher/searcher.go:317-326 -/
  | serve (s : St) : s.main = .removing [] → Step urls s .serve { s with main := .serving }
  /-- searcher/searcher.go:370: an update starts to build (its searcher is polling only after 323 `begin`) -/
  | update (s : St) (i : Nat) (d n : Nat) (rev : Bytes) : s.ws[i]? = some (.ok d) → s.main = .serving → Fresh s n →
      Step urls s (.work i) { s.put i (.updating d rev n .started) with fs := s.fs.set n (some ⟨none, false⟩) }
  | updateFlush (s : St) (i : Nat) (d n : Nat) (rev : Bytes) (x : DirSt) :
      s.ws[i]? = some (.updating d rev n .started) → s.main = .serving → s.fs n = some x →
      Step urls s (.work i)
        { s.put i (.updating d rev n .flushed) with fs := s.fs.set n (some { x with complete := true }) }
  /-- the manifest is written, the index opened and swapped in -/
  | updateManifest (s : St) (i : Nat) (url : Bytes) (d n : Nat) (rev : Bytes) (x : DirSt) :
      s.ws[i]? = some (.updating d rev n .flushed) → s.main = .serving → urls[i]? = some url → s.fs n = some x →
      Step urls s (.work i)
        { s.put i (.swapping d n) with fs := s.fs.set n (some { x with manifest := some (url, rev) }) }
  | updateFails (s : St) (i : Nat) (d n : Nat) (rev : Bytes) (st : Stage) :
      s.ws[i]? = some (.updating d rev n st) → s.main = .serving → Step urls s (.buildFails i) (s.put i (.ok d))
  /-- searcher/searcher.go:124, `Destroy` of the index replaced -/
  | destroyPart (s : St) (i : Nat) (d n : Nat) (x : DirSt) (m : Option (Bytes × Bytes)) :
      s.ws[i]? = some (.swapping d n) → s.main = .serving → s.fs d = some x → (m = x.manifest ∨ m = none) →
      Step urls s (.removePart d m.isSome) { s with fs := s.fs.set d (some ⟨m, false⟩) }
  | destroy (s : St) (i : Nat) (d n : Nat) : s.ws[i]? = some (.swapping d n) → s.main = .serving →
      Step urls s (.removed d) { s.put i (.ok n) with fs := s.fs.set d none }
  /-- searcher/searcher.go:124, 382-386: `Destroy` of the index replaced fails, before or after removing something -/
  | destroyFails (s : St) (i : Nat) (d n : Nat) : s.ws[i]? = some (.swapping d n) → s.main = .serving →
      Step urls s (.removeFails d) (s.put i (.dropping n))
  /-- searcher/searcher.go:384 -/
  | dropPart (s : St) (i : Nat) (n : Nat) (x : DirSt) (m : Option (Bytes × Bytes)) :
      s.ws[i]? = some (.dropping n) → s.main = .serving → s.fs n = some x → (m = x.manifest ∨ m = none) →
      Step urls s (.removePart n m.isSome) { s with fs := s.fs.set n (some ⟨m, false⟩) }
  | drop (s : St) (i : Nat) (n : Nat) : s.ws[i]? = some (.dropping n) → s.main = .serving →
      Step urls s (.removed n) { s.put i (.ok n) with fs := s.fs.set n none }
  | dropFails (s : St) (i : Nat) (n : Nat) : s.ws[i]? = some (.dropping n) → s.main = .serving →
      Step urls s (.removeFails n) (s.put i (.ok n))
  /-- the process dies, at any moment, and starts again -/
  | crash (s t : St) : Start urls s.fs t → Step urls s .crash t

inductive Exec (urls : List Bytes) : St → List Ev → St → Prop where
  | nil (s : St) : Exec urls s [] s
  | cons {s t u : St} {e : Ev} {es : List Ev} : Step urls s e t → Exec urls t es u → Exec urls s (e :: es) u

/-- All that can happen from the first start with an empty data directory. (for searcher/searcher.go:285-327, 343-447) -/
def Run (urls : List Bytes) (es : List Ev) (s : St) : Prop :=
  ∃ s0, Start urls (fun _ => none) s0 ∧ Exec urls s0 es s

/-- searcher/searcher.go:286-287, 306-315: the two maps after receiving these results in this order. `searchers[name]` and
`errs[name]`. -/
def collect : List (Bytes × Except Bytes Nat) → (Bytes → Option Nat) × (Bytes → Option Bytes)
  | rs => rs.foldl (fun m r =>
      match r.2 with
      | .error e => (m.1, fun n => if n = r.1 then some e else m.2 n)
      | .ok s => (fun n => if n = r.1 then some s else m.1 n, m.2)) (fun _ => none, fun _ => none)

end Hound.Up
