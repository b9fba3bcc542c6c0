import Verif.Model.Searcher

/-!
# A repository that changes, its working copy, and its searcher
(searcher/searcher.go:343-391, 457-498; vcs/vcs.go:76-81; index/index.go:488-516)

`Verif.Model.Searcher` with what its revisions stand for: the repository is at some revision, and can be changed by others at
any moment; a check reads that revision at one moment and puts its files into the working copy (for git this is
`Hound.Vcs.git_pull_fresh`); an index is made of the files in the working copy. Simplifications: the working copy belongs to
this searcher only (see C45 for what happens otherwise); a check reads the revision once; a check that fails leaves anything
in the working copy.
-/

namespace Hound.Cur
open Sr (Cfg)

variable {F : Type}

/-- The searcher, the revision the repository is at, the revision a running check has read, the files in the working copy, and
the files each index was made of. (for searcher/searcher.go:343-391) -/
structure St (F : Type) where
  sr : Sr.St
  upstream : Nat
  fetched : Option Nat
  copy : F
  files : Nat → F

/-- What happens. (for searcher/searcher.go:343-391) -/
inductive Ev where
  /-- somebody changes the repository -/
  | changed (rev : Nat)
  /-- a running check reads the revision of the repository -/
  | fetched (rev : Nat)
  /-- a step of the searcher or of a call -/
  | sr (e : Sr.Ev)
deriving DecidableEq, Repr

/-- One step; `tree r` are the files of revision `r`. (searcher/searcher.go:343-391, 457-498) -/
inductive Step (c : Cfg) (tree : Nat → F) : St F → Ev → St F → Prop where
  | changed (s : St F) (r : Nat) : Step c tree s (.changed r) { s with upstream := r }
  /-- vcs/git.go:91-114, the fetch; in the same way for the other systems -/
  | fetched (s : St F) : s.sr.pc = .pulling → s.fetched = none →
      Step c tree s (.fetched s.upstream) { s with fetched := some s.upstream }
  /-- searcher/searcher.go:358: `PullOrClone` begins -/
  | check (s : St F) (t : Sr.St) : Sr.Step c s.sr .check t → Step c tree s (.sr .check) { s with sr := t, fetched := none }
  /-- it returns the revision that was read, with its files in the working copy -/
  | pulled (s : St F) (r : Nat) (t : Sr.St) : Sr.Step c s.sr (.pulled (some r)) t → s.fetched = some r →
      Step c tree s (.sr (.pulled (some r))) { s with sr := t, copy := tree r }
  /-- it returns an error -/
  | pullFails (s : St F) (t : Sr.St) (x : F) : Sr.Step c s.sr (.pulled none) t →
      Step c tree s (.sr (.pulled none)) { s with sr := t, copy := x }
  /-- searcher/searcher.go:370-380: an index is made of the working copy -/
  | built (s : St F) (t : Sr.St) : Sr.Step c s.sr (.built true) t →
      Step c tree s (.sr (.built true)) { s with sr := t, files := fun h => if h = s.sr.count then s.copy else s.files h }
  /-- everything else -/
  | other (s : St F) (e : Sr.Ev) (t : Sr.St) : Sr.Step c s.sr e t → e ≠ .check → (∀ x, e ≠ .pulled x) → e ≠ .built true →
      Step c tree s (.sr e) { s with sr := t }

/-- A sequence of steps. (for searcher/searcher.go:343-391, 457-498) -/
inductive Exec (c : Cfg) (tree : Nat → F) : St F → List Ev → St F → Prop where
  | nil (s : St F) : Exec c tree s [] s
  | cons {s t u : St F} {e : Ev} {es : List Ev} : Step c tree s e t → Exec c tree t es u → Exec c tree s (e :: es) u

/-- A searcher just made, with an index of the files of revision `rev`, whatever has become of the repository since.
(searcher/searcher.go:449-455) -/
def Start (tree : Nat → F) (rev : Nat) (s : St F) : Prop :=
  s.sr = Sr.St.init rev ∧ s.fetched = none ∧ ∀ h, s.files h = tree rev

/-- All that can happen from then on. (for searcher/searcher.go:343-391, 457-498) -/
def Run (c : Cfg) (tree : Nat → F) (rev : Nat) (es : List Ev) (s : St F) : Prop :=
  ∃ s0, Start tree rev s0 ∧ Exec c tree s0 es s

end Hound.Cur
