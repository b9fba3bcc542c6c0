import Verif.Model.Config

/-!
# Specification of configuration settings

Only the data types of the configuration are used here.
-/

namespace Hound.Spec
open Hound.Config

/-- The value of a key in the text of a JSON object: the last member with that key counts. -/
def memberValue (k : Bytes) (j : Json) : Option Json :=
  match j with
  | .obj members => ((members.filter fun e => e.1 == k).getLast?).map (·.2)
  | _ => none

/-- The setting `k` in a repository's own `vcs-config`. -/
def ownSetting (k : Bytes) (r : Repo) : Option Json := r.vcsConfigMessage.bind (memberValue k)

/-- The setting `k` in the global `vcs-config` for a vcs. -/
def globalSetting (k vcs : Bytes) (c : Config) : Option Json :=
  (c.vcsConfigMessages.lookup vcs).bind fun m => m.bind (memberValue k)

/-- A name with its capital letters (A to Z) made small. -/
def inSmall (k : Bytes) : Bytes := k.map fun c => if 65 ≤ c ∧ c ≤ 90 then c + 32 else c

/-- A message mentions a field: some key is the field's name in some case. -/
def mentions (field : Bytes) (msg : Option Json) : Bool :=
  match msg with
  | some (.obj members) => members.any fun e => inSmall e.1 == inSmall field
  | _ => false

/-- A message mentions a field at most once, and then spelled `key`. -/
def MentionsOnceAs (key field : Bytes) (msg : Option Json) : Prop :=
  match msg with
  | some (.obj members) =>
    (members.filter fun e => inSmall e.1 == inSmall field).length ≤ 1 ∧
      ∀ e ∈ members, inSmall e.1 = inSmall field → e.1 = key
  | _ => True

/-- Two messages that are both present or both absent. -/
def SamePresence (a b : Option Json) : Prop := a.isSome = b.isSome

/-- Two repositories that differ at most in the content of their vcs settings. -/
def SamePublic (a b : Repo) : Prop :=
  ∃ m, SamePresence a.vcsConfigMessage m ∧ b = { a with vcsConfigMessage := m }

/-- Two configurations that differ at most in the content of vcs settings, per repository or global. -/
inductive SamePublicRepos : List (Bytes × Option Repo) → List (Bytes × Option Repo) → Prop
  | nil : SamePublicRepos [] []
  | cons {n : Bytes} {a b : Repo} {as bs : List (Bytes × Option Repo)} :
      SamePublic a b → SamePublicRepos as bs → SamePublicRepos ((n, some a) :: as) ((n, some b) :: bs)

end Hound.Spec
