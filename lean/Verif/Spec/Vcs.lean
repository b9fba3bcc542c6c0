import Verif.Model.Vcs

/-!
# Specification: what the drivers may rely on, and what is expected of them
-/

namespace Hound.Spec
open Vcs

/-- A clone and its remote: the commits the remote offers by name (nothing when it cannot be
reached), the remote-tracking branches of the clone, and the commit checked out. -/
structure GitView where
  remote : Bytes → Option Bytes
  tracking : Bytes → Option Bytes
  head : Option Bytes

/-- A name of a branch: letters, digits, `-`, `.`, `/`, `_`. -/
def IsRef (r : Bytes) : Prop :=
  r ≠ [] ∧ ∀ c ∈ r, (48 ≤ c ∧ c ≤ 57) ∨ (65 ≤ c ∧ c ≤ 90) ∨ (97 ≤ c ∧ c ≤ 122) ∨ c = 45 ∨ c = 46 ∨ c = 47 ∨ c = 95

/-- A commit id: lower case hexadecimal digits. -/
def IsCommit (c : Bytes) : Prop := c ≠ [] ∧ ∀ b ∈ c, (48 ≤ b ∧ b ≤ 57) ∨ (97 ≤ b ∧ b ≤ 102)

/-- What `git` does, for the four commands the driver uses in a clone. -/
structure GitLike {W : Type} (sh : Sh W) (view : W → GitView) (dir : Bytes) : Prop where
  /-- fetching a branch the remote has moves the tracking branch there -/
  fetch_ok : ∀ w r c, IsRef r → (view w).remote r = some c →
    let x := sh w ⟨dir, [b!"git", b!"fetch", b!"--prune", b!"--no-tags", b!"--depth", b!"1", b!"origin",
      b!"+" ++ r ++ b!":remotes/origin/" ++ r]⟩
    x.1.2 = true ∧ (view x.2).tracking r = some c ∧ (view x.2).remote = (view w).remote ∧
      (view x.2).head = (view w).head
  /-- fetching a branch the remote does not have fails and changes nothing -/
  fetch_fail : ∀ w r, IsRef r → (view w).remote r = none →
    let x := sh w ⟨dir, [b!"git", b!"fetch", b!"--prune", b!"--no-tags", b!"--depth", b!"1", b!"origin",
      b!"+" ++ r ++ b!":remotes/origin/" ++ r]⟩
    x.1.2 = false ∧ view x.2 = view w
  /-- resetting to a tracking branch checks its commit out -/
  reset_ok : ∀ w r c, IsRef r → (view w).tracking r = some c →
    let x := sh w ⟨dir, [b!"git", b!"reset", b!"--hard", b!"origin/" ++ r]⟩
    x.1.2 = true ∧ (view x.2).head = some c ∧ (view x.2).remote = (view w).remote ∧
      (view x.2).tracking = (view w).tracking
  /-- resetting to a tracking branch that does not exist fails and changes nothing -/
  reset_fail : ∀ w r, IsRef r → (view w).tracking r = none →
    let x := sh w ⟨dir, [b!"git", b!"reset", b!"--hard", b!"origin/" ++ r]⟩
    x.1.2 = false ∧ view x.2 = view w
  /-- asking for the head prints the commit checked out -/
  rev_parse : ∀ w c, (view w).head = some c →
    let x := sh w ⟨dir, [b!"git", b!"rev-parse", b!"HEAD"]⟩
    x.1 = (c ++ [NL], true) ∧ view x.2 = view w
  /-- asking about the remote changes nothing -/
  show_origin : ∀ w, view (sh w ⟨dir, [b!"git", b!"remote", b!"show", b!"origin"]⟩).2 = view w

/-- The output names `b` as the remote's default branch: the first place where the words
`HEAD branch: ` are followed by text in the same line, and `b` is this text. -/
def NamesHead (out b : Bytes) : Prop :=
  ∃ pre post, out = pre ++ b!"HEAD branch: " ++ b ++ post ∧ b ≠ [] ∧ NL ∉ b ∧
    (post = [] ∨ post.head? = some NL) ∧
    ∀ pre' rest, out = pre' ++ b!"HEAD branch: " ++ rest → rest ≠ [] → rest.head? ≠ some NL →
      pre.length ≤ pre'.length

/-- The branch to use: the configured one if given, else the one the remote names as its head if
detection is on and the answer of `git remote show origin` names one, else `master`. -/
inductive SelectedRef (g : GitDriver) (out : Bytes) : Bytes → Prop
  | configured : g.ref ≠ [] → SelectedRef g out g.ref
  | detected {b : Bytes} : g.ref = [] → g.detectRef = true → NamesHead out b → SelectedRef g out b
  | default : g.ref = [] → (g.detectRef = false ∨ ¬ ∃ b, NamesHead out b) → SelectedRef g out b!"master"

/-- One record of `git check-attr -z`. -/
structure AttrRecord where
  path : Bytes
  attr : Bytes
  info : Bytes

/-- The output of `git check-attr -z`: every field is ended by a NUL byte. -/
def attrOutput : List AttrRecord → Bytes
  | [] => []
  | r :: rs => r.path ++ [0] ++ r.attr ++ [0] ++ r.info ++ [0] ++ attrOutput rs

/-- No field contains a NUL byte. -/
def NulFree (rs : List AttrRecord) : Prop := ∀ r ∈ rs, (0 : UInt8) ∉ r.path ∧ (0 : UInt8) ∉ r.attr ∧ (0 : UInt8) ∉ r.info

/-- The state of a directory: its files with their contents, no name twice. -/
def IsDirState (fs : List (Bytes × Bytes)) : Prop := (fs.map (·.1)).Nodup

end Hound.Spec
