import Verif.Model.ConfigFile
import Verif.Spec.Config
import Verif.Spec.Paths

/-!
# Specification: what a configuration file says

A configuration file is a JSON object. A setting is a member of it. Names of settings are taken regardless of case; the
names of repositories and of version control systems are not. If a setting is given more than once, the last time counts;
`null` is as good as saying nothing about a text, a number or the flag `exclude-dot-files`, and withdraws what was
said before about the other settings. What is said about the repositories, about the settings of version control
systems and about the pattern for links adds up.
-/

namespace Hound.Spec

open JsonText (Value)

/-- The members of an object. -/
def objectMembers : Value Bytes → List (Bytes × Value Bytes)
  | .obj ms => ms
  | _ => []

/-- What is said under a name, in order. -/
def said (name : Bytes) (ms : List (Bytes × Value Bytes)) : List (Value Bytes) :=
  ms.filterMap fun m => if inSmall m.1 = name then some m.2 else none

/-- A value that says something. -/
def Says : Value Bytes → Bool
  | .null => false
  | _ => true

/-- The last text. -/
def textSaid (vs : List (Value Bytes)) : Bytes :=
  match (vs.filter Says).getLast? with
  | some (.str s) => s
  | _ => []

/-- The last number. -/
def numberSaid (vs : List (Value Bytes)) : Int :=
  match (vs.filter Says).getLast? with
  | some (.num n) => n
  | _ => 0

/-- The last yes or no. -/
def flagSaid (vs : List (Value Bytes)) : Bool :=
  match (vs.filter Says).getLast? with
  | some (.bool b) => b
  | _ => false

/-- The last yes or no, unless it was withdrawn. -/
def choiceSaid (vs : List (Value Bytes)) : Option Bool :=
  match vs.getLast? with
  | some (.bool b) => some b
  | _ => none

/-- The last list of texts, unless it was withdrawn. -/
def textsSaid (vs : List (Value Bytes)) : List Bytes :=
  match vs.getLast? with
  | some (.arr xs) => xs.map fun x => textSaid [x]
  | _ => []

/-- The last value, unless it was withdrawn. -/
def valueSaid (vs : List (Value Bytes)) : Option (Value Bytes) := vs.getLast?.filter Says

/-- The members of all objects since the last withdrawal. -/
def membersSaid (vs : List (Value Bytes)) : List (Bytes × Value Bytes) :=
  (vs.reverse.takeWhile Says).reverse.flatMap objectMembers

/-- The value of the last member with exactly that name. -/
def valueOf (k : Bytes) (ms : List (Bytes × Value Bytes)) : Option (Value Bytes) :=
  ((ms.filter fun m => m.1 == k).getLast?).map (·.2)

/-- The configured repositories, by name. -/
def reposSaid (ms : List (Bytes × Value Bytes)) (n : Bytes) : Option (Value Bytes) := valueOf n (membersSaid (said b!"repos" ms))

/-- The global settings of a version control system. -/
def vcsSaid (ms : List (Bytes × Value Bytes)) (vcs : Bytes) : Option (Value Bytes) :=
  valueOf vcs (membersSaid (said b!"vcs-config" ms))

/-- A text, or else another one. -/
def orText (s dflt : Bytes) : Bytes := if s = [] then dflt else s

/-- A number, or else another one. -/
def orNumber (n dflt : Int) : Int := if n = 0 then dflt else n

/-- The version control system of a repository. -/
def vcsOf (rms : List (Bytes × Value Bytes)) : Bytes := orText (textSaid (said b!"vcs" rms)) b!"git"

/-- The repository is as its members and the members of the file say. -/
structure RepoAsSaid (ms rms : List (Bytes × Value Bytes)) (r : Config.Repo) : Prop where
  url : r.url = textSaid (said b!"url" rms)
  displayName : r.displayName = textSaid (said b!"display-name" rms)
  vcs : r.vcs = vcsOf rms
  msBetweenPolls : r.msBetweenPolls = orNumber (numberSaid (said b!"ms-between-poll" rms)) 30000
  baseUrl : r.urlPattern.map (·.baseUrl) = some (orText (textSaid (said b!"base-url" (membersSaid (said b!"url-pattern" rms))))
    b!"{url}/blob/{rev}/{path}{anchor}")
  anchor : r.urlPattern.map (·.anchor) = some (orText (textSaid (said b!"anchor" (membersSaid (said b!"url-pattern" rms))))
    b!"#L{line}")
  excludeDotFiles : r.excludeDotFiles = flagSaid (said b!"exclude-dot-files" rms)
  poll : r.pollUpdatesEnabled = (choiceSaid (said b!"enable-poll-updates" rms)).getD true
  push : r.pushUpdatesEnabled = (choiceSaid (said b!"enable-push-updates" rms)).getD false
  autoGenerated : r.autoGeneratedFiles = textsSaid (said b!"auto-generated-files" rms)
  /-- A setting of the version control system is the repository's own, or else the global one. -/
  settings : ∀ k, ownSetting k r = (((valueSaid (said b!"vcs-config" rms)).bind fun v => valueOf k (objectMembers v)).or
    ((vcsSaid ms (vcsOf rms)).bind fun v => valueOf k (objectMembers v))).map Config.rawMessage

/-! ## Files that can be used -/

def TextOk (v : Value Bytes) : Prop := v = .null ∨ ∃ s, v = .str s
/-- A number of 64 bits. -/
def NumberOk (v : Value Bytes) : Prop := v = .null ∨ ∃ n : Int, v = .num n ∧ -2 ^ 63 ≤ n ∧ n < 2 ^ 63
def FlagOk (v : Value Bytes) : Prop := v = .null ∨ ∃ b, v = .bool b
def TextsOk (v : Value Bytes) : Prop := v = .null ∨ ∃ xs, v = .arr xs ∧ ∀ x ∈ xs, TextOk x
def ObjectOk (P : List (Bytes × Value Bytes) → Prop) (v : Value Bytes) : Prop := v = .null ∨ ∃ ms, v = .obj ms ∧ P ms

/-- All that is said under a name is usable. -/
def SaidOk (name : Bytes) (P : Value Bytes → Prop) (ms : List (Bytes × Value Bytes)) : Prop := ∀ v ∈ said name ms, P v

structure PatternOk (ms : List (Bytes × Value Bytes)) : Prop where
  baseUrl : SaidOk b!"base-url" TextOk ms
  anchor : SaidOk b!"anchor" TextOk ms

structure RepoOk (ms : List (Bytes × Value Bytes)) : Prop where
  url : SaidOk b!"url" TextOk ms
  displayName : SaidOk b!"display-name" TextOk ms
  msBetweenPolls : SaidOk b!"ms-between-poll" NumberOk ms
  vcs : SaidOk b!"vcs" TextOk ms
  urlPattern : SaidOk b!"url-pattern" (ObjectOk PatternOk) ms
  excludeDotFiles : SaidOk b!"exclude-dot-files" FlagOk ms
  poll : SaidOk b!"enable-poll-updates" FlagOk ms
  push : SaidOk b!"enable-push-updates" FlagOk ms
  autoGenerated : SaidOk b!"auto-generated-files" TextsOk ms

/-- Every value has the type of its setting. -/
structure ConfigOk (ms : List (Bytes × Value Bytes)) : Prop where
  dbPath : SaidOk b!"dbpath" TextOk ms
  title : SaidOk b!"title" TextOk ms
  repos : SaidOk b!"repos" (ObjectOk fun rs => ∀ e ∈ rs, ObjectOk RepoOk e.2) ms
  maxConcurrentIndexers : SaidOk b!"max-concurrent-indexers" NumberOk ms
  healthCheckURI : SaidOk b!"health-check-uri" TextOk ms
  vcsConfig : SaidOk b!"vcs-config" (ObjectOk fun _ => True) ms
  resultLimit : SaidOk b!"result-limit" NumberOk ms

/-- No repository is `null`; the settings of version control systems are objects, as are the own settings of every
repository to which they have to be added. -/
structure Usable (ms : List (Bytes × Value Bytes)) : Prop where
  repos : ∀ n, reposSaid ms n ≠ some .null
  vcsConfig : ∀ n v, vcsSaid ms n = some v → ∃ o, v = .obj o
  own : ∀ n rms, reposSaid ms n = some (.obj rms) → (vcsSaid ms (vcsOf rms)).isSome →
    ∀ v, valueSaid (said b!"vcs-config" rms) = some v → ∃ o, v = .obj o

end Hound.Spec
