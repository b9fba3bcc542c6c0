import Verif.Model.WorkDir
import Verif.Spec.ConfigFile
import Verif.Spec.Vcs

/-!
# Specification: what the settings of a repository mean for its working copy
-/

namespace Hound.Spec
open Vcs JsonText
open Hound.Config (Json)

/-- The settings for the version control system. -/
def settingsIn : Option Json → List (Bytes × Value Bytes)
  | none => []
  | some j => objectMembers (asRead j)

/-- The version control system of that name, with these settings. -/
inductive DriverAsSaid (ms : List (Bytes × Value Bytes)) : Bytes → Driver → Prop
  | git : DriverAsSaid ms b!"git" (.git ⟨flagSaid (said b!"detect-ref" ms), textSaid (said b!"ref" ms)⟩)
  | hg : DriverAsSaid ms b!"hg" .hg
  | mercurial : DriverAsSaid ms b!"mercurial" .hg
  | svn : DriverAsSaid ms b!"svn" (.svn ⟨textSaid (said b!"username" ms), textSaid (said b!"password" ms)⟩)
  | subversion : DriverAsSaid ms b!"subversion" (.svn ⟨textSaid (said b!"username" ms), textSaid (said b!"password" ms)⟩)
  | bzr : DriverAsSaid ms b!"bzr" .bzr
  | local_ : DriverAsSaid ms b!"local" (.local_ ⟨flagSaid (said b!"watch-changes" ms), textsSaid (said b!"ignored-files" ms)⟩)

/-- The settings, if there are any, are an object with this property (or `null`). -/
def MessageOk (P : List (Bytes × Value Bytes) → Prop) (cfg : Option Json) : Prop := ∀ j, cfg = some j → ObjectOk P (asRead j)

/-- There is a version control system of that name, and the settings it knows have the right types. -/
inductive DriverUsable (cfg : Option Json) : Bytes → Prop
  | git : MessageOk (fun ms => SaidOk b!"detect-ref" FlagOk ms ∧ SaidOk b!"ref" TextOk ms) cfg → DriverUsable cfg b!"git"
  | hg : DriverUsable cfg b!"hg"
  | mercurial : DriverUsable cfg b!"mercurial"
  | svn : MessageOk (fun ms => SaidOk b!"username" TextOk ms ∧ SaidOk b!"password" TextOk ms) cfg → DriverUsable cfg b!"svn"
  | subversion : MessageOk (fun ms => SaidOk b!"username" TextOk ms ∧ SaidOk b!"password" TextOk ms) cfg →
      DriverUsable cfg b!"subversion"
  | bzr : DriverUsable cfg b!"bzr"
  | local_ : MessageOk (fun ms => SaidOk b!"watch-changes" FlagOk ms ∧ SaidOk b!"ignored-files" TextsOk ms) cfg →
      DriverUsable cfg b!"local"

/-- The commands of the tools that are used in the same way: to update a working copy, to make one of an url under a name, and to ask
for its revision. -/
inductive ToolCommands : Driver → List Bytes → (Bytes → Bytes → List Bytes) → List Bytes → Prop
  | hg : ToolCommands .hg [b!"hg", b!"pull", b!"-u"] (fun url name => [b!"hg", b!"clone", url, name])
      [b!"hg", b!"log", b!"-r", b!".", b!"--template", b!"{node}"]
  | svn (d : SvnDriver) : ToolCommands (.svn d)
      [b!"svn", b!"update", b!"--ignore-externals", b!"--username", d.username, b!"--password", d.password]
      (fun url name => [b!"svn", b!"checkout", b!"--ignore-externals", b!"--username", d.username, b!"--password", d.password,
        url, name]) [b!"svnversion"]
  | bzr : ToolCommands .bzr [b!"bzr", b!"pull"] (fun url name => [b!"bzr", b!"branch", url, name]) [b!"bzr", b!"revno"]

/-- The files and directories in which the version control system keeps its own data, or that are to be ignored. -/
def ownFiles : Driver → List Bytes
  | .git _ => [b!".git"]
  | .hg => [b!".hg"]
  | .svn _ => [b!".svn"]
  | .bzr => [b!".bzr"]
  | .local_ d => d.ignoredFiles

/-- The bytes in hexadecimal. -/
def hexText (bs : Bytes) : Bytes :=
  bs.flatMap fun b => [(b!"0123456789abcdef").getD (b.toNat / 16) 0, (b!"0123456789abcdef").getD (b.toNat % 16) 0]

/-- The state of the world after the searcher has checked the working copy once after each of the events. -/
def afterChecks {W : Type} (check : W → Option Bytes × W) : W → List (W → W) → W
  | w, [] => w
  | w, e :: es => afterChecks check (check (e w)).2 es

/-- A setting occurs at most once, and in small letters. -/
def OnceSaid (name : Bytes) (ms : List (Bytes × Value Bytes)) : Prop :=
  (ms.filter fun m => inSmall m.1 == name).length ≤ 1 ∧ ∀ m ∈ ms, inSmall m.1 = name → m.1 = name

/-- The own settings of a repository for its version control system. -/
def ownSettings (rms : List (Bytes × Value Bytes)) : List (Bytes × Value Bytes) :=
  (valueSaid (said b!"vcs-config" rms)).elim [] objectMembers

/-- The global ones. -/
def globalSettings (ms : List (Bytes × Value Bytes)) (vcs : Bytes) : List (Bytes × Value Bytes) :=
  (vcsSaid ms vcs).elim [] objectMembers

/-- The value of a setting: the own one, or else the global one. -/
def settingOf (name : Bytes) (own glob : List (Bytes × Value Bytes)) : List (Value Bytes) :=
  ((valueOf name own).or (valueOf name glob)).toList

/-- The files git marks as generated, by the records it prints. -/
def generatedBy (rs : List AttrRecord) : List Bytes :=
  (rs.filter fun r => decide (r.info = b!"true" ∧ r.attr = b!"linguist-generated")).map (·.path)

end Hound.Spec
