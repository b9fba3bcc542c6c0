import Verif.Model.Vcs
import Verif.Model.ConfigFile
import Verif.Model.Walk

/-!
# `vcs/vcs.go` and the start of a searcher: which driver, with which settings, in which directory

From the settings of a repository to the working copy and to the options its indexes are built with
(searcher/searcher.go:395-427, 343-380; vcs/vcs.go:36-81 and the constructors of the drivers).
-/

namespace Hound.Vcs
open Hound.Config (Json Repo readText readFlag readTexts readObject foldKey)
open JsonText (Value)

mutual
/-- The message is JSON text; the constructors below decode it once more. This is the value they find there.
(for vcs/git.go:41) -/
def asRead : Json → Value Bytes
  | .null => .null
  | .bool b => .bool b
  | .num n => .num n
  | .str s => .str s
  | .arr xs => .arr (asReadElems xs)
  | .obj ms => .obj (asReadMembers ms)
/-- The elements of a list. (for vcs/git.go:41) -/
def asReadElems : List Json → List (Value Bytes)
  | [] => []
  | x :: xs => asRead x :: asReadElems xs
/-- The members of an object. (for vcs/git.go:41) -/
def asReadMembers : List (Bytes × Json) → List (Bytes × Value Bytes)
  | [] => []
  | m :: ms => (m.1, asRead m.2) :: asReadMembers ms
end

/-- `json.Unmarshal(b, &d)` unless `b` is nil, as in vcs/git.go:37-49, vcs/svn.go:22-32, vcs/local.go:26-36. `none` is an error. -/
def readSettings {α : Type} (f : Bytes × Value Bytes → α → Option α) (init : α) : Option Json → Option α
  | none => some init
  | some j => readObject f (asRead j) init

/-- vcs/git.go:24-28, the fields with their names in JSON. -/
def readGitMember (m : Bytes × Value Bytes) (g : GitDriver) : Option GitDriver :=
  if foldKey m.1 = b!"detect-ref" then (readFlag m.2 g.detectRef).map fun b => { g with detectRef := b }
  else if foldKey m.1 = b!"ref" then (readText m.2 g.ref).map fun s => { g with ref := s }
  else some g

/-- vcs/svn.go:17-20 `SVNDriver`. -/
structure SvnDriver where
  username : Bytes := []
  password : Bytes := []
deriving DecidableEq, Repr

/-- vcs/svn.go:17-20, the fields with their names in JSON. -/
def readSvnMember (m : Bytes × Value Bytes) (d : SvnDriver) : Option SvnDriver :=
  if foldKey m.1 = b!"username" then (readText m.2 d.username).map fun s => { d with username := s }
  else if foldKey m.1 = b!"password" then (readText m.2 d.password).map fun s => { d with password := s }
  else some d

/-- vcs/local.go:21-24 `LocalDriver`. -/
structure LocalDriver where
  watchChanges : Bool := false
  ignoredFiles : List Bytes := []
deriving DecidableEq, Repr

/-- vcs/local.go:21-24, the fields with their names in JSON. -/
def readLocalMember (m : Bytes × Value Bytes) (d : LocalDriver) : Option LocalDriver :=
  if foldKey m.1 = b!"watch-changes" then (readFlag m.2 d.watchChanges).map fun b => { d with watchChanges := b }
  else if foldKey m.1 = b!"ignored-files" then (readTexts m.2).map fun l => { d with ignoredFiles := l }
  else some d

/-- The drivers. (for vcs/vcs.go:16-33) -/
inductive Driver where
  | git (g : GitDriver)
  | hg
  | svn (d : SvnDriver)
  | bzr
  | local_ (d : LocalDriver)
deriving DecidableEq, Repr

/-- vcs/vcs.go:53-65 `New`, with what the drivers register (vcs/git.go:20-22, vcs/hg.go:12-14, vcs/svn.go:13-15,
vcs/bzr.go:12-14, vcs/local.go:17-19). -/
def newDriver (name : Bytes) (cfg : Option Json) : Option Driver :=
  if name = b!"git" then (readSettings readGitMember {} cfg).map .git
  else if name = b!"hg" ∨ name = b!"mercurial" then some .hg
  else if name = b!"svn" ∨ name = b!"subversion" then (readSettings readSvnMember {} cfg).map .svn
  else if name = b!"bzr" then some .bzr
  else if name = b!"local" then (readSettings readLocalMember {} cfg).map .local_
  else none

/-- What a driver uses of the operating system: commands; is there something at a path; what
`git ls-files -z | git check-attr --stdin -z linguist-generated` prints in a directory and whether it succeeds; making a
symbolic link with a target at a path; the files below a path with their contents. (for vcs/vcs.go:67-81) -/
structure Os (W : Type) where
  sh : Sh W
  present : W → Bytes → Bool
  attrs : W → Bytes → Bytes × Bool
  link : W → Bytes → Bytes → Bool × W
  listing : W → Bytes → List Bytes × (Bytes → Option Bytes)

variable {W : Type}

/-- `Pull`: vcs/git.go:91-114, vcs/hg.go:50-59, vcs/svn.go:57-74, vcs/bzr.go:46-56, vcs/local.go:86-88. -/
def Driver.pull (os : Os W) (H : Bytes → Bytes) (d : Driver) (w : W) (dir : Bytes) : Option Bytes × W :=
  match d with
  | .git g => gitPull g os.sh w dir
  | .hg => simplePull Vcs.hg os.sh w dir
  | .svn d => simplePull (Vcs.svn d.username d.password) os.sh w dir
  | .bzr => simplePull Vcs.bzr os.sh w dir
  | .local_ d => (localHeadRev H d.watchChanges dir (os.listing w dir).1 (os.listing w dir).2, w)

/-- `Clone`: vcs/git.go:131-147, vcs/hg.go:61-75, vcs/svn.go:76-96, vcs/bzr.go:58-73, vcs/local.go:90-99. -/
def Driver.clone (os : Os W) (H : Bytes → Bytes) (d : Driver) (w : W) (dir url : Bytes) : Option Bytes × W :=
  match d with
  | .git g => gitClone g os.sh w dir url
  | .hg => simpleClone Vcs.hg os.sh w dir url
  | .svn d => simpleClone (Vcs.svn d.username d.password) os.sh w dir url
  | .bzr => simpleClone Vcs.bzr os.sh w dir url
  | .local_ d =>
    match localCloneTarget url with
    | none => (none, w)
    | some src =>
      let r := os.link w src dir
      if r.1 then Driver.pull os H (.local_ d) r.2 dir else (none, r.2)

/-- `SpecialFiles`: vcs/git.go:149-153, vcs/hg.go:77-81, vcs/svn.go:98-102, vcs/bzr.go:75-79, vcs/local.go:101-103. -/
def Driver.specialFiles : Driver → List Bytes
  | .git _ => [b!".git"]
  | .hg => [b!".hg"]
  | .svn _ => [b!".svn"]
  | .bzr => [b!".bzr"]
  | .local_ d => d.ignoredFiles

/-- `AutoGeneratedFiles`: vcs/git.go:155-198; the other drivers return an empty list. -/
def Driver.autoGeneratedFiles (os : Os W) (d : Driver) (w : W) (dir : Bytes) : List Bytes :=
  match d with
  | .git _ => if (os.attrs w dir).2 then autoGenerated (os.attrs w dir).1 else []
  | _ => []

/-- searcher/searcher.go:264-274 `hashFor`, `vcsDirFor`; `H` is SHA-1. -/
def vcsDirFor (H : Bytes → Bytes) (url : Bytes) : Bytes := b!"vcs-" ++ hexOf (H url)

/-- What `newSearcher` holds on to for as long as the searcher lives. (for searcher/searcher.go:395-427) -/
structure Made where
  driver : Driver
  dir : Bytes
  url : Bytes
  opt : IndexOptions
  autoFiles : List Bytes

/-- An index that is built: the revision it is labelled with, the options, the files to be marked as generated, and the state of
the world (with the working copy) it is built from. (for searcher/searcher.go:395-427) -/
structure Indexed (W : Type) where
  rev : Bytes
  opt : IndexOptions
  autoFiles : List Bytes
  world : W

/-- vcs/vcs.go:76-81 `PullOrClone` of a driver. -/
def Driver.pullOrClone (os : Os W) (H : Bytes → Bytes) (d : Driver) (w : W) (dir url : Bytes) : Option Bytes × W :=
  Vcs.pullOrClone os.present (d.pull os H) (d.clone os H) w dir url

/-- searcher/searcher.go:395-427 and 438-444, the start of `newSearcher` up to the index. Simplification: an index of an earlier
run that is claimed instead (429-436) is not distinguished from a new one. -/
def startSearcher (os : Os W) (H : Bytes → Bytes) (dbpath : Bytes) (r : Repo) (w : W) : Option (Made × Indexed W) × W :=
  let dir := Path.join dbpath (vcsDirFor H r.url)
  match newDriver r.vcs r.vcsConfigMessage with
  | none => (none, w)
  | some d =>
    let p := d.pullOrClone os H w dir r.url
    match p.1 with
    | none => (none, p.2)
    | some rev =>
      let auto := if 0 < r.autoGeneratedFiles.length then r.autoGeneratedFiles else d.autoGeneratedFiles os p.2 dir
      let opt : IndexOptions := ⟨r.excludeDotFiles, d.specialFiles⟩
      (some (⟨d, dir, r.url, opt, auto⟩, ⟨rev, opt, auto, p.2⟩), p.2)

/-- searcher/searcher.go:343-391 `updateAndReindex`, once per element of the list: first something else happens in the world, then the
searcher checks. The result are the indexes that are built, in order. (Building succeeds.) -/
def laterIndexes (os : Os W) (H : Bytes → Bytes) (m : Made) : Bytes → W → List (W → W) → List (Indexed W)
  | _, _, [] => []
  | rev, w, e :: es =>
    let p := m.driver.pullOrClone os H (e w) m.dir m.url
    match p.1 with
    | none => laterIndexes os H m rev p.2 es
    | some new =>
      if new = rev then laterIndexes os H m rev p.2 es
      else ⟨new, m.opt, m.autoFiles, p.2⟩ :: laterIndexes os H m new p.2 es

/-- All indexes a searcher builds for a repository. (for searcher/searcher.go:395-427) -/
def allIndexes (os : Os W) (H : Bytes → Bytes) (dbpath : Bytes) (r : Repo) (w : W) (es : List (W → W)) : List (Indexed W) :=
  match startSearcher os H dbpath r w with
  | (none, _) => []
  | (some (m, i), w') => i :: laterIndexes os H m i.rev w' es

end Hound.Vcs
