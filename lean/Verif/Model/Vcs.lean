import Verif.Model.Api
import Verif.Model.Query

/-!
# `vcs/`: the drivers for version control systems

The operating system is a function `sh`: it takes the state of the world and a command with its
directory, and returns the output, whether the command succeeded, and the new state of the world.
An error in Go is `none`.
-/

namespace Hound.Vcs
open Api (trimSpace splitByte)

/-- A command line with the directory it is run in (`exec.Command(...)`, `cmd.Dir`). (for vcs/git.go:76-89) -/
structure Cmd where
  dir : Bytes
  args : List Bytes
deriving DecidableEq, Repr

/-- Running a command: output, success, new world. (for vcs/git.go:76-89) -/
abbrev Sh (W : Type) := W → Cmd → (Bytes × Bool) × W

/-- vcs/git.go:51-74, vcs/hg.go:22-48, vcs/svn.go:34-55, vcs/bzr.go:22-44 `HeadRev`: the trimmed
output, or an error if the command fails. Simplification: the pipe to the command is not modelled. -/
def headRevBy (args : List Bytes) {W : Type} (sh : Sh W) (w : W) (dir : Bytes) : Option Bytes × W :=
  let r := sh w ⟨dir, args⟩
  (if r.1.2 then some (trimSpace r.1.1) else none, r.2)

/-- vcs/git.go:51-74 `GitDriver.HeadRev`. -/
def gitHeadRev {W : Type} (sh : Sh W) (w : W) (dir : Bytes) : Option Bytes × W :=
  headRevBy [b!"git", b!"rev-parse", b!"HEAD"] sh w dir

/-- vcs/git.go:76-89 `run`: the output; a failure is only logged. -/
def run {W : Type} (sh : Sh W) (w : W) (dir : Bytes) (args : List Bytes) : Bytes × W :=
  let r := sh w ⟨dir, args⟩
  (r.1.1, r.2)

/-- vcs/git.go:24-28 `GitDriver`. -/
structure GitDriver where
  detectRef : Bool := false
  ref : Bytes := []
deriving DecidableEq, Repr

/-- vcs/git.go:15 `defaultRef`. -/
def defaultRef : Bytes := b!"master"

/-- vcs/git.go:18, the text in front of the branch. -/
def headBranchKey : Bytes := b!"HEAD branch: "

/-- vcs/git.go:18, 218 `headBranchRegexp.FindStringSubmatch`: the text up to the end of the line after
the first `HEAD branch: ` that is followed by such text (leftmost match, greedy). -/
def findHeadBranch : Bytes → Option Bytes
  | [] => none
  | c :: cs =>
    let b := ((c :: cs).drop headBranchKey.length).takeWhile (· ≠ NL)
    if headBranchKey <+: c :: cs ∧ b ≠ [] then some b else findHeadBranch cs

/-- vcs/git.go:200-229 `detectRef`; the empty string if nothing is found. -/
def detectRef {W : Type} (sh : Sh W) (w : W) (dir : Bytes) : Bytes × W :=
  let r := run sh w dir [b!"git", b!"remote", b!"show", b!"origin"]
  ((findHeadBranch r.1).getD [], r.2)

/-- vcs/git.go:116-129 `targetRef`. -/
def targetRef {W : Type} (g : GitDriver) (sh : Sh W) (w : W) (dir : Bytes) : Bytes × W :=
  let r : Bytes × W :=
    if g.ref ≠ [] then (g.ref, w)
    else if g.detectRef then detectRef sh w dir
    else ([], w)
  if r.1 = [] then (defaultRef, r.2) else r

/-- vcs/git.go:94-101, the arguments of `git fetch`. -/
def fetchArgs (ref : Bytes) : List Bytes :=
  [b!"git", b!"fetch", b!"--prune", b!"--no-tags", b!"--depth", b!"1", b!"origin",
    b!"+" ++ ref ++ b!":remotes/origin/" ++ ref]

/-- vcs/git.go:105-109, the arguments of `git reset`. -/
def resetArgs (ref : Bytes) : List Bytes :=
  [b!"git", b!"reset", b!"--hard", b!"origin/" ++ ref]

/-- vcs/git.go:91-114 `GitDriver.Pull`. -/
def gitPull {W : Type} (g : GitDriver) (sh : Sh W) (w : W) (dir : Bytes) : Option Bytes × W :=
  let t := targetRef g sh w dir
  let f := run sh t.2 dir (fetchArgs t.1)
  let r := run sh f.2 dir (resetArgs t.1)
  gitHeadRev sh r.2 dir

/-- Go `filepath.Split`: what is up to the last slash, and what is after it. (standard library) (called at vcs/git.go:132) -/
def pathSplit (path : Bytes) : Bytes × Bytes :=
  match lastIndexByte path 47 with
  | none => ([], path)
  | some i => (path.take (i + 1), path.drop (i + 1))

/-- vcs/git.go:131-147 `GitDriver.Clone`. -/
def gitClone {W : Type} (g : GitDriver) (sh : Sh W) (w : W) (dir url : Bytes) : Option Bytes × W :=
  let p := pathSplit dir
  let r := sh w ⟨p.1, [b!"git", b!"clone", b!"--depth", b!"1", url, p.2]⟩
  if r.1.2 then gitPull g sh r.2 dir else (none, r.2)

/-- The three commands of the other drivers. (for vcs/hg.go:22-75) -/
structure Simple where
  head : List Bytes
  pull : List Bytes
  clone : Bytes → Bytes → List Bytes

/-- vcs/hg.go:22-75. -/
def hg : Simple where
  head := [b!"hg", b!"log", b!"-r", b!".", b!"--template", b!"{node}"]
  pull := [b!"hg", b!"pull", b!"-u"]
  clone := fun url rep => [b!"hg", b!"clone", url, rep]

/-- vcs/svn.go:34-96. -/
def svn (user password : Bytes) : Simple where
  head := [b!"svnversion"]
  pull := [b!"svn", b!"update", b!"--ignore-externals", b!"--username", user, b!"--password", password]
  clone := fun url rep => [b!"svn", b!"checkout", b!"--ignore-externals", b!"--username", user,
    b!"--password", password, url, rep]

/-- vcs/bzr.go:22-73. -/
def bzr : Simple where
  head := [b!"bzr", b!"revno"]
  pull := [b!"bzr", b!"pull"]
  clone := fun url rep => [b!"bzr", b!"branch", url, rep]

/-- vcs/hg.go:50-59, vcs/svn.go:57-74, vcs/bzr.go:46-56 `Pull`. -/
def simplePull {W : Type} (d : Simple) (sh : Sh W) (w : W) (dir : Bytes) : Option Bytes × W :=
  let r := sh w ⟨dir, d.pull⟩
  if r.1.2 then headRevBy d.head sh r.2 dir else (none, r.2)

/-- vcs/hg.go:61-75, vcs/svn.go:76-96, vcs/bzr.go:58-73 `Clone`. -/
def simpleClone {W : Type} (d : Simple) (sh : Sh W) (w : W) (dir url : Bytes) : Option Bytes × W :=
  let p := pathSplit dir
  let r := sh w ⟨p.1, d.clone url p.2⟩
  if r.1.2 then headRevBy d.head sh r.2 dir else (none, r.2)

/-- vcs/vcs.go:76-81 `PullOrClone`. -/
def pullOrClone {W : Type} (present : W → Bytes → Bool)
    (pull : W → Bytes → Option Bytes × W) (clone : W → Bytes → Bytes → Option Bytes × W)
    (w : W) (dir url : Bytes) : Option Bytes × W :=
  if present w dir then pull w dir else clone w dir url

/-- vcs/git.go:16 `autoGeneratedAttribute`. -/
def generatedAttr : Bytes := b!"linguist-generated"

/-- vcs/git.go:186-190, the loop over the tokens, three at a time. -/
def generatedTokens : List Bytes → List Bytes
  | path :: attr :: info :: rest =>
    if info = b!"true" ∧ attr = generatedAttr then path :: generatedTokens rest
    else generatedTokens rest
  | _ => []

/-- vcs/git.go:155-198 `AutoGeneratedFiles`, given the output of `git check-attr -z`. -/
def autoGenerated (out : Bytes) : List Bytes := generatedTokens (splitByte 0 out)

/-! ### Local directories -/

/-- Go `strings.LastIndex(s, sub)` for a non-empty `sub`. (standard library) (called at vcs/local.go:66) -/
def lastIndexSub (sub : Bytes) : Bytes → Option Nat
  | [] => none
  | c :: cs =>
    match lastIndexSub sub cs with
    | some i => some (i + 1)
    | none => if sub <+: c :: cs then some 0 else none

/-- A hexadecimal digit. (for vcs/local.go:59-61) -/
def hexDigit (n : Nat) : UInt8 := UInt8.ofNat (if n < 10 then 48 + n else 87 + n)

/-- Go `%x`, `hex.EncodeToString`. (standard library) (called at vcs/local.go:59-61 and searcher/searcher.go:268) -/
def hexOf : Bytes → Bytes
  | [] => []
  | b :: bs => hexDigit (b.toNat / 16) :: hexDigit (b.toNat % 16) :: hexOf bs

/-- vcs/local.go:45-60, the loop of `myHash` over the sorted names: the text that is hashed. `H` is
the hash function (SHA-1); `read` gives the content of a file, `none` if it cannot be opened or read. -/
def hashText (H : Bytes → Bytes) (read : Bytes → Option Bytes) : List Bytes → Option Bytes
  | [] => some []
  | file :: files =>
    if NL ∈ file then none
    else match read file, hashText H read files with
      | some c, some rest => some (hexOf (H c) ++ b!"  " ++ file ++ [NL] ++ rest)
      | _, _ => none

/-- vcs/local.go:41-62 `myHash`. -/
def myHash (H : Bytes → Bytes) (files : List Bytes) (read : Bytes → Option Bytes) : Option Bytes :=
  (hashText H read (sortStrings bytesLt files)).map fun t => hexOf (H t)

/-- vcs/local.go:64-84 `LocalDriver.HeadRev`. `files` and `read` are the names `dirhash.HashDir`
(golang.org/x/mod) collects from the directory the link points to, in any order, and their contents. -/
def localHeadRev (H : Bytes → Bytes) (watch : Bool) (dir : Bytes) (files : List Bytes)
    (read : Bytes → Option Bytes) : Option Bytes :=
  if !watch then
    match lastIndexSub b!"vcs-" dir with
    | none => none
    | some i => some (dir.drop (i + 4))
  else myHash H files read

/-- vcs/local.go:90-99 `LocalDriver.Clone`, up to the call of `os.Symlink`: the target of the link. -/
def localCloneTarget (url : Bytes) : Option Bytes :=
  if b!"file://" <+: url then some (url.drop 7) else none

end Hound.Vcs
