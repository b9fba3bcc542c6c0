import Verif.Model.TextFile
import Verif.Model.IndexWrite
import Verif.Spec.IndexFiles

/-!
# Indexing a directory tree (index/index.go:310-464)

A tree is a value that does not change during the walk.  `filepath.Walk` (standard library) is written out:
`walkNode` and `walkForest` are its function `walk`; entries are listed in the order in which it visits
them.  Errors of creating directories and files below `dst` and of writing `excluded_files.json` are not
modelled (they end the build).  The symbolic link `src` itself has been resolved: `root` is what
`os.Lstat(src)` shows after index/index.go:382-387.
-/

namespace Hound

mutual
/-- What is found at a path. (for index/index.go:369-464) -/
inductive FsNode where
  /-- a directory; whether its entries can be listed -/
  | dir (readable : Bool) (entries : FsForest)
  /-- a symbolic link, device, pipe or socket -/
  | irregular
  /-- a regular file; whether it can be opened, and how reading it goes -/
  | file (opens : Bool) (r : Reader)
  /-- a name that is listed but that `os.Lstat` refuses -/
  | gone
/-- The entries of a directory. (for index/index.go:369-464) -/
inductive FsForest where
  | nil
  | cons (name : Bytes) (node : FsNode) (rest : FsForest)
end

/-- index/index.go:36-40 `IndexOptions` (the generated files play no role here). -/
structure IndexOptions where
  excludeDotFiles : Bool
  specialFiles : List Bytes

/-- The reasons for exclusion: index/index.go:24-28 and those `Add` returns. -/
inductive ExReason where
  | dotFile
  | invalidMode
  | notText
  | add (r : SkipReason)
deriving DecidableEq

/-- The variables of `indexAllFiles`, and the files written below `dst/raw`. (for index/index.go:369-464) -/
structure WalkSt where
  ix : IW
  excluded : List (Bytes × ExReason) := []
  raw : List (Bytes × Bytes) := []

/-- What the callback returns: nil, `filepath.SkipDir`, another error; or the program ends. (for index/index.go:369-464) -/
inductive WalkRes where
  | next (s : WalkSt)
  | skipDir (s : WalkSt)
  | err
  | crash

/-- `info.IsDir()`. (for index/index.go:369-464) -/
def FsNode.isDir : FsNode → Bool
  | .dir _ _ => true
  | _ => false

/-- `info` is nil. (for index/index.go:369-464) -/
def FsNode.isGone : FsNode → Bool
  | .gone => true
  | _ => false

/-- index/index.go:310-333 `addFileToIndex` and its caller (442-448), for a file that can be opened. The copy in
`raw` is what the reads returned; where `Add` gives up early the program's copy is shorter (such a copy is
never read). Compression is not modelled. -/
def addFileToIndex (rel : Bytes) (r : Reader) (s : WalkSt) : WalkRes :=
  match s.ix.add rel r with
  | none => .crash
  | some (answer, ix) =>
    let s := { s with ix := ix, raw := s.raw ++ [(rel, r.delivered)] }
    match answer with
    | some reason => .next { s with excluded := s.excluded ++ [(rel, .add reason)] }
    | none => .next s

/-- index/index.go:389-451, the callback of the walk. `rel` is the path relative to the root, `name` is `info.Name()`
(never empty). For a name that `Lstat` refused `info` is nil and `info.Name()` panics. -/
def visit (opt : IndexOptions) (rel name : Bytes) (n : FsNode) (s : WalkSt) : WalkRes :=
  if n.isGone then .crash
  else if name ∈ opt.specialFiles then
    if n.isDir then .skipDir s else .next s
  else if opt.excludeDotFiles ∧ name.head? = some 46 then
    if n.isDir then .skipDir s
    else .next { s with excluded := s.excluded ++ [(rel, .dotFile)] }
  else match n with
    | .gone => .crash
    | .dir _ _ => .next s
    | .irregular => .next { s with excluded := s.excluded ++ [(rel, .invalidMode)] }
    | .file opens r =>
      if !opens then .err
      else match isTextFile r with
        | none => .err
        | some false => .next { s with excluded := s.excluded ++ [(rel, .notText)] }
        | some true => addFileToIndex rel r s

/-- `filepath.Rel(src, filepath.Join(path, name))` from `filepath.Rel(src, path)`. (for index/index.go:369-464) -/
def joinRel (rel name : Bytes) : Bytes := if rel = [46] then name else rel ++ 47 :: name

mutual
/-- `filepath.walk` (standard library). A directory that cannot be listed is visited, with the error as argument (which the
callback ignores), and not entered. (for index/index.go:369-464) -/
def walkNode (opt : IndexOptions) (rel name : Bytes) (n : FsNode) (s : WalkSt) : WalkRes :=
  match n with
  | .dir readable entries =>
    match visit opt rel name (.dir readable entries) s with
    | .next s' => if readable then walkForest opt rel entries s' else .next s'
    | r => r
  | n => visit opt rel name n s
/-- The loop of `filepath.walk` over the names in a directory. (for index/index.go:369-464) -/
def walkForest (opt : IndexOptions) (rel : Bytes) (f : FsForest) (s : WalkSt) : WalkRes :=
  match f with
  | .nil => .next s
  | .cons name n rest =>
    match walkNode opt (joinRel rel name) name n s with
    | .next s' => walkForest opt rel rest s'
    | .skipDir s' => if n.isDir then walkForest opt rel rest s' else .skipDir s'
    | r => r
end

/-- What `indexAllFiles` leaves behind. (for index/index.go:369-464) -/
structure BuiltDir where
  tri : Bytes
  excluded : List (Bytes × ExReason)
  raw : List (Bytes × Bytes)

/-- How `indexAllFiles` ends. (for index/index.go:369-464) -/
inductive BuildRes where
  | crash
  | err
  | ok (d : BuiltDir)

/-- index/index.go:369-464 `indexAllFiles`; `filepath.Walk` turns `SkipDir` for the root into nil. -/
def indexAllFiles (cfg : IWConfig) (opt : IndexOptions) (rootName : Bytes) (root : FsNode) : BuildRes :=
  match walkNode opt [46] rootName root { ix := IW.create cfg } with
  | .crash => .crash
  | .err => .err
  | .next s | .skipDir s =>
    match s.ix.flush with
    | none => .crash
    | some tri => .ok ⟨tri, s.excluded, s.raw⟩

end Hound
