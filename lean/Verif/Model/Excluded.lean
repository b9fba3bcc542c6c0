import Verif.Model.Walk
import Verif.Model.Answer

/-!
# The list of excluded files: index/index.go, searcher/searcher.go, api/api.go, ui/assets/js/excluded_files.js
-/

namespace Hound.Excl

open Hound.Config (Json)
open JsonText (Value)
open Ui (JsStr)

/-! ## The file -/

/-- index/index.go:25-27 and the texts `Add` returns (codesearch/index/write.go:162, 169, 188, 197); `ratio` is what
`%0.2f` makes of the ratio. -/
def reasonText (ratio : Bytes) : ExReason → Bytes
  | .dotFile => b!"Dot files are excluded."
  | .invalidMode => b!"Invalid file mode."
  | .notText => b!"Not a text file."
  | .add .invalidUTF8 => b!"Invalid UTF-8"
  | .add .tooLong => b!"Too long"
  | .add .trigramRatio => b!"Trigram ratio too high (" ++ ratio ++ b!"), probably not text"
  | .add .longLines => b!"Too many long lines, ratio: " ++ ratio

/-- index/index.go:74-77 `ExcludedFile`: the name and the reason, as JSON. -/
def entryJson (e : Bytes × Bytes) : Json := .obj [(b!"Filename", .str e.1), (b!"Reason", .str e.2)]

/-- index/index.go:349-358 `writeExcludedFilesJson`: the file. The list is never nil (index/index.go:373). -/
def listText (l : List (Bytes × Bytes)) : Bytes := JsonText.encode (.arr (l.map entryJson))

/-! ## The server -/

/-- What concerns the list of one repository: the directory of the current index, the file `excluded_files.json` of every
directory, the directories used so far, the one to be destroyed, and the requests that know which directory to read.
(for searcher/searcher.go:117-125, 139-146) -/
structure Srv where
  dir : Nat
  store : Nat → Option Bytes
  used : List Nat
  doomed : Option Nat
  reads : List (Nat × Nat)

/-- What happens (searcher/searcher.go:117-125, 139-146). -/
inductive Ev where
  /-- searcher/searcher.go:117-122 `swapIndexes`: an index with this list replaces the current one -/
  | publish (list : Bytes)
  /-- searcher/searcher.go:124 `oldIdx.Destroy()` -/
  | destroy
  /-- searcher/searcher.go:140: request `i` asks for the directory (without the lock) -/
  | begin (i : Nat)
  /-- searcher/searcher.go:141-145, api/api.go:238-240: it reads the file and answers -/
  | finish (i : Nat) (body : Bytes)
deriving DecidableEq

/-- One step. The directory of a new index is a new one (C23); the old index is destroyed before the next is published,
by the goroutine that published it. (for searcher/searcher.go:117-125, 139-146) -/
inductive Step : Srv → Ev → Srv → Prop
  | publish {s : Srv} {d : Nat} {b : Bytes} : d ∉ s.used → s.doomed = none →
      Step s (.publish b) { s with
        dir := d, store := fun x => if x = d then some b else s.store x, used := d :: s.used, doomed := some s.dir }
  | destroy {s : Srv} {d : Nat} : s.doomed = some d →
      Step s .destroy { s with store := fun x => if x = d then none else s.store x, doomed := none }
  | begin {s : Srv} {i : Nat} : i ∉ s.reads.map (·.1) → Step s (.begin i) { s with reads := (i, s.dir) :: s.reads }
  | finish {s : Srv} {i d : Nat} : (i, d) ∈ s.reads →
      Step s (.finish i ((s.store d).getD [])) { s with reads := s.reads.filter (·.1 ≠ i) }

/-- A sequence of steps (searcher/searcher.go:117-125, 139-146). -/
inductive Exec : Srv → List Ev → Srv → Prop
  | nil {s : Srv} : Exec s [] s
  | cons {s t u : Srv} {e : Ev} {es : List Ev} : Step s e t → Exec t es u → Exec s (e :: es) u

/-- The server when the repository has got its first index. (for searcher/searcher.go:117-125, 139-146) -/
def start (list : Bytes) : Srv := ⟨0, fun x => if x = 0 then some list else none, [0], none, []⟩

/-- api/api.go:235-241: the answer for a repository with this list. `none`: there is no such repository, `idx[repo]` is
nil, the handler panics and the connection is closed without an answer. -/
def excludes (list : Bytes → Option Bytes) (repo : Bytes) : Option (Nat × Bytes) := (list repo).map fun l => (200, l)

/-! ## The page of excluded files -/

/-- What `files` can be in the state: a list of names and reasons, or another value. (for ui/assets/js/excluded_files.js:93-97) -/
abbrev Files := Option (List (JsStr × JsStr))

/-- What the page shows (ui/assets/js/excluded_files.js:19-42). -/
inductive Screen where
  | searching
  | table (repo : Option JsStr) (rows : List (JsStr × JsStr))
deriving DecidableEq

/-- The state of `FilterableExcludedFiles` (excluded_files.js:78-98), the requests without an answer, and what is on the
screen. A repository is given by its name. -/
structure Page where
  files : Files := some []
  repo : Option JsStr := none
  searching : Bool := false
  pending : List JsStr := []
  screen : Screen := .table none []

/-- excluded_files.js:19-42 `render` of `ExcludedTable`. If `files` is no list, `forEach` is missing and `render` throws:
the screen stays. -/
def render (p : Page) : Page :=
  if p.searching then { p with screen := .searching }
  else match p.files with
    | some l => { p with screen := .table p.repo l }
    | none => p

/-- excluded_files.js:100-109: a click on the button of a repository. -/
def click (p : Page) (repo : JsStr) : Page :=
  render { p with searching := true, repo := some repo, pending := p.pending ++ [repo] }

/-- The rows of an answer; `none`: it is no list of objects with these two texts. (for ui/assets/js/excluded_files.js:19-42) -/
def rows (v : Value JsStr) : Files :=
  Wire.jsArr (fun e =>
    match Wire.jsStr (Wire.jsProp b!"Filename" e), Wire.jsStr (Wire.jsProp b!"Reason" e) with
    | some n, some r => some (n, r)
    | _, _ => none) (some v)

/-- excluded_files.js:110-116: the outcome of the `k`th request without an answer. `reqwest` calls `error`, which only
logs, if there is no answer, if the status is not 2xx, or if `JSON.parse` refuses the body; for an empty body it calls
`success` with the request itself in place of the data. -/
def answer (p : Page) (k : Nat) (outcome : Option (Nat × Bytes)) : Page :=
  let q := { p with pending := p.pending.eraseIdx k }
  match outcome with
  | none => q
  | some (status, body) =>
    if status < 200 ∨ 300 ≤ status then q
    else if body = [] then render { q with files := none, searching := false }
    else match JsonText.jsRead body with
      | none => q
      | some v => render { q with files := rows v, searching := false }

/-- What the user and the network do. (for ui/assets/js/excluded_files.js:78-118) -/
inductive Act where
  | click (repo : JsStr)
  | answer (k : Nat) (outcome : Option (Nat × Bytes))

/-- A visit to the page. (for ui/assets/js/excluded_files.js:78-118) -/
def visit (acts : List Act) : Page :=
  acts.foldl (fun p a => match a with | .click r => click p r | .answer k o => answer p k o) {}

end Hound.Excl
