import Verif.Spec.Compile
import Verif.Spec.IndexFiles
import Verif.Model.Search
import Verif.Model.HeapQuery
import Verif.Model.IndexRead
import Verif.Model.ByteProg

/-!
# Specification: a whole search, from the files to the answer

The parts of the model put together: which functions produce the compiled pattern and the open index that
`Hound.search` is given.
-/

namespace Hound.Spec
open Hound

/-- `mt` is the matcher of the byte program `q`, each call being made after any number of earlier calls. -/
def MatcherOf (q : Prog) (mt : Bytes → Option Nat) : Prop :=
  ∃ M, Matcher.init q = some M ∧ ∀ buf, ∃ history M' M'', M.calls q history = some M' ∧
    M'.run q buf true true = some (M'', mt buf)

/-- codesearch/regexp/regexp.go:33-54 `Compile` after parsing to `re`: `p` is the program `syntax.Compile` makes
for `re`, `c` what `Search` uses of the result. The program has fewer than 2^32 instructions. -/
structure CompiledFrom (grow : Nat → Nat → Nat) (orbit : Rune → List Rune) (re : Re) (p : Prog)
    (c : Compiled Query) : Prop where
  compiles : Compiles orbit re p
  progOK : ProgOK p
  matcher : ∃ q, toByteProg orbit p = some q ∧ q.inst.length < 2 ^ 32 ∧ MatcherOf q c.mt
  query : c.query = (HInfo.regexpQuery grow orbit re).1

/-- The open index `ix` was built from `files` (`answers`: what `Add` returned), and the copies of the indexed files
in its `raw` directory can be read. -/
def ServesFiles (ix : IndexView Query) (files : List (Bytes × Reader)) (answers : List (Option SkipReason)) : Prop :=
  ∃ cfg paths data rix, 0 < cfg.npost ∧ buildIndex cfg paths files = some (answers, data) ∧
    RIndex.open data = some rix ∧ (∀ q, ix.postingQuery q = (rix.postingQuery q none).getD []) ∧
    (∀ i : Nat, ix.name i = (rix.name i).getD []) ∧ ∀ f ∈ indexedFiles files answers, ix.raw f.1 = some f.2

/-- No file patterns, no paging, no cap. -/
structure Plain (opt : SearchOptions) : Prop where
  fileRegexp : opt.fileRegexp = []
  excludeFileRegexp : opt.excludeFileRegexp = []
  offset : opt.offset ≤ 0
  limit : opt.limit ≤ 0
  maxResults : opt.maxResults ≤ 0

/-- The search succeeds and reports this line of this file. -/
def Reports (res : Except SearchErr SearchResponse) (name : Bytes) (lineno : Nat) (line : Bytes) : Prop :=
  ∃ r, res = .ok r ∧ ∃ fm ∈ r.matches_, fm.filename = name ∧ ∃ m ∈ fm.matches_, m.lineno = lineno ∧ m.line = line

/-- The program has no `\A`. -/
def NoBeginText (p : Prog) : Prop := ∀ op out, Inst.empty op out ∈ p.inst → op.bot = false

end Hound.Spec
