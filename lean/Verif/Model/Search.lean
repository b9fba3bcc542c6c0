import Verif.Model.Grep

/-!
# `index/index.go`: `(*Index).Search`

Parameters standing for other parts of the program:
* `Compiled` – a compiled pattern: its matcher (`re.Match(·, true, true)`, modelled in
  `Verif.Model.Matcher`) and its trigram query (`index.RegexpQuery(re.Syntax)`, modelled in
  `Verif.Model.RegexpQuery`);
* `IndexView` – an open index: posting query evaluation and name lookup
  (`Verif.Model.IndexRead`), and the content of the `raw` directory.
-/

namespace Hound

/-- index/index.go:42-51 `SearchOptions`. -/
structure SearchOptions where
  ignoreCase : Bool := false
  literalSearch : Bool := false
  linesOfContext : Nat := 0
  fileRegexp : Bytes := []
  excludeFileRegexp : Bytes := []
  offset : Int := 0
  limit : Int := 0
  maxResults : Int := 0

/-- index/index.go:68-72 `FileMatch`. -/
structure FileMatch where
  filename : Bytes
  matches_ : List LineMatch
  autoGenerated : Bool
deriving DecidableEq, Repr

/-- index/index.go:60-66 `SearchResponse` (without the duration). A `nil` match list and an empty
one are both `[]`. -/
structure SearchResponse where
  matches_ : List FileMatch
  filesWithMatch : Nat
  filesOpened : Nat
  revision : Bytes
deriving DecidableEq, Repr

/-- The ways `Search` can fail. (for index/index.go:146-257) -/
inductive SearchErr where
  /-- a pattern does not compile (index/index.go:157, 173, 181) -/
  | badPattern
  /-- a raw file cannot be opened or decompressed (index/index.go:230) -/
  | io
deriving DecidableEq, Repr

/-- A compiled pattern (codesearch/regexp/regexp.go `Regexp`), as used by `Search`. (codesearch/regexp/regexp.go:18-24) -/
structure Compiled (Q : Type) where
  /-- `re.Match(b, true, true)` / `re.MatchString(s, true, true)`, `none` is -1 -/
  mt : Bytes → Option Nat
  /-- `index.RegexpQuery(re.Syntax)` -/
  query : Q

/-- An open index (index/index.go `Index` with its `IndexRef`). (index/index.go:30-34, 79-85) -/
structure IndexView (Q : Type) where
  /-- `n.idx.PostingQuery` -/
  postingQuery : Q → List Nat
  /-- `n.idx.Name` -/
  name : Nat → Bytes
  /-- content of `raw/<name>` after decompression, `none` if it cannot be read -/
  raw : Bytes → Option Bytes
  rev : Bytes
  autoGeneratedFiles : List Bytes

/-- index/index.go:162-169, the accumulators of `Search`. -/
structure SearchState where
  results : List FileMatch := []
  filesOpened : Nat := 0
  filesFound : Nat := 0
  filesCollected : Nat := 0
  matchesCollected : Nat := 0

/-- The variables the callback of index/index.go:210-230 modifies. -/
structure CbState where
  hasMatch : Bool := false
  matches_ : List LineMatch := []
  matchesCollected : Nat := 0

/-- index/index.go:210-230, the callback. -/
def searchCb (opt : SearchOptions) (filesFound filesCollected : Nat) (st : CbState)
    (m : LineMatch) : CbState × Bool :=
  let st := { st with hasMatch := true }
  if (filesFound : Int) < opt.offset ∨ (opt.limit > 0 ∧ (filesCollected : Int) ≥ opt.limit) then
    (st, false)
  else
    let st := { st with
      matchesCollected := st.matchesCollected + 1
      matches_ := st.matches_ ++ [m] }
    if opt.maxResults > 0 ∧ (st.matchesCollected : Int) ≥ opt.maxResults then (st, false)
    else (st, true)

/-- index/index.go:360-367 `containsString`. -/
def containsString : List Bytes → Bytes → Bool
  | [], _ => false
  | h :: hs, needle => if h = needle then true else containsString hs needle

/-- index/index.go:194: `fre != nil && fre.MatchString(name, true, true) < 0`. -/
def includeRejects {Q : Type} (fre : Option (Compiled Q)) (name : Bytes) : Bool :=
  match fre with
  | none => false
  | some re => (re.mt name).isNone

/-- index/index.go:199: `excludeFre != nil && excludeFre.MatchString(name, true, true) > 0`. -/
def excludeRejects {Q : Type} (excludeFre : Option (Compiled Q)) (name : Bytes) : Bool :=
  match excludeFre with
  | none => false
  | some re =>
    match re.mt name with
    | none => false
    | some m => m > 0

/-- index/index.go:193-201: the two file name checks. -/
def nameRejected {Q : Type} (fre excludeFre : Option (Compiled Q)) (name : Bytes) : Bool :=
  includeRejects fre name || excludeRejects excludeFre name

/-- index/index.go:188-248, one iteration of the loop over candidate files. -/
def searchFile {Q : Type} (opt : SearchOptions) (re : Compiled Q)
    (fre excludeFre : Option (Compiled Q)) (ix : IndexView Q) (st : SearchState) (file : Nat) :
    Except SearchErr SearchState :=
  let name := ix.name file
  if nameRejected fre excludeFre name then .ok st
  else if opt.maxResults > 0 ∧ (st.matchesCollected : Int) ≥ opt.maxResults then .ok st
  else
    let st := { st with filesOpened := st.filesOpened + 1 }
    match ix.raw name with
    | none => .error .io
    | some buf =>
      let cb := grep2 re.mt opt.linesOfContext (searchCb opt st.filesFound st.filesCollected) buf
        { matchesCollected := st.matchesCollected }
      let st := { st with matchesCollected := cb.matchesCollected }
      if cb.hasMatch = false then .ok st
      else
        let st := { st with filesFound := st.filesFound + 1 }
        if cb.matches_.length > 0 then
          .ok { st with
            filesCollected := st.filesCollected + 1
            results := st.results ++ [{
              filename := name
              matches_ := cb.matches_
              autoGenerated := containsString ix.autoGeneratedFiles name }] }
        else .ok st

/-- index/index.go:188-248, the loop. -/
def searchLoop {Q : Type} (opt : SearchOptions) (re : Compiled Q)
    (fre excludeFre : Option (Compiled Q)) (ix : IndexView Q) :
    List Nat → SearchState → Except SearchErr SearchState
  | [], st => .ok st
  | f :: fs, st =>
    match searchFile opt re fre excludeFre ix st f with
    | .error e => .error e
    | .ok st => searchLoop opt re fre excludeFre ix fs st

/-- index/index.go:139-144 `GetRegexpPattern`. -/
def getRegexpPattern (pat : Bytes) (ignoreCase : Bool) : Bytes :=
  if ignoreCase then b!"(?i)(?m)" ++ pat else b!"(?m)" ++ pat

/-- index/index.go:171-185: compile an optional file pattern. -/
def compileOpt {Q : Type} (compile : Bytes → Option (Compiled Q)) (pat : Bytes) :
    Except SearchErr (Option (Compiled Q)) :=
  if pat = [] then .ok none
  else match compile pat with
    | none => .error .badPattern
    | some re => .ok (some re)

/-- index/index.go:146-257 `(*Index).Search`. `compile` stands for `regexp.Compile`, `quoteMeta` for
`regexp.QuoteMeta` (modelled in `Verif.Model.LiteralParse`). -/
def search {Q : Type} (compile : Bytes → Option (Compiled Q)) (quoteMeta : Bytes → Bytes)
    (ix : IndexView Q) (pat : Bytes) (opt : SearchOptions) : Except SearchErr SearchResponse :=
  let patForRe := if opt.literalSearch then quoteMeta pat else pat
  match compile (getRegexpPattern patForRe opt.ignoreCase) with
  | none => .error .badPattern
  | some re =>
    match compileOpt compile opt.fileRegexp with
    | .error e => .error e
    | .ok fre =>
      match compileOpt compile opt.excludeFileRegexp with
      | .error e => .error e
      | .ok excludeFre =>
        match searchLoop opt re fre excludeFre ix (ix.postingQuery re.query) {} with
        | .error e => .error e
        | .ok st => .ok {
            matches_ := st.results
            filesWithMatch := st.filesFound
            filesOpened := st.filesOpened
            revision := ix.rev }

end Hound
