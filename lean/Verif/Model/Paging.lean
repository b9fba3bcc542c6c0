import Verif.Model.Api
import Verif.Model.Client

/-!
# Model of searching and loading more on the web page (ui/assets/js/hound.js)

The part of `Model` that holds the results of one search. The parameters of a request are a finite
map; how `reqwest` encodes them and `FormValue` decodes them is trusted (the server sees the same
strings; a missing one is empty).
-/

namespace Hound.Ui

/-- The parameters of a search as a JavaScript object. (for ui/assets/js/hound.js:131-250) -/
abbrev Params := Bytes → Option Bytes

/-- What `FormValue` of net/http returns for a request with these parameters (see `Ui.page_request` for why).
(for api/api.go:190-204) -/
def formOf (p : Params) : Bytes → Bytes := fun k => (p k).getD []

/-- `merge` of merge-anything for flat objects: the second wins. (library) (called at ui/assets/js/hound.js:136, 227) -/
def merge (a b : Params) : Params := fun k => (b k).or (a k)

/-- ui/assets/js/hound.js:136-147: the parameters of the first request. -/
def searchParams (params : Params) : Params :=
  let params := merge
    (fun k => if k = b!"stats" then some b!"fosho" else if k = b!"repos" then some b!"*"
      else if k = b!"rng" then some b!":20" else none) params
  fun k => if k = b!"repos" ∧ params k = some [] then some b!"*" else params k

/-- The entry of one repository in `resultsByRepo` (hound.js:180-186). -/
structure Shown where
  matches_ : List FileMatch
  filesWithMatch : Nat

/-- hound.js:220-223: the value of `rng` for the next request. Only used while
`numLoaded < filesWithMatch` (the button is shown). -/
def moreRange (numLoaded filesWithMatch : Nat) : Bytes :=
  let numNeeded := filesWithMatch - numLoaded
  let numToLoad := min 2000 numNeeded
  let endAt := if numNeeded = numToLoad then [] else Client.natDigits numToLoad
  Client.natDigits numLoaded ++ b!":" ++ endAt

/-- hound.js:227-230: the parameters of the request for more. -/
def moreParams (params : Params) (repo : Bytes) (s : Shown) : Params :=
  merge params (fun k => if k = b!"rng" then some (moreRange s.matches_.length s.filesWithMatch)
    else if k = b!"repos" then some repo else none)

/-- hound.js:826: the button that loads more is shown. -/
def Shown.button (s : Shown) : Prop := s.matches_.length < s.filesWithMatch

/-- hound.js:173-201: the results after the first answer. (The order in which repositories are listed
is not modelled.) -/
def firstResults (all : Api.AllFound) : Bytes → Option Shown := fun repo =>
  (all.results repo).map fun res => ⟨res.matches_, res.filesWithMatch⟩

/-- hound.js:236-245: the answer to a request for more. An answer without an entry for the repository
throws at `result.Matches` and changes nothing, and so does an error. -/
def moreResults (byRepo : Bytes → Option Shown) (repo : Bytes) (out : Except SearchErr Api.AllFound) :
    Bytes → Option Shown :=
  match out with
  | .error _ => byRepo
  | .ok all =>
    match all.results repo, byRepo repo with
    | some result, some s => fun n =>
      if n = repo then some { s with matches_ := s.matches_ ++ result.matches_ } else byRepo n
    | _, _ => byRepo

/-- The server: its indexes by repository name, the pattern compiler and the configured result limit. (for api/api.go:177, 212) -/
structure Server (Q : Type) where
  compile : Bytes → Option (Compiled Q)
  quoteMeta : Bytes → Bytes
  idx : List (Bytes × IndexView Q)
  resultLimit : Int

/-- api/api.go:187-233: an answer of the server to a search request. -/
def Served {Q : Type} (srv : Server Q) (form : Bytes → Bytes) (out : Except SearchErr Api.AllFound) :
    Prop :=
  Api.SearchAllRun
    (fun n a => ∃ ix, srv.idx.lookup n = some ix ∧ a = search srv.compile srv.quoteMeta ix (form b!"q")
      (Api.searchOptions form srv.resultLimit))
    (Api.parseAsRepoList (form b!"repos") srv.idx) out

/-- The page after a search: the parameters kept, the results shown and the requests not yet
answered. (for ui/assets/js/hound.js:131-250) -/
structure Page where
  params : Params
  byRepo : Bytes → Option Shown
  pending : List (Bytes × Params)

/-- What can happen on the page after a search. `patient` restricts the user to not pressing the button
of a repository again before the answer has come. The server's indexes stay the same. (for ui/assets/js/hound.js:131-250) -/
inductive Reach {Q : Type} (srv : Server Q) (patient : Bool) (params : Params) : Page → Prop
  | searched {all : Api.AllFound} : Served srv (formOf (searchParams params)) (.ok all) →
      Reach srv patient params ⟨searchParams params, firstResults all, []⟩
  | press {p : Page} {repo : Bytes} {s : Shown} : Reach srv patient params p →
      p.byRepo repo = some s → s.button →
      (patient = true → ∀ r ∈ p.pending, r.1 ≠ repo) →
      Reach srv patient params { p with pending := p.pending ++ [(repo, moreParams p.params repo s)] }
  | answer {p : Page} {before after : List (Bytes × Params)} {repo : Bytes} {ps : Params}
      {out : Except SearchErr Api.AllFound} : Reach srv patient params p →
      p.pending = before ++ (repo, ps) :: after → Served srv (formOf ps) out →
      Reach srv patient params { p with
        byRepo := moreResults p.byRepo repo out, pending := before ++ after }

end Hound.Ui
