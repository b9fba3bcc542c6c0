import Verif.Model.UiUrl
import Verif.Model.Grep
import Verif.Model.Search

/-!
# A visit to the web page: searches, answers and what is on the screen (`ui/assets/js/hound.js`)

Requests may be answered in any order and at any time. React: a `setState` in a handler of a React event
takes effect when the handler has ended, any other at once; if `render` throws, the new state stays and
the screen remains as it was. `new RegExp` is a parameter (which patterns it accepts), and so is
`localeCompare`. Every file carries the parameters of the request that found it (`FileMatch` with a
`Form`); the program has no such mark, it is there to say where a file comes from.
-/

namespace Hound.Ui

/-- `s.trim()` (ECMAScript; the same characters as `\s`). (called at ui/assets/js/hound.js:383, 401-403) -/
def trim (s : JsStr) : JsStr := ((s.dropWhile jsSpace).reverse.dropWhile jsSpace).reverse

/-- The controls of the search bar (hound.js:463-608). -/
structure Bar where
  q : JsStr
  files : JsStr
  excludeFiles : JsStr
  ignoreCase : Bool
  literal : Bool
  /-- what `getParams` makes of the selected repositories -/
  repos : JsStr
deriving DecidableEq

/-- hound.js:57-60 `ParamValueToBool`. (`toLowerCase` for the characters of the three words) -/
def paramToBool (v : JsStr) : Bool :=
  let v := v.map fun c => if 65 ≤ c ∧ c ≤ 90 then c + 32 else c
  v == js b!"fosho" || v == js b!"true" || v == js b!"1"

/-- hound.js:405-406: the value of a check box as a parameter. -/
def boolParam (b : Bool) : JsStr := if b then js b!"fosho" else js b!"nope"

/-- hound.js:392-408 `getParams`. -/
def getParams (b : Bar) : Form where
  q := trim b.q
  files := trim b.files
  excludeFiles := trim b.excludeFiles
  repos := b.repos
  i := boolParam b.ignoreCase
  literal := boolParam b.literal

/-- hound.js:409-421 `setParams`. -/
def setParams (f : Form) (b : Bar) : Bar where
  q := f.q
  files := f.files
  excludeFiles := f.excludeFiles
  repos := b.repos
  ignoreCase := paramToBool f.i
  literal := paramToBool f.literal

/-- What `new RegExp` is called for (hound.js:382-391): the text, taken literally or not, with or without case. -/
structure Pattern where
  text : JsStr
  literal : Bool
  ignoreCase : Bool
deriving DecidableEq

/-- hound.js:382-391 `getRegExp`. -/
def barPattern (b : Bar) : Pattern := ⟨trim b.q, b.literal, b.ignoreCase⟩

/-- An element of `results` (hound.js:180-186), each file with the parameters of the request that found it. -/
structure Entry where
  repo : JsStr
  rev : JsStr
  files : List (Form × FileMatch)
  total : Nat

/-- hound.js:189-194, the order of the results: `localeCompare a b ≤ 0` is `le`. -/
def entryLe (le : JsStr → JsStr → Bool) (a b : Entry) : Bool :=
  b.files.length < a.files.length || (b.files.length == a.files.length && le a.repo b.repo)

/-- hound.js:189-194 `results.sort`, which is stable. -/
def sortEntries (le : JsStr → JsStr → Bool) (es : List Entry) : List Entry := es.mergeSort (entryLe le)

/-- A request whose answer has not come. (for ui/assets/js/hound.js:162-214, 232-249) -/
inductive Request
  /-- hound.js:162-214 -/
  | search (f : Form)
  /-- hound.js:232-249: the array and the repository whose entry was found at the press, and the parameters -/
  | more (array : Nat) (repo : JsStr) (f : Form)

/-- A value of `results` in the state of the view: `null`, `undefined`, or an array. (for ui/assets/js/hound.js:897-926) -/
inductive Held
  | null
  | undefined
  | array (n : Nat)
deriving DecidableEq

/-- The state of `ResultView` (hound.js:897-926). -/
structure View where
  results : Held := .null
  query : JsStr := []
  pattern : Option Pattern := none
  error : Option JsStr := none

/-- What the user sees of the results. (for ui/assets/js/hound.js:927-990) -/
inductive Screen
  | error (e : JsStr)
  | nothing
  | searching
  | list (es : List Entry) (p : Option Pattern)

/-- The page. `store` holds the arrays of results made so far; `current` is the one `Model.results` and
`Model.resultsByRepo` come from. (for ui/assets/js/hound.js:131-250, 993-1054) -/
structure Session where
  bar : Bar
  /-- `Model.params` -/
  params : Option Form := none
  store : List (List Entry) := []
  current : Option Nat := none
  pending : List Request := []
  view : View := {}
  screen : Screen := .list [] none
  /-- the searches asked for, the last one first (not in the program) -/
  asked : List Form := []

/-- hound.js:927-990 `render` of `ResultView`; `none`: it throws. -/
def render (store : List (List Entry)) (v : View) : Option Screen :=
  match v.error with
  | some e => some (.error e)
  | none =>
    match v.results with
    | .undefined => none
    | .null => if v.query ≠ [] then some .searching else some (.list [] v.pattern)
    | .array n =>
      let es := (store[n]?).getD []
      if es.length = 0 then some .nothing else some (.list es v.pattern)

/-- The screen after a `setState`. (for ui/assets/js/hound.js:1017-1043) -/
def refresh (s : Session) : Session :=
  match render s.store s.view with
  | some sc => { s with screen := sc }
  | none => s

/-- hound.js:1017-1028: the listener of `didSearch`, 1030-1036: of `didLoadMore`. If `new RegExp` throws, the state of
the view is not set. -/
def showResults (accepts : Pattern → Bool) (s : Session) (results : Held) : Session :=
  if accepts (barPattern s.bar) then
    refresh { s with view := { s.view with results, pattern := some (barPattern s.bar), error := none } }
  else s

/-- hound.js:1038-1043: the listener of `didError`. -/
def showError (s : Session) (e : JsStr) : Session :=
  refresh { s with view := { s.view with results := .null, error := some e } }

/-- hound.js:131-215 `Search`; `inReact`: called from a handler of a React event. Searches for nothing hand the
listener `this.Results`, which is not defined (the property is called `results`). -/
def search (accepts : Pattern → Bool) (inReact : Bool) (f : Form) (s : Session) : Session :=
  let s := { s with view := { s.view with results := .null, query := f.q } }
  let s := if inReact ∧ f.q = [] ∧ accepts (barPattern s.bar) then s else refresh s
  let s := { s with params := some f, asked := f :: s.asked }
  if f.q = [] then
    showResults accepts { s with store := s.store ++ [[]], current := some s.store.length } .undefined
  else { s with pending := s.pending ++ [.search f] }

/-- hound.js:166-210: the answer to a search. -/
def searchAnswered (accepts : Pattern → Bool) (le : JsStr → JsStr → Bool) (s : Session)
    (out : Except JsStr (List Entry)) : Session :=
  match out with
  | .error e => showError s e
  | .ok es =>
    let n := s.store.length
    showResults accepts { s with store := s.store ++ [sortEntries le es], current := some n } (.array n)

/-- `results.Matches = results.Matches.concat(files)` for the entry of a repository. (ui/assets/js/hound.js:243) -/
def addFiles (repo : JsStr) (files : List (Form × FileMatch)) (es : List Entry) : List Entry :=
  es.map fun e => if e.repo = repo then { e with files := e.files ++ files } else e

/-- hound.js:236-245: the answer to a request for more. An answer without an entry for the repository makes the
program throw before it changes anything. -/
def moreAnswered (accepts : Pattern → Bool) (s : Session) (array : Nat) (repo : JsStr)
    (out : Except JsStr (Option (List (Form × FileMatch)))) : Session :=
  match out with
  | .error e => showError s e
  | .ok none => s
  | .ok (some files) =>
    let s := { s with store := s.store.modify array (addFiles repo files) }
    match s.current with
    | none => s
    | some n => showResults accepts s (.array n)

/-- hound.js:217-250 `LoadMore`: the entry is taken from the results the page has now, the parameters are those of the
search asked for last. Throws if there is no entry. -/
def loadMore (s : Session) (repo : JsStr) : Session :=
  match s.current, s.params with
  | some n, some f =>
    if ((s.store[n]?).getD []).any (fun e => e.repo == repo) then
      { s with pending := s.pending ++ [.more n repo f] }
    else s
  | _, _ => s

/-- hound.js:994-1015, 1091-1092 and 95-115: the page when it has been opened with the parameters of its address. -/
def opened (accepts : Pattern → Bool) (f : Form) : Session :=
  let s : Session := { bar := setParams f ⟨[], [], [], false, false, []⟩ }
  if f.q ≠ [] then search accepts false f s else s

/-- All files of an answer carry the mark of its request. (for ui/assets/js/hound.js:162-214) -/
def Marked (f : Form) (es : List Entry) : Prop := ∀ e ∈ es, ∀ x ∈ e.files, x.1 = f

/-- What can happen on a page. `calm` restricts the user: nothing is typed or asked for while an answer is outstanding,
there is something to search for (without blanks around it), and more files are asked for only while the search bar
still holds what was searched for. (for ui/assets/js/hound.js:131-250, 993-1054) -/
inductive Visit (accepts : Pattern → Bool) (le : JsStr → JsStr → Bool) (calm : Bool) : Session → Prop
  | opened {f : Form} : (calm = true → trim f.q = f.q) → Visit accepts le calm (opened accepts f)
  | typed {s : Session} {b : Bar} : Visit accepts le calm s → (calm = true → s.pending = []) →
      Visit accepts le calm { s with bar := b }
  | submitted {s : Session} : Visit accepts le calm s →
      (calm = true → s.pending = [] ∧ trim s.bar.q ≠ []) →
      Visit accepts le calm (search accepts true (getParams s.bar) s)
  | wentBack {s : Session} {f : Form} : Visit accepts le calm s →
      (calm = true → s.pending = [] ∧ trim f.q = f.q ∧ f.q ≠ []) →
      Visit accepts le calm (search accepts false f { s with bar := setParams f s.bar })
  | answered {s : Session} {before after : List Request} {f : Form} {out : Except JsStr (List Entry)} :
      Visit accepts le calm s → s.pending = before ++ .search f :: after → (∀ es, out = .ok es → Marked f es) →
      Visit accepts le calm (searchAnswered accepts le { s with pending := before ++ after } out)
  | pressed {s : Session} {es : List Entry} {p : Option Pattern} {e : Entry} : Visit accepts le calm s →
      s.screen = .list es p → e ∈ es → e.files.length < e.total →
      (calm = true → s.pending = [] ∧ p = some (barPattern s.bar)) →
      Visit accepts le calm (loadMore s e.repo)
  | gotMore {s : Session} {before after : List Request} {n : Nat} {repo : JsStr} {f : Form}
      {out : Except JsStr (Option (List (Form × FileMatch)))} :
      Visit accepts le calm s → s.pending = before ++ .more n repo f :: after →
      (∀ files, out = .ok (some files) → ∀ x ∈ files, x.1 = f) →
      Visit accepts le calm (moreAnswered accepts { s with pending := before ++ after } n repo out)

end Hound.Ui
