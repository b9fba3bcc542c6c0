import Verif.Model.UiRepoList

/-!
# The panel with the filters of a search (`ui/assets/js/hound.js`)

The panel (`#advanced`) is hidden at first and the line that offers it (`.ban`) is shown (`ui/assets/css/hound.css`).
-/

namespace Hound.Ui

/-- The text fields that react to getting the focus, and everything else. (for ui/assets/js/hound.js:297-608) -/
inductive Focus where
  | query
  | files
  | excludeFiles
  | other
deriving DecidableEq

/-- The search bar: the values of its fields, the list of repositories, what is shown and what has the focus.
(for ui/assets/js/hound.js:297-608) -/
structure Panel where
  bar : Bar
  list : RepoList
  shown : Bool := false
  offer : Bool := true
  focus : Focus := .other

/-- `value` of a `<select>`: the first selected option, or nothing. (for ui/assets/js/hound.js:297-608) -/
def RepoList.domValue (l : RepoList) : JsStr :=
  match l.options.find? (·.2) with
  | some o => o.1
  | none => []

/-- hound.js:422-430 `hasAdvancedValues`. -/
def Panel.hasValues (p : Panel) : Bool :=
  trim p.bar.files ≠ [] || trim p.bar.excludeFiles ≠ [] || p.bar.ignoreCase || p.bar.literal || p.list.domValue ≠ []

/-- hound.js:431-436 `isAdvancedEmpty`. -/
def Panel.noTexts (p : Panel) : Bool := trim p.bar.files = [] && trim p.bar.excludeFiles = []

/-- hound.js:437-449 `showAdvanced`. -/
def Panel.reveal (p : Panel) : Panel := { p with shown := true, offer := false }

/-- The query gets the focus, if it does not have it, and 340-344 `queryGotFocus` is called, where `hideAdvanced` finds the
focus where it wants it. (for ui/assets/js/hound.js:297-608) -/
def Panel.focusQuery (p : Panel) : Panel :=
  if p.focus = .query then p
  else if p.hasValues then { p with focus := .query }
  else { p with focus := .query, shown := false, offer := true }

/-- hound.js:450-462 `hideAdvanced`. -/
def Panel.hide (p : Panel) : Panel := Panel.focusQuery { p with shown := false, offer := true }

/-- hound.js:359-361, 376-378 `filesGotFocus`, `excludeFilesGotFocus`: one of the two texts gets the focus, if it does
not have it. -/
def Panel.focusText (f : Focus) (p : Panel) : Panel := if p.focus = f then p else Panel.reveal { p with focus := f }

/-- hound.js:305-318 `componentDidMount`, with the parameters of the address, and the list when it has been loaded (the
list has no options before). The handler for the focus is not yet in place. -/
def Panel.opened (all : List JsStr) (f : Form) : Panel :=
  let p : Panel := { bar := setParams f ⟨[], [], [], false, false, []⟩, list := ⟨[], [], []⟩ }
  let p := if p.hasValues then p.reveal else p
  { p with focus := .query, list := RepoList.loaded all }

/-- hound.js:1045-1049: the user goes back. -/
def Panel.wentBack (f : Form) (p : Panel) : Panel := { p with bar := setParams f p.bar }

/-- hound.js:345-358, 362-375: the key "up" in one of the two texts. -/
def Panel.up (p : Panel) : Panel := Panel.focusQuery (if p.noTexts then p.hide else p)

/-- Steps with which the user hides the panel, steps back, and the others. (for ui/assets/js/hound.js:297-608) -/
inductive StepKind where
  | ordinary
  | hides
  | back
deriving DecidableEq

/-- What happens to the search bar. `url`: the repositories of the address the page was opened with.
(for ui/assets/js/hound.js:297-608) -/
inductive PanelStep (url : List JsStr) : StepKind → Panel → Panel → Prop
  /-- the query gets the focus from the user -/
  | query {p} : PanelStep url .ordinary p p.focusQuery
  /-- one of the two texts gets the focus from the user, the first one also by the key "down" in the query (329-332) -/
  | files {p} : PanelStep url .ordinary p (p.focusText .files)
  | excludeFiles {p} : PanelStep url .ordinary p (p.focusText .excludeFiles)
  /-- something else gets the focus -/
  | elsewhere {p} : PanelStep url .ordinary p { p with focus := .other }
  /-- the user types a query -/
  | typed {p q} : PanelStep url .ordinary p { p with bar := { p.bar with q } }
  /-- the user changes filters, which are in the panel -/
  | filtered {p} {b : Bar} : p.shown = true → PanelStep url .ordinary p { p with bar := { b with q := p.bar.q } }
  | chosen {p sel} : p.shown = true → PanelStep url .ordinary p { p with list := p.list.changed sel }
  /-- a click on the offer (600) -/
  | offer {p} : PanelStep url .ordinary p p.reveal
  /-- the key "up" in one of the two texts -/
  | up {p} : PanelStep url (if p.noTexts then .hides else .ordinary) p p.up
  /-- the key "up" in the query (333-335), or a click on the sign in the panel (524-527) -/
  | hide {p} : PanelStep url .hides p p.hide
  /-- an answer (1017-1021) -/
  | answered {p} : PanelStep url .ordinary p { p with list := p.list.answered url }
  | back {p f} : PanelStep url .back p (p.wentBack f)

/-- What can become of the search bar of a page opened with an address, by steps of the given kinds.
(for ui/assets/js/hound.js:297-608) -/
inductive PanelRun (all : List JsStr) (f : Form) (kinds : List StepKind) : Panel → Prop
  | opened : PanelRun all f kinds (Panel.opened all f)
  | step {k p p'} : PanelRun all f kinds p → k ∈ kinds → PanelStep (urlRepos f.repos) k p p' → PanelRun all f kinds p'

end Hound.Ui
