import Verif.Model.UiRepos

/-!
# The list of repositories of the search bar (`ui/assets/js/hound.js`)

The list is a `<select multiple>` made with React 0.12.2 (`ui/assets/js/react-0.12.2.min.js`, `ReactDOMSelect`,
`DOMPropertyOperations`). Two things are kept apart there: which options are selected in the browser, which is what the
user sees, and `state.value` of the component, which is what `getParams` reads. Neither `value` nor `defaultValue` is given
for the list, so `state.value` is `[]` at first and changes only when the user changes the list. The page has the
repositories with it (`ModelData`), so they are loaded when it is opened.
-/

namespace Hound.Ui

/-- The value of `selected[repoName]` (hound.js:466-476): not there, inherited from `Object.prototype`, or set. -/
inductive SelProp where
  | absent
  | inherited
  | set
deriving DecidableEq

/-- hound.js:466-476: the `selected` property of an option; `repos` is `state.repos` of the search bar. Setting
`__proto__` to `true` has no effect. -/
def selProp (repos : List JsStr) (name : JsStr) : SelProp :=
  if name ∈ repos ∧ name ≠ js b!"__proto__" then .set
  else if name ∈ protoNames then .inherited
  else .absent

/-- Does React select an option with this property. (for ui/assets/js/hound.js:468-476, 588-596) -/
def SelProp.truthy : SelProp → Bool
  | .absent => false
  | .inherited => true
  | .set => true

/-- The list: its options with the mark the browser shows, `state.repos` of the search bar, and `state.value` of the
component. (for ui/assets/js/hound.js:468-476, 588-596) -/
structure RepoList where
  options : List (JsStr × Bool)
  repos : List JsStr
  value : List JsStr
deriving DecidableEq

/-- hound.js:300-302 and 319-325: the list when the repositories have been loaded; the marks come from the markup of the
options. -/
def RepoList.loaded (all : List JsStr) : RepoList where
  options := all.map fun n => (n, (selProp [] n).truthy)
  repos := []
  value := []

/-- hound.js:1017-1021: after an answer the search bar is rendered with the repositories of the address the page was
opened with. React sets the mark of an option only if the property is not the one it was. -/
def RepoList.answered (url : List JsStr) (l : RepoList) : RepoList where
  options := l.options.map fun o =>
    if selProp url o.1 = selProp l.repos o.1 then o else (o.1, (selProp url o.1).truthy)
  repos := url
  value := l.value

/-- The user changes the list (`_handleChange` of `ReactDOMSelect`): the selected options become `state.value`.
(for ui/assets/js/hound.js:468-476, 588-596) -/
def RepoList.changed (sel : JsStr → Bool) (l : RepoList) : RepoList where
  options := l.options.map fun o => (o.1, sel o.1)
  repos := l.repos
  value := (l.options.filter fun o => sel o.1).map (·.1)

/-- hound.js:995-996: the repositories in the address the page was opened with. -/
def urlRepos (param : JsStr) : List JsStr := if param = [] then [] else splitUnit 44 param

/-- What happens to the list: an answer to a search, or a change by the user. (hound.js:1045-1049 leaves the list as it
is when the user goes back.) -/
inductive ListEvent where
  | answered
  | changed (sel : JsStr → Bool)

/-- The list after one event. (for ui/assets/js/hound.js:468-476, 588-596) -/
def RepoList.step (url : List JsStr) (l : RepoList) : ListEvent → RepoList
  | .answered => l.answered url
  | .changed sel => l.changed sel

/-- The list of a page opened with the repositories `url` in its address, after some events.
(for ui/assets/js/hound.js:468-476, 588-596) -/
def listAfter (all url : List JsStr) (es : List ListEvent) : RepoList :=
  es.foldl (RepoList.step url) (RepoList.loaded all)

end Hound.Ui
