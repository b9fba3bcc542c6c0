import Verif.Model.UiSession

/-!
# The choice of repositories on the web page (`ui/assets/js/hound.js`)
-/

namespace Hound.Ui

/-- The names every object inherits from `Object.prototype` (ECMA-262); all their values count as true.
(for ui/assets/js/hound.js:84-88) -/
def protoNames : List JsStr :=
  [js b!"constructor", js b!"__defineGetter__", js b!"__defineSetter__", js b!"hasOwnProperty",
   js b!"__lookupGetter__", js b!"__lookupSetter__", js b!"isPrototypeOf", js b!"propertyIsEnumerable",
   js b!"toString", js b!"valueOf", js b!"__proto__", js b!"toLocaleString"]

/-- hound.js:84-88, the filter; `seen` lists the names for which `seen[repo]` counts as true. -/
def validLoop (all : List JsStr) : List JsStr → List JsStr → List JsStr
  | _, [] => []
  | seen, r :: rest =>
    if (r ∈ all ∨ r ∈ protoNames) ∧ r ∉ seen then r :: validLoop all (r :: seen) rest
    else validLoop all (r :: seen) rest

/-- hound.js:81-89 `ValidRepos`; `all` are the names in `Model.repos`, whose descriptions count as true. -/
def validRepos (all repos : List JsStr) : List JsStr := validLoop all protoNames repos

/-- `names.join(",")`. (called at ui/assets/js/hound.js:404) -/
def joinUnits : List JsStr → JsStr
  | [] => []
  | [x] => x
  | x :: y :: r => x ++ 44 :: joinUnits (y :: r)

/-- hound.js:393-399, 404: what `getParams` makes of the repositories selected in the list. -/
def reposParam (all selected : List JsStr) : JsStr :=
  let repos := validRepos all selected
  joinUnits (if repos.length = all.length then [] else repos)

/-- hound.js:136-147: the parameters of a search as they are sent, in the order `merge` leaves them in. -/
def searchData (f : Form) : List (JsStr × JsStr) :=
  [(js b!"stats", js b!"fosho"), (js b!"rng", js b!":20"), (js b!"q", f.q), (js b!"files", f.files),
   (js b!"excludeFiles", f.excludeFiles), (js b!"repos", if f.repos = [] then js b!"*" else f.repos),
   (js b!"i", f.i), (js b!"literal", f.literal)]

end Hound.Ui
