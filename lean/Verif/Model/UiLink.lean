import Verif.Model.UiHtml
import Verif.Model.Client

/-!
# Links to the source (`ui/assets/js/common.js`)

Strings are lists of code units. Urls and templates are taken to be without line ends, which `.` does not
match in JavaScript's regular expressions.
-/

namespace Hound.Ui

/-- The first occurrence of `pat`: what precedes and what follows it. (for ui/assets/js/common.js:12-62) -/
def splitFirst (pat : JsStr) : JsStr → Option (JsStr × JsStr)
  | [] => if pat = [] then some ([], []) else none
  | c :: s =>
    if pat <+: c :: s then some ([], (c :: s).drop pat.length)
    else (splitFirst pat s).map fun r => (c :: r.1, r.2)

/-- The replacement text of `String.prototype.replace` (ECMA-262 `GetSubstitution` without captures).
(for ui/assets/js/common.js:12-62) -/
def substitution (matched before after : JsStr) : JsStr → JsStr
  | 36 :: 36 :: r => 36 :: substitution matched before after r
  | 36 :: 38 :: r => matched ++ substitution matched before after r
  | 36 :: 96 :: r => before ++ substitution matched before after r
  | 36 :: 39 :: r => after ++ substitution matched before after r
  | c :: r => c :: substitution matched before after r
  | [] => []

/-- `s.replace(pat, value)` for strings (ECMA-262): only the first occurrence. (for ui/assets/js/common.js:12-62) -/
def replaceFirst (s pat value : JsStr) : JsStr :=
  match splitFirst pat s with
  | none => s
  | some (before, after) => before ++ substitution pat before after value ++ after

/-- ui/assets/js/common.js:5-10 `ExpandVars`; the values in the order of the object's properties. -/
def expandVars (template : JsStr) (values : List (JsStr × JsStr)) : JsStr :=
  values.foldl (fun t v => replaceFirst t (123 :: v.1 ++ [125]) v.2) template

/-- What the page knows of a repository (config/config.go:23-26, 28-39). -/
structure LinkRepo where
  url : JsStr
  baseUrl : JsStr
  anchor : JsStr

/-- `s.replace(/suffix$/, '')`. (for ui/assets/js/common.js:12-62) -/
def dropSuffix (suffix s : JsStr) : JsStr := if suffix <:+ s then s.take (s.length - suffix.length) else s

/-- What follows the last slash. (for ui/assets/js/common.js:12-62) -/
def baseName (s : JsStr) : JsStr := (s.reverse.takeWhile (· ≠ 47)).reverse

/-- The decimal digits of a number, as a string. (for ui/assets/js/common.js:12-62) -/
def digitUnits (n : Nat) : JsStr := js (Client.natDigits n)

/-- `(.*)(\/)(.*)`: what precedes and what follows the last slash. (for ui/assets/js/common.js:12-62) -/
def splitLast (s : JsStr) : Option (JsStr × JsStr) :=
  if 47 ∈ s then some (s.take (s.length - (baseName s).length - 1), baseName s) else none

/-- `(:|\/)(.*)(\/)(.*)` from the beginning. (for ui/assets/js/common.js:12-62) -/
def matchRest : JsStr → Option (JsStr × JsStr)
  | c :: s => if c = 58 ∨ c = 47 then splitLast s else none
  | [] => none

/-- A decimal digit. (for ui/assets/js/common.js:12-62) -/
def isDigitUnit (c : UInt16) : Bool := 48 ≤ c && c ≤ 57

/-- `(:[0-9]+)?(:|\/)(.*)(\/)(.*)` from the beginning with `n` or fewer digits of the port: port, project and
repository. (for ui/assets/js/common.js:12-62) -/
def matchPort (s : JsStr) : Nat → Option (JsStr × JsStr × JsStr)
  | 0 => (matchRest s).map fun r => ([], r.1, r.2)
  | n + 1 =>
    match matchRest (s.drop (n + 2)) with
    | some r => some (s.take (n + 2), r.1, r.2)
    | none => matchPort s n

/-- `(.*?)(:[0-9]+)?(:|\/)(.*)(\/)(.*)` from the beginning: host, port, project and repository. The host is
as short as possible, then the port as long as possible. (for ui/assets/js/common.js:12-62) -/
def matchHost : JsStr → Option (JsStr × JsStr × JsStr × JsStr)
  | [] => (matchPort [] 0).map fun r => ([], r)
  | c :: s =>
    let digits := if c = 58 then (s.takeWhile isDigitUnit).length else 0
    match matchPort (c :: s) digits with
    | some r => some ([], r)
    | none => (matchHost s).map fun r => (c :: r.1, r.2)

/-- common.js:39 `/(git|hg)@(.*?)(:[0-9]+)?(:|\/)(.*)(\/)(.*)/.exec(url)`, the first place where it matches. -/
def sshParts : JsStr → Option (JsStr × JsStr × JsStr × JsStr)
  | [] => none
  | c :: s =>
    let here :=
      if js b!"git@" <+: c :: s then matchHost ((c :: s).drop 4)
      else if js b!"hg@" <+: c :: s then matchHost ((c :: s).drop 3)
      else none
    match here with
    | some r => some r
    | none => sshParts s

/-- The object made by `UrlParts`. (for ui/assets/js/common.js:12-62) -/
structure UrlParts where
  url : JsStr
  hostname : JsStr
  port : JsStr
  project : JsStr
  repo : JsStr
  path : JsStr
  rev : JsStr
  anchor : JsStr

/-- common.js:12-62 `UrlParts`. `line` is absent or a number from 1 on. -/
def urlParts (repo : LinkRepo) (path : JsStr) (line : Option Nat) (rev : JsStr) : UrlParts :=
  let url := dropSuffix (js b!".git") repo.url
  let filename := baseName path
  let anchor := match line with
    | some n => expandVars repo.anchor [(js b!"line", digitUnits n), (js b!"filename", filename)]
    | none => []
  let wiki := js b!".wiki" <:+ url
  let url := if wiki then replaceFirst url (js b!".wiki") (js b!"/wiki") else url
  let path := if wiki then dropSuffix (js b!".md") path else path
  let anchor := if wiki then [] else anchor
  match sshParts url with
  | some (host, port, project, name) =>
    { url := js b!"//" ++ host ++ port ++ js b!"/" ++ project ++ js b!"/" ++ name
      hostname := js b!"//" ++ host, port := port, project := project, repo := name
      path := path, rev := rev, anchor := anchor }
  | none =>
    { url := url, hostname := [], port := [], project := [], repo := [], path := path, rev := rev, anchor := anchor }

/-- The properties of the object, in order (common.js:52-61). -/
def UrlParts.values (u : UrlParts) : List (JsStr × JsStr) :=
  [(js b!"url", u.url), (js b!"hostname", u.hostname), (js b!"port", u.port), (js b!"project", u.project),
    (js b!"repo", u.repo), (js b!"path", u.path), (js b!"rev", u.rev), (js b!"anchor", u.anchor)]

/-- common.js:64-70 `UrlToRepo`. -/
def urlToRepo (repo : LinkRepo) (path : JsStr) (line : Option Nat) (rev : JsStr) : JsStr :=
  expandVars repo.baseUrl (urlParts repo path line rev).values

/-- ui/assets/js/excluded_files.js:6: `UrlToRepo(repo, Filename, rev)` with a `rev` that is never set
(excluded_files.js:26), so that the line and the revision are undefined; `replace` writes the latter as
`undefined`. -/
def excludedLink (repo : LinkRepo) (filename : JsStr) : JsStr := urlToRepo repo filename none (js b!"undefined")

end Hound.Ui
