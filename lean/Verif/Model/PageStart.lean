import Verif.Model.Answer
import Verif.Model.UiLink
import Verif.Model.Startup

/-!
# The main page and what it knows when it starts

`cmds/houndd/main.go` (which repositories are served), `ui/ui.go` and `ui/assets/index.tpl.html` (the page),
`ui/assets/js/hound.js` (what the program in the page makes of it).
-/

namespace Hound.Boot

open JsonText (Value)
open Ui (JsStr)

/-! ## The repositories that are served -/

/-- cmds/houndd/main.go:42-58 `makeSearchers`: what is left of the configured repositories when these have failed. The
directory of the data and the fatal errors of `MakeAll` are left out. -/
def served (repos : List (Bytes × Config.Repo)) (errs : Bytes → Option Bytes) : List (Bytes × Config.Repo) :=
  repos.filter fun e => (errs e.1).isNone

/-! ## The page -/

/-- html/template: `htmlReplacementTable`, one byte. (for ui/ui.go:157-163 with index.tpl.html) -/
def htmlByte (b : UInt8) : Bytes :=
  if b = 0 then [0xEF, 0xBF, 0xBD]
  else if b = 34 then b!"&#34;"
  else if b = 38 then b!"&amp;"
  else if b = 39 then b!"&#39;"
  else if b = 43 then b!"&#43;"
  else if b = 60 then b!"&lt;"
  else if b = 62 then b!"&gt;"
  else [b]

/-- html/template: `rcdataEscaper` and `attrEscaper` on a string. (for ui/ui.go:157-163 with index.tpl.html) -/
def htmlEscape (s : Bytes) : Bytes := s.flatMap htmlByte

/-- html/template: what `urlNormalizer` leaves as it is. (for ui/ui.go:157-163 with index.tpl.html) -/
def urlKept (c : UInt8) : Bool :=
  (c ∈ b!"!#$&*+,/:;=?@[]-._~") || (48 ≤ c && c ≤ 57) || (65 ≤ c && c ≤ 90) || (97 ≤ c && c ≤ 122)

/-- html/template: `isHex`. (for ui/ui.go:157-163 with index.tpl.html) -/
def isHex (c : UInt8) : Bool := (48 ≤ c && c ≤ 57) || (65 ≤ c && c ≤ 70) || (97 ≤ c && c ≤ 102)

/-- html/template: `urlNormalizer` (`processURLOnto` with `norm`). (for ui/ui.go:157-163 with index.tpl.html) -/
def urlNormal : Bytes → Bytes
  | [] => []
  | c :: t =>
    if urlKept c || (c == 37 && (match t with | a :: b :: _ => isHex a && isHex b | _ => false)) then c :: urlNormal t
    else 37 :: JsonText.hexLow (c.toNat / 16) :: JsonText.hexLow (c.toNat % 16) :: urlNormal t

/-- html/template: `jsValEscaper` on a string: `json.Marshal`. (for ui/ui.go:157-163 with index.tpl.html) -/
def jsValue (s : Bytes) : Bytes := JsonText.text (.str s)

/-- ui/assets/index.tpl.html:1-6, up to the title. -/
def part1 : Bytes :=
  b!"<!DOCTYPE html>\n<html lang=\"en\">\n    <head>\n        <meta charset=\"utf-8\">\n        <meta http-equiv=\"X-UA-Compatible\" content=\"IE=Edge\" />\n        <title>"

/-- index.tpl.html:6-9. -/
def part2 : Bytes :=
  b!"</title>\n        <link rel=\"stylesheet\" href=\"css/octicons/octicons.css\">\n        <link rel=\"stylesheet\" href=\"css/hound.css\">\n        <link rel=\"search\" href=\"//"

/-- index.tpl.html:9-11. -/
def part3 : Bytes :=
  b!"/open_search.xml\"\n              type=\"application/opensearchdescription+xml\"\n              title=\""

/-- index.tpl.html:11-19. -/
def part4 : Bytes :=
  b!"\" />\n    </head>\n    <body>\n        <div id=\"root\">\n            <div id=\"result\">\n            </div>\n        </div>\n\n        <script>"

/-- index.tpl.html:19-20. -/
def part5 : Bytes := b!"\n        var ModelData = "

/-- index.tpl.html:20-21. -/
def part6 : Bytes := b!";\n        "

/-- index.tpl.html:21-22 with `ReactVersion` (ui/content.go:7). -/
def part7 : Bytes := b!"</script>\n        <script src=\"js/react-0.12.2.min.js\"></script>\n        "

/-- index.tpl.html:24-25. -/
def part8 : Bytes := b!"\n    </body>\n</html>\n"

/-- ui/ui.go:143-164 `renderForPrd` with index.tpl.html; `source` is the text of the programs with the tags around it,
which is not escaped (`html_template.HTML`). config/config.go:222-229 `ToJsonString` makes the JSON. -/
def indexPage (title host source : Bytes) (repos : List (Bytes × Config.Repo)) : Bytes :=
  part1 ++ (htmlEscape title ++ (part2 ++ (htmlEscape (urlNormal host) ++ (part3 ++ (htmlEscape title ++ (part4 ++
    (part5 ++ (jsValue (JsonText.text (Config.reposJson repos)) ++ (part6 ++ (part7 ++ (source ++ part8)))))))))))

/-! ## The browser -/

/-- The first occurrence of `pat`: what precedes and what follows it. (for ui/assets/index.tpl.html:19-21) -/
def cut (pat : Bytes) : Bytes → Option (Bytes × Bytes)
  | [] => if pat.isEmpty then some ([], []) else none
  | c :: s => if pat.isPrefixOf (c :: s) then some ([], (c :: s).drop pat.length)
    else (cut pat s).map fun r => (c :: r.1, r.2)

/-- What stands between the first `a` and the next `b`. (for ui/assets/index.tpl.html:19-21) -/
def between (a b s : Bytes) : Option Bytes := (cut a s).bind fun r => (cut b r.2).map (·.1)

/-- The text of the first script without attributes, as the browser finds it (HTML standard: a script goes on to the
next `</script`; the exception for scripts with `<!--` in them is left out). (for ui/assets/index.tpl.html:19-21) -/
def firstScript (page : Bytes) : Option Bytes := between b!"<script>" b!"</script" page

/-- The browser runs `var ModelData = "…";`: the string. Other programs are left out (`none`).
(for ui/assets/js/hound.js:106-107) -/
def modelData (script : JsStr) : Option JsStr :=
  match JsonText.word (b!"var ModelData = \"".map UInt8.toNat) (JsonText.skip (script.map UInt16.toNat)) with
  | none => none
  | some t =>
    match JsonText.scanStr t with
    | some (x, 59 :: _) => JsonText.jsUnquote x.length x
    | _ => none

/-- `JSON.parse` of a string. (called at ui/assets/js/hound.js:107) -/
def jsParse (s : JsStr) : Option (Value JsStr) :=
  match JsonText.readValue (fun s => JsonText.jsUnquote s.length s) (s.map UInt16.toNat) with
  | some (v, r) => if JsonText.skip r = [] then some v else none
  | none => none

/-! ## The program in the page -/

/-- What the page uses of a repository: hound.js:252-284, common.js:12-70. -/
structure PageRepo where
  url : JsStr
  displayName : JsStr
  baseUrl : JsStr
  anchor : JsStr
deriving DecidableEq

/-- The properties the page uses. `none`: one is missing or of another type, which the program does not check.
(for ui/assets/js/hound.js:252-284) -/
def pageRepo (v : Value JsStr) : Option PageRepo :=
  match Wire.jsStr (Wire.jsProp b!"url" v), Wire.jsStr (Wire.jsProp b!"display-name" v),
    (Wire.jsProp b!"url-pattern" v).bind fun p => Wire.jsStr (Wire.jsProp b!"base-url" p),
    (Wire.jsProp b!"url-pattern" v).bind fun p => Wire.jsStr (Wire.jsProp b!"anchor" p) with
  | some u, some d, some b, some a => some ⟨u, d, b, a⟩
  | _, _, _, _ => none

/-- hound.js:107-112: the repositories the page knows. The assignment `repos[name] = data[name]` makes no property of
that name if the name is `__proto__` (ECMA-262, `Object.prototype.__proto__`). The order is that of the text. -/
def loadRepos (data : Value JsStr) : Option (List (JsStr × PageRepo)) :=
  match data with
  | .obj ms =>
    Wire.allSome (fun e => (pageRepo e.2).map fun v => (e.1, v))
      ((Wire.lastMembers ms).filter fun e => e.1 ≠ Ui.js b!"__proto__")
  | _ => none

/-- hound.js:106-112, from the bytes of the page: `Model.repos`. -/
def startPage (page : Bytes) : Option (List (JsStr × PageRepo)) :=
  (firstScript page).bind fun script => (modelData (JsonText.bodyText script)).bind fun text =>
    (jsParse text).bind loadRepos

/-- `s.lastIndexOf("/", from)` for `from` from -1 on, which counts as 0 then: a slash at a position of at most `from`.
(for ui/assets/js/hound.js:262-276) -/
def lastSlash (s : JsStr) (from_ : Nat) : Option Nat :=
  match (s.take (from_ + 1)).reverse.findIdx? (· = 47) with
  | none => none
  | some i => some ((s.take (from_ + 1)).length - 1 - i)

/-- `s.substring(a, b)`: the arguments are exchanged if `b < a`. (for ui/assets/js/hound.js:262-276) -/
def substring (s : JsStr) (a b : Nat) : JsStr :=
  if a ≤ b then (s.take b).drop a else (s.take a).drop b

/-- hound.js:262-276, the name made of the url. -/
def nameOfUrl (key url : JsStr) : JsStr :=
  match lastSlash url url.length with
  | none => key
  | some ax =>
    let name := Ui.dropSuffix (Ui.js b!".git") (url.drop (ax + 1))
    match lastSlash url (ax - 1) with
    | none => name
    | some bx => substring url (bx + 1) ax ++ Ui.js b!" / " ++ name

/-- hound.js:252-276 `NameForRepo`. A name that is not known but inherited from `Object.prototype` is left out. -/
def nameForRepo (repos : List (JsStr × PageRepo)) (repo : JsStr) : JsStr :=
  match repos.lookup repo with
  | none => repo
  | some info => if info.displayName ≠ [] then info.displayName else nameOfUrl repo info.url

/-- What `UrlToRepo` and `UrlToRoot` (hound.js:278-284) take of it. -/
def PageRepo.link (p : PageRepo) : Ui.LinkRepo := ⟨p.url, p.baseUrl, p.anchor⟩

end Hound.Boot
