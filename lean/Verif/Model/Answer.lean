import Verif.Model.JsonText
import Verif.Model.Search

/-!
# The answer to a search on its way: `api/api.go`, `client/client.go`, `ui/assets/js/hound.js`

The server makes JSON of the results, the command-line client and the web page read it.
-/

namespace Hound.Wire

open Hound.Config (Json marshalMap)
open JsonText (Value)

/-! ## The server -/

/-- index/index.go:53-58 `Match`, as `json.Marshal` writes it. `Before` and `After` are made by `toStrings`
(index/index.go:131-137), never nil. -/
def matchJson (m : LineMatch) : Json :=
  .obj [(b!"Line", .str m.line), (b!"LineNumber", .num m.lineno), (b!"Before", .arr (m.before.map .str)),
    (b!"After", .arr (m.after.map .str))]

/-- index/index.go:68-72 `FileMatch`; its list of matches is never nil (index/index.go:242-246). -/
def fileJson (f : FileMatch) : Json :=
  .obj [(b!"Filename", .str f.filename), (b!"Matches", .arr (f.matches_.map matchJson)),
    (b!"AutoGenerated", .bool f.autoGenerated)]

/-- index/index.go:60-66 `SearchResponse`: two fields are left out (`json:"-"`). A nil list becomes `null`. -/
def responseJson (r : SearchResponse) : Json :=
  .obj [(b!"Matches", if r.matches_ = [] then .null else .arr (r.matches_.map fileJson)),
    (b!"FilesWithMatch", .num r.filesWithMatch), (b!"Revision", .str r.revision)]

/-- api/api.go:24-27 `Stats`. -/
structure Stats where
  filesOpened : Nat
  duration : Nat
deriving DecidableEq

/-- api/api.go:24-27. -/
def statsJson (s : Stats) : Json :=
  .obj [(b!"FilesOpened", .num s.filesOpened), (b!"Duration", .num s.duration)]

/-- api/api.go:219-232, the value written. The map of results is given by its entries. -/
def answerJson (results : List (Bytes × SearchResponse)) (stats : Option Stats) : Json :=
  .obj ((b!"Results", marshalMap (results.map fun e => (e.1, responseJson e.2))) ::
    match stats with
    | none => []
    | some s => [(b!"Stats", statsJson s)])

/-- api/api.go:42-46 `writeError`, the value written. -/
def errorJson (msg : Bytes) : Json := .obj [(b!"Error", .str msg)]

/-- What `searchAll` returned (api/api.go:212): the error, or the entries of the map with the statistics. -/
abbrev Outcome := Except Bytes (List (Bytes × SearchResponse) × Stats)

/-- api/api.go:212-233: status and body of the answer. `stats`: the request asks for statistics. -/
def answer (stats : Bool) : Outcome → Nat × Bytes
  | .error msg => (200, JsonText.encode (errorJson msg))
  | .ok (results, s) => (200, JsonText.encode (answerJson results (if stats then some s else none)))

/-! ## What is received, with strings of type `σ` -/

/-- A match the client has read (index/index.go:53-58). -/
structure GotLine (σ : Type) where
  line : σ
  lineno : Int
  before : List σ
  after : List σ

/-- A file the client has read (index/index.go:68-72). -/
structure GotFile (σ : Type) where
  filename : σ
  matches_ : List (GotLine σ)
  autoGenerated : Bool

/-- A repository's results the client has read (index/index.go:60-66). -/
structure GotRepo (σ : Type) where
  matches_ : List (GotFile σ)
  filesWithMatch : Int
  revision : σ

/-! ## The client

`json.Unmarshal` into structs: a member belongs to the field with its name, letters of either case being the same
(ASCII letters only, here); members of other names are skipped; `null` leaves the zero value; a value of another type
is an error. Simplifications: of several members for a field, the last one counts alone; an element `null` of a list
of pointers is an error. -/

/-- The value for a field. (for client/client.go:117, 128) -/
def goField (name : Bytes) (ms : List (Bytes × Value Bytes)) : Option (Value Bytes) :=
  ((ms.filter fun e => Config.foldKey e.1 == Config.foldKey name).getLast?).map (·.2)

/-- `encoding/json`: a value for a `string` (for client/client.go:117). -/
def goStr : Option (Value Bytes) → Option Bytes
  | none => some []
  | some .null => some []
  | some (.str s) => some s
  | _ => none

/-- A number must fit into an `int` of 64 bits. (for client/client.go:117, 128) -/
def goInt : Option (Value Bytes) → Option Int
  | none => some 0
  | some .null => some 0
  | some (.num n) => if -2 ^ 63 ≤ n ∧ n < 2 ^ 63 then some n else none
  | _ => none

/-- `encoding/json`: a value for a `bool` (for client/client.go:117). -/
def goBool : Option (Value Bytes) → Option Bool
  | none => some false
  | some .null => some false
  | some (.bool b) => some b
  | _ => none

/-- All elements, or nothing. (for client/client.go:117, 128) -/
def allSome {α β : Type} (f : α → Option β) : List α → Option (List β)
  | [] => some []
  | x :: xs => (f x).bind fun y => (allSome f xs).map (y :: ·)

/-- `encoding/json`: a value for a slice (for client/client.go:117). -/
def goList {β : Type} (f : Value Bytes → Option β) : Option (Value Bytes) → Option (List β)
  | none => some []
  | some .null => some []
  | some (.arr xs) => allSome f xs
  | _ => none

/-- index/index.go:53-58. -/
def goLine : Value Bytes → Option (GotLine Bytes)
  | .obj ms =>
    match goStr (goField b!"Line" ms), goInt (goField b!"LineNumber" ms),
      goList (fun v => goStr (some v)) (goField b!"Before" ms), goList (fun v => goStr (some v)) (goField b!"After" ms) with
    | some l, some n, some b, some a => some ⟨l, n, b, a⟩
    | _, _, _, _ => none
  | _ => none

/-- index/index.go:68-72. -/
def goFile : Value Bytes → Option (GotFile Bytes)
  | .obj ms =>
    match goStr (goField b!"Filename" ms), goList goLine (goField b!"Matches" ms),
      goBool (goField b!"AutoGenerated" ms) with
    | some n, some m, some a => some ⟨n, m, a⟩
    | _, _, _ => none
  | _ => none

/-- index/index.go:60-66. -/
def goRepo : Value Bytes → Option (GotRepo Bytes)
  | .obj ms =>
    match goList goFile (goField b!"Matches" ms), goInt (goField b!"FilesWithMatch" ms),
      goStr (goField b!"Revision" ms) with
    | some m, some n, some r => some ⟨m, n, r⟩
    | _, _, _ => none
  | _ => none

/-- A member is kept unless a later one has its name. (for client/client.go:117, 128) -/
def lastMembers {σ β : Type} [BEq σ] : List (σ × β) → List (σ × β)
  | [] => []
  | e :: r => if r.any (fun x => x.1 == e.1) then lastMembers r else e :: lastMembers r

/-- Decoding into a map; the nil map and the empty one are both `[]`. (for client/client.go:117, 128) -/
def goMap {β : Type} (f : Value Bytes → Option β) : Option (Value Bytes) → Option (List (Bytes × β))
  | none => some []
  | some .null => some []
  | some (.obj ms) => (allSome (fun e => (f e.2).map fun v => (e.1, v)) ms).map lastMembers
  | _ => none

/-- client/client.go:15-21, the statistics. -/
def goStats : Option (Value Bytes) → Option (Option (Int × Int))
  | none => some none
  | some .null => some none
  | some (.obj ms) =>
    match goInt (goField b!"FilesOpened" ms), goInt (goField b!"Duration" ms) with
    | some f, some d => some (some (f, d))
    | _, _ => none
  | _ => none

/-- client/client.go:15-21 `Response`. -/
structure Response where
  results : List (Bytes × GotRepo Bytes)
  stats : Option (Int × Int)

/-- client/client.go:117: decoding into a `Response`. -/
def goResponse : Value Bytes → Option Response
  | .null => some ⟨[], none⟩
  | .obj ms =>
    match goMap goRepo (goField b!"Results" ms), goStats (goField b!"Stats" ms) with
    | some r, some s => some ⟨r, s⟩
    | _, _ => none
  | _ => none

/-- The errors of client/client.go:95-118. -/
inductive ClientErr where
  /-- the request failed -/
  | transport
  /-- a status other than 200 -/
  | status (n : Nat)
  /-- the body could not be decoded -/
  | badJson
deriving DecidableEq

/-- client/client.go:95-118 `Search`, from the outcome of the request: `none`, or status and body. -/
def clientSearch : Option (Nat × Bytes) → Except ClientErr Response
  | none => .error .transport
  | some (status, body) =>
    if status ≠ 200 then .error (.status status)
    else match (JsonText.goRead body).bind goResponse with
      | none => .error .badJson
      | some r => .ok r

/-! ### The repositories -/

/-- config/config.go:28-39, what the client uses of a repository (client/client.go:58-74): display name and url.
Simplification: the other fields are not decoded (the server writes values of their types). -/
def goRepoInfo : Value Bytes → Option (Bytes × Bytes)
  | .obj ms =>
    match goStr (goField b!"display-name" ms), goStr (goField b!"url" ms) with
    | some d, some u => some (d, u)
    | _, _ => none
  | _ => none

/-- client/client.go:121-129 `LoadRepos`: the status is not looked at. -/
def clientLoad : Option (Nat × Bytes) → Except ClientErr (List (Bytes × (Bytes × Bytes)))
  | none => .error .transport
  | some (_, body) =>
    match (JsonText.goRead body).bind fun v => goMap goRepoInfo (some v) with
    | none => .error .badJson
    | some r => .ok r

/-- client/client.go:132-157 `SearchAndLoadRepos`, from the outcomes of the two requests. -/
def searchAndLoad (search repos : Option (Nat × Bytes)) :
    Except ClientErr (Response × List (Bytes × (Bytes × Bytes))) :=
  match clientSearch search, clientLoad repos with
  | .error e, _ => .error e
  | .ok _, .error e => .error e
  | .ok r, .ok m => .ok (r, m)

/-- api/api.go:178-185: the answer listing the repositories. -/
def reposAnswer (repos : List (Bytes × Config.Repo)) : Nat × Bytes :=
  (200, JsonText.encode (Config.reposJson repos))

/-! ## The page -/

/-- The property of an object; the last member of a name counts. (for ui/assets/js/hound.js:172-204) -/
def jsProp (name : Bytes) : Value Ui.JsStr → Option (Value Ui.JsStr)
  | .obj ms => ((ms.filter fun e => e.1 == Ui.js name).getLast?).map (·.2)
  | _ => none

/-- A value used as a string by the page (for ui/assets/js/hound.js:172-204). -/
def jsStr : Option (Value Ui.JsStr) → Option Ui.JsStr
  | some (.str s) => some s
  | _ => none

/-- A value used as a number by the page (for ui/assets/js/hound.js:172-204). -/
def jsNum : Option (Value Ui.JsStr) → Option Int
  | some (.num n) => some n
  | _ => none

/-- A value used as a boolean by the page (for ui/assets/js/hound.js:820). -/
def jsBool : Option (Value Ui.JsStr) → Option Bool
  | some (.bool b) => some b
  | _ => none

/-- A value used as an array by the page (for ui/assets/js/hound.js:172-204). -/
def jsArr {β : Type} (f : Value Ui.JsStr → Option β) : Option (Value Ui.JsStr) → Option (List β)
  | some (.arr xs) => allSome f xs
  | _ => none

/-- A match as the page uses it (hound.js:614-642). `none`: a property is missing or of another type, which
the program does not check. -/
def jsLine (v : Value Ui.JsStr) : Option (GotLine Ui.JsStr) :=
  match jsStr (jsProp b!"Line" v), jsNum (jsProp b!"LineNumber" v), jsArr (fun v => jsStr (some v)) (jsProp b!"Before" v),
    jsArr (fun v => jsStr (some v)) (jsProp b!"After" v) with
  | some l, some n, some b, some a => some ⟨l, n, b, a⟩
  | _, _, _, _ => none

/-- A file as the page uses it (hound.js:811-823). -/
def jsFile (v : Value Ui.JsStr) : Option (GotFile Ui.JsStr) :=
  match jsStr (jsProp b!"Filename" v), jsArr jsLine (jsProp b!"Matches" v), jsBool (jsProp b!"AutoGenerated" v) with
  | some n, some m, some a => some ⟨n, m, a⟩
  | _, _, _ => none

/-- hound.js:174-187: what the page takes of a repository. -/
def jsRepo (v : Value Ui.JsStr) : Option (GotRepo Ui.JsStr) :=
  match jsArr jsFile (jsProp b!"Matches" v), jsNum (jsProp b!"FilesWithMatch" v), jsStr (jsProp b!"Revision" v) with
  | some m, some n, some r => some ⟨m, n, r⟩
  | _, _, _ => none

/-- Whether a value counts as true. (for ui/assets/js/hound.js:167, 176) -/
def jsTrue : Option (Value Ui.JsStr) → Bool
  | none => false
  | some .null => false
  | some (.bool b) => b
  | some (.num n) => n != 0
  | some (.str s) => !s.isEmpty
  | some (.arr _) => true
  | some (.obj _) => true

/-- What the page makes of an answer. (for ui/assets/js/hound.js:166-213) -/
inductive PageOut where
  /-- hound.js:167-170 -/
  | error (e : Ui.JsStr)
  /-- hound.js:211-213 "The server broke down" -/
  | broken
  /-- the program throws -/
  | throws
  /-- hound.js:172-204: the entries, and the statistics (`FilesOpened`, `Duration`) -/
  | results (es : List (Ui.JsStr × GotRepo Ui.JsStr)) (files duration : Int)

/-- hound.js:172-204; entries that do not count as true are left out. Simplification: the entries are taken in the
order of the text (JavaScript visits names that are numbers first; the results are sorted afterwards). -/
def pageResults (data : Value Ui.JsStr) : PageOut :=
  match jsProp b!"Results" data, jsProp b!"Stats" data with
  | some (.obj ms), some st =>
    match allSome (fun e => (jsRepo e.2).map fun v => (e.1, v))
        ((lastMembers ms).filter fun e => jsTrue (some e.2)), jsNum (jsProp b!"FilesOpened" st),
      jsNum (jsProp b!"Duration" st) with
    | some es, some f, some d => .results es f d
    | _, _, _ => .throws
  | _, _ => .throws

/-- hound.js:162-214, from the outcome of the request. The bundled `reqwest` calls `error` for statuses other than
2xx, and for bodies that `JSON.parse` refuses. -/
def pageSearch : Option (Nat × Bytes) → PageOut
  | none => .broken
  | some (status, body) =>
    if status < 200 ∨ 300 ≤ status then .broken
    else match JsonText.jsRead body with
      | none => .broken
      | some data =>
        if jsTrue (jsProp b!"Error" data) then
          match jsProp b!"Error" data with
          | some (.str e) => .error e
          | _ => .throws
        else pageResults data

end Hound.Wire
