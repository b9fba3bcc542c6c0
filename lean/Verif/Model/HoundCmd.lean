import Verif.Model.Answer
import Verif.Model.UrlQuery

/-!
# The command `hound`: `cmds/hound/main.go`, with `doHttpGet` of `client/client.go` and `client/grep.go`

Parameters standing for the world: the two configuration files, the network, the compiler of regular expressions,
whether the output goes to a terminal, and the orders in which Go visits its maps.
-/

namespace Hound.Cmd

open Client Wire
open JsonText (Value)

/-! ## The settings -/

/-- client/client.go:31-34 `Config`. The map is given by its entries, every key once; the nil map is `[]`. -/
structure Settings where
  headers : List (Bytes × Bytes)
  host : Bytes
deriving DecidableEq

/-- Assignment to a key of a Go map. (for cmds/hound/main.go:44) -/
def setKey (k v : Bytes) : List (Bytes × Bytes) → List (Bytes × Bytes)
  | [] => [(k, v)]
  | e :: r => if e.1 = k then (k, v) :: r else e :: setKey k v r

/-- `encoding/json`: the members of an object are put into an existing map; `null` gives the empty string. `none` is an
error. (for cmds/hound/main.go:44) -/
def decodeHeaders : List (Bytes × Value Bytes) → List (Bytes × Bytes) → Option (List (Bytes × Bytes))
  | [], old => some old
  | (k, .str v) :: r, old => decodeHeaders r (setKey k v old)
  | (k, .null) :: r, old => decodeHeaders r (setKey k [] old)
  | _, _ => none

/-- `encoding/json`: a member is put into the field of its name, letters of either case being the same (ASCII letters
only, here); other members are skipped. `null` makes a map nil and leaves a string as it is. (for cmds/hound/main.go:44) -/
def decodeMember (m : Bytes × Value Bytes) (s : Settings) : Option Settings :=
  if Config.foldKey m.1 = b!"http-headers" then
    match m.2 with
    | .null => some { s with headers := [] }
    | .obj ms => (decodeHeaders ms s.headers).map fun h => { s with headers := h }
    | _ => none
  else if Config.foldKey m.1 = b!"host" then
    match m.2 with
    | .null => some s
    | .str v => some { s with host := v }
    | _ => none
  else some s

/-- The members of an object, in order. (for cmds/hound/main.go:44) -/
def decodeMembers : List (Bytes × Value Bytes) → Settings → Option Settings
  | [], s => some s
  | m :: r, s => (decodeMember m s).bind (decodeMembers r)

/-- cmds/hound/main.go:44: `Decode` into settings that have values already. -/
def decodeSettings : Value Bytes → Settings → Option Settings
  | .null, s => some s
  | .obj ms, s => decodeMembers ms s
  | _, _ => none

/-- A configuration file: there is none, there is one that cannot be opened or read, or it has this text.
(for cmds/hound/main.go:37-72) -/
inductive ConfFile where
  | missing
  | unreadable
  | text (b : Bytes)

/-- cmds/hound/main.go:35-45 `loadConfigFrom` with the loop of `loadConfig` (59-69); `none` is an error. Simplification:
of numbers in the text, only integers are read. -/
def loadFiles : List ConfFile → Settings → Option Settings
  | [], s => some s
  | .missing :: r, s => loadFiles r s
  | .unreadable :: _, _ => none
  | .text b :: r, s => ((JsonText.goRead b).bind fun v => decodeSettings v s).bind (loadFiles r)

/-- cmds/hound/main.go:47-72 `loadConfig`: `files` are the files of `configPaths` (29-33) for the user, `none` if the
user cannot be determined. -/
def loadConfig (files : Option (List ConfFile)) (s : Settings) : Option Settings :=
  files.bind fun fs => loadFiles fs s

/-! ## Requests -/

/-- A GET request: its url, the `Host` that is asked for instead of the one in the url, and the further header fields.
(for client/client.go:76-92) -/
structure Request where
  url : Bytes
  host : Option Bytes
  headers : List (Bytes × Bytes)
deriving DecidableEq

/-- The bytes a name of a header field may have (`net/textproto`). (for client/client.go:86) -/
def tokenByte (c : UInt8) : Bool :=
  (48 ≤ c && c ≤ 57) || (65 ≤ c && c ≤ 90) || (97 ≤ c && c ≤ 122) ||
    [33, 35, 36, 37, 38, 39, 42, 43, 45, 46, 94, 95, 96, 124, 126].contains c

/-- `net/textproto` `canonicalMIMEHeaderKey`: a letter is made upper case at the beginning (`up`) and behind a hyphen,
and lower case elsewhere. (for client/client.go:86) -/
def canonLoop : Bool → Bytes → Bytes
  | _, [] => []
  | up, c :: t =>
    (if up then (if 97 ≤ c && c ≤ 122 then c - 32 else c) else (if 65 ≤ c && c ≤ 90 then c + 32 else c)) ::
      canonLoop (c == 45) t

/-- `net/textproto` `CanonicalMIMEHeaderKey`: names with other bytes are left as they are. (for client/client.go:86) -/
def canonicalKey (k : Bytes) : Bytes := if k.all tokenByte then canonLoop true k else k

/-- client/client.go:82-88, one round of the loop. (The lower case of a key is `host` for ASCII letters only.) -/
def addHeader (req : Request) (e : Bytes × Bytes) : Request :=
  if Config.foldKey e.1 = b!"host" then { req with host := some e.2 }
  else { req with headers := setKey (canonicalKey e.1) e.2 req.headers }

/-- client/client.go:76-92 `doHttpGet`, the request that is sent; `order` are the entries of the map in the order in
which the loop visits them. (The empty `Host` is not sent, `net/http` then uses the one of the url.) -/
def request (order : List (Bytes × Bytes)) (url : Bytes) : Request :=
  order.foldl addHeader ⟨url, none, []⟩

/-- client/client.go:122, the url `LoadRepos` asks for. -/
def reposUrl (host : Bytes) : Bytes := b!"http://" ++ host ++ b!"/api/v1/repos"

/-! ## The command -/

/-- cmds/hound/main.go:84-90, the flags. The command line is in `Model/CmdLine`. -/
structure Flags where
  host : Bytes
  repos : Bytes
  files : Bytes
  context : Int
  ignoreCase : Bool
  stats : Bool
  likeGrep : Bool

/-- How the command ends: it explains its use, it panics with a message, or it has written these bytes.
(for cmds/hound/main.go:83-130) -/
inductive Ending where
  | usage
  | panic
  | wrote (out : Bytes)
deriving DecidableEq

/-- client/grep.go:16-30 `Present`. -/
def grepPresent (tty : Bool) : Bytes :=
  fgOnly tty b!"// TODO(knorton): Implement" .yellow { bold := true } ++ [10]

/-- A match as the presenter has it (index/index.go:53-58). Simplification: a negative line number is read as 0; the
server sends none. -/
def lineOf (g : GotLine Bytes) : LineMatch := ⟨g.line, g.lineno.toNat, g.before, g.after⟩

/-- client/ack.go:67-77: the results with the names to show. `none`: `repoNameFor` panics. -/
def toShow (repos : List (Bytes × (Bytes × Bytes))) (results : List (Bytes × GotRepo Bytes)) :
    Option (List (Bytes × List (Bytes × List LineMatch))) :=
  allSome (fun e => (repoNameFor (fun n => repos.lookup n) e.1).map fun name =>
    (name, e.2.matches_.map fun f => (f.filename, f.matches_.map lineOf))) results

/-- The orders in which maps are visited: the headers for the one request and for the other, and the results.
(for client/client.go:82 and client/ack.go:67) -/
structure Orders where
  headers₁ : List (Bytes × Bytes) → List (Bytes × Bytes)
  headers₂ : List (Bytes × Bytes) → List (Bytes × Bytes)
  results : List (Bytes × GotRepo Bytes) → List (Bytes × GotRepo Bytes)

/-- Every entry is visited once. (for client/client.go:82 and client/ack.go:67) -/
structure Orders.Fair (o : Orders) : Prop where
  headers₁ : ∀ l, (o.headers₁ l).Perm l
  headers₂ : ∀ l, (o.headers₂ l).Perm l
  results : ∀ l, (o.results l).Perm l

/-- The world of the command. `compile` is `regexp.Compile`, its value what `FindAllStringIndex` returns for a line.
(for cmds/hound/main.go:83-130) -/
structure World where
  compile : Bytes → Option (Bytes → List (Nat × Nat))
  files : Option (List ConfFile)
  net : Request → Option (Nat × Bytes)
  tty : Bool
  orders : Orders

/-- cmds/hound/main.go:83-130 `main`. Simplifications: what is written before a panic in the presenter is left out;
writing succeeds. The two requests are independent of each other (client/client.go:131-157). -/
def command (w : World) (fl : Flags) (args : List Bytes) : Ending :=
  match args with
  | [pat] =>
    match w.compile (getRegexpPattern pat fl.ignoreCase), loadConfig w.files ⟨[], fl.host⟩ with
    | some find, some s =>
      let url := Url.clientUrl s.host pat fl.repos fl.files fl.context fl.ignoreCase fl.stats
      match searchAndLoad (w.net (request (w.orders.headers₁ s.headers) url))
          (w.net (request (w.orders.headers₂ s.headers) (reposUrl s.host))) with
      | .error _ => .panic
      | .ok (res, repos) =>
        if fl.likeGrep then .wrote (grepPresent w.tty)
        else
          match (toShow repos (w.orders.results res.results)).bind (present w.tty find fl.context) with
          | some out => .wrote out
          | none => .panic
    | _, _ => .panic
  | _ => .usage

end Hound.Cmd
