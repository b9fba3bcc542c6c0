import Verif.Model.Basic

/-!
# `config/config.go`: defaults, merging of vcs settings, what is served as JSON

The decoding of the JSON text of the configuration file into the structs below (`encoding/json`) is not
modelled: the model starts from the decoded configuration, in which a missing field has Go's zero value
and `null` for a pointer is `none`. A Go map is an association list with distinct keys.
A `SecretMessage` holds JSON text that the decoder has already accepted; it is modelled by the JSON value,
whose object members are in the order of the text.
-/

namespace Hound.Config

/-- A JSON value. (for config/config.go:70-87) -/
inductive Json where
  | null
  | bool (b : Bool)
  | num (n : Int)
  | str (s : Bytes)
  | arr (xs : List Json)
  | obj (members : List (Bytes × Json))

/-- Is it `null`? (for config/config.go:149-169). -/
def Json.isNull : Json → Bool
  | .null => true
  | _ => false

/-- config/config.go:23-26 `UrlPattern`. -/
structure UrlPattern where
  baseUrl : Bytes := []
  anchor : Bytes := []
deriving DecidableEq

/-- config/config.go:28-39 `Repo`. -/
structure Repo where
  url : Bytes := []
  displayName : Bytes := []
  msBetweenPolls : Int := 0
  vcs : Bytes := []
  vcsConfigMessage : Option Json := none
  urlPattern : Option UrlPattern := none
  excludeDotFiles : Bool := false
  enablePollUpdates : Option Bool := none
  enablePushUpdates : Option Bool := none
  autoGeneratedFiles : List Bytes := []

/-- config/config.go:60-68 `Config` (without `DbPath`). A repository or a vcs setting given as `null`
is a nil pointer. -/
structure Config where
  title : Bytes := []
  repos : List (Bytes × Option Repo) := []
  maxConcurrentIndexers : Int := 0
  healthCheckURI : Bytes := []
  vcsConfigMessages : List (Bytes × Option Json) := []
  resultLimit : Int := 0

/-- The ways loading ends without a configuration. (for config/config.go:191-220) -/
inductive LoadErr where
  /-- an error is returned -/
  | badJson
  /-- a nil pointer is dereferenced or a nil map assigned to: the program stops with a panic -/
  | panic
deriving DecidableEq

/-- config/config.go:10-21 -/
def defaultMsBetweenPoll : Int := 30000
/-- config/config.go:10-21 -/
def defaultMaxConcurrentIndexers : Int := 2
/-- config/config.go:10-21 -/
def defaultPushEnabled : Bool := false
/-- config/config.go:10-21 -/
def defaultPollEnabled : Bool := true
/-- config/config.go:10-21 -/
def defaultTitle : Bytes := b!"Hound"
/-- config/config.go:10-21 -/
def defaultVcs : Bytes := b!"git"
/-- config/config.go:10-21 -/
def defaultBaseUrl : Bytes := b!"{url}/blob/{rev}/{path}{anchor}"
/-- config/config.go:10-21 -/
def defaultAnchor : Bytes := b!"#L{line}"
/-- config/config.go:10-21 -/
def defaultHealthCheckURI : Bytes := b!"/healthz"
/-- config/config.go:10-21 -/
def defaultResultLimit : Int := 5000

/-- config/config.go:43-48 `optionToBool`. -/
def optionToBool (val : Option Bool) (dflt : Bool) : Bool :=
  match val with
  | none => dflt
  | some b => b

/-- config/config.go:51-53 `PollUpdatesEnabled`. -/
def Repo.pollUpdatesEnabled (r : Repo) : Bool := optionToBool r.enablePollUpdates defaultPollEnabled

/-- config/config.go:56-58 `PushUpdatesEnabled`. -/
def Repo.pushUpdatesEnabled (r : Repo) : Bool := optionToBool r.enablePushUpdates defaultPushEnabled

/-- config/config.go:108-121, the url pattern. -/
def initUrlPattern : Option UrlPattern → UrlPattern
  | none => ⟨defaultBaseUrl, defaultAnchor⟩
  | some p => ⟨if p.baseUrl = [] then defaultBaseUrl else p.baseUrl,
               if p.anchor = [] then defaultAnchor else p.anchor⟩

/-- config/config.go:99-122 `initRepo`. -/
def initRepo (r : Repo) : Repo :=
  { r with
    msBetweenPolls := if r.msBetweenPolls = 0 then defaultMsBetweenPoll else r.msBetweenPolls
    vcs := if r.vcs = [] then defaultVcs else r.vcs
    urlPattern := some (initUrlPattern r.urlPattern) }

/-- The Go map that `json.Unmarshal` makes of the members of an object: the last member with a key
counts. (for config/config.go:142-189) -/
def toMap : List (Bytes × Json) → List (Bytes × Json)
  | [] => []
  | (k, v) :: r => if r.any (fun e => e.1 == k) then toMap r else (k, v) :: toMap r

/-- `json.Unmarshal` into a `map[string]interface{}`: `ok none` is the nil map. (Numbers are kept
exactly; Go's `interface{}` rounds them to `float64`. No vcs driver has a numeric setting.) (for config/config.go:142-189) -/
def unmarshalMap : Json → Except LoadErr (Option (List (Bytes × Json)))
  | .obj members => .ok (some (toMap members))
  | .null => .ok none
  | _ => .error .badJson

/-- Lexicographic comparison of keys. (for config/config.go:142-189) -/
def keyLe : Bytes → Bytes → Bool
  | [], _ => true
  | _ :: _, [] => false
  | a :: as, b :: bs => if a < b then true else if a = b then keyLe as bs else false

/-- Insert a member into members sorted by key. (for config/config.go:142-189) -/
def insertMember (e : Bytes × Json) : List (Bytes × Json) → List (Bytes × Json)
  | [] => [e]
  | x :: xs => if keyLe e.1 x.1 then e :: x :: xs else x :: insertMember e xs

/-- `json.Marshal` of a map writes the members sorted by key. (for config/config.go:142-189) -/
def marshalMap : List (Bytes × Json) → Json
  | m => .obj (m.foldr insertMember [])

/-- config/config.go:173-177: add the global values whose names are missing. -/
def mergeVals (globalVals repoVals : List (Bytes × Json)) : List (Bytes × Json) :=
  repoVals ++ globalVals.filter fun e => (repoVals.lookup e.1).isNone

/-- config/config.go:149-156: decode the global settings. -/
def decodeGlobals : List (Bytes × Option Json) → Except LoadErr (List (Bytes × List (Bytes × Json)))
  | [] => .ok []
  | (_, none) :: _ => .error .panic
  | (vcs, some msg) :: rest =>
    match unmarshalMap msg with
    | .error e => .error e
    | .ok vals =>
      match decodeGlobals rest with
      | .error e => .error e
      | .ok r => .ok ((vcs, vals.getD []) :: r)

/-- config/config.go:165-185: the message of a repository whose vcs has global settings. -/
def mergeMessage (globalVals : List (Bytes × Json)) (msg : Option Json) : Except LoadErr Json :=
  match msg with
  | none => .ok (marshalMap (mergeVals globalVals []))
  | some j =>
    match unmarshalMap j with
    | .error e => .error e
    | .ok (some repoVals) => .ok (marshalMap (mergeVals globalVals repoVals))
    | .ok none => if globalVals = [] then .ok .null else .error .panic

/-- config/config.go:158-186, one repository. -/
def mergeRepo (globals : List (Bytes × List (Bytes × Json))) (r : Repo) : Except LoadErr Repo :=
  match globals.lookup r.vcs with
  | none => .ok r
  | some globalVals =>
    match mergeMessage globalVals r.vcsConfigMessage with
    | .error e => .error e
    | .ok msg => .ok { r with vcsConfigMessage := some msg }

/-- config/config.go:158-186, the loop. -/
def mergeRepos (globals : List (Bytes × List (Bytes × Json))) :
    List (Bytes × Repo) → Except LoadErr (List (Bytes × Repo))
  | [] => .ok []
  | (n, r) :: rest =>
    match mergeRepo globals r with
    | .error e => .error e
    | .ok r' =>
      match mergeRepos globals rest with
      | .error e => .error e
      | .ok rs => .ok ((n, r') :: rs)

/-- config/config.go:215-217: `initRepo` for every repository. -/
def initRepos : List (Bytes × Option Repo) → Except LoadErr (List (Bytes × Repo))
  | [] => .ok []
  | (_, none) :: _ => .error .panic
  | (n, some r) :: rest =>
    match initRepos rest with
    | .error e => .error e
    | .ok rs => .ok ((n, initRepo r) :: rs)

/-- A loaded configuration. (for config/config.go:60-68, 191-220) -/
structure Loaded where
  title : Bytes
  repos : List (Bytes × Repo)
  maxConcurrentIndexers : Int
  healthCheckURI : Bytes
  resultLimit : Int

/-- config/config.go:142-189 `mergeVCSConfigs`. -/
def mergeVCSConfigs (messages : List (Bytes × Option Json)) (repos : List (Bytes × Repo)) :
    Except LoadErr (List (Bytes × Repo)) :=
  if messages = [] then .ok repos
  else match decodeGlobals messages with
    | .error e => .error e
    | .ok globals => mergeRepos globals repos

/-- config/config.go:191-220 `LoadFromFile` after decoding, with config/config.go:126-140 `initConfig`
(without `DbPath`). -/
def load (c : Config) : Except LoadErr Loaded :=
  match initRepos c.repos with
  | .error e => .error e
  | .ok repos =>
    match mergeVCSConfigs c.vcsConfigMessages repos with
    | .error e => .error e
    | .ok repos => .ok {
        title := if c.title = [] then defaultTitle else c.title
        repos := repos
        maxConcurrentIndexers :=
          if c.maxConcurrentIndexers = 0 then defaultMaxConcurrentIndexers else c.maxConcurrentIndexers
        healthCheckURI := if c.healthCheckURI = [] then defaultHealthCheckURI else c.healthCheckURI
        resultLimit := if c.resultLimit = 0 then defaultResultLimit else c.resultLimit }

/-! ## What a driver reads from the message -/

/-- ASCII part of the case folding `encoding/json` uses to find the field of a key. (for config/config.go:198) -/
def foldKey (k : Bytes) : Bytes := k.map fun c => if 65 ≤ c ∧ c ≤ 90 then c + 32 else c

/-- vcs/git.go:37-49 `newGit` (and the other drivers): the value `json.Unmarshal` gives the field named
`field`: members are processed in order, a key selects the field regardless of case, `null` changes
nothing. `none` is the zero value. -/
def driverField (field : Bytes) (msg : Option Json) : Option Json :=
  match msg with
  | some (.obj members) =>
    ((members.filter fun e => foldKey e.1 == foldKey field && !e.2.isNull).getLast?).map (·.2)
  | _ => none

/-! ## JSON served to clients -/

/-- config/config.go:76-78 `(*SecretMessage).MarshalJSON`; a nil pointer is encoded as `null`. -/
def secretJson : Option Json → Json
  | none => .null
  | some _ => .obj []

/-- A `*bool` in JSON (for config/config.go:28-39). -/
def optBoolJson : Option Bool → Json
  | none => .null
  | some b => .bool b

/-- A `*UrlPattern` in JSON (config/config.go:23-26). -/
def urlPatternJson : Option UrlPattern → Json
  | none => .null
  | some p => .obj [(b!"base-url", .str p.baseUrl), (b!"anchor", .str p.anchor)]

/-- `json.Marshal` of a `Repo`, by the field tags of config/config.go:28-39. A nil list and an empty one
are not distinguished. -/
def repoJson (r : Repo) : Json :=
  .obj [(b!"url", .str r.url), (b!"display-name", .str r.displayName),
    (b!"ms-between-poll", .num r.msBetweenPolls), (b!"vcs", .str r.vcs),
    (b!"vcs-config", secretJson r.vcsConfigMessage),
    (b!"url-pattern", urlPatternJson r.urlPattern),
    (b!"exclude-dot-files", .bool r.excludeDotFiles),
    (b!"enable-poll-updates", optBoolJson r.enablePollUpdates),
    (b!"enable-push-updates", optBoolJson r.enablePushUpdates),
    (b!"auto-generated-files", .arr (r.autoGeneratedFiles.map .str))]

/-- config/config.go:222-229 `ToJsonString`, api/api.go:178-185 (`/api/v1/repos`): the repositories,
sorted by name. -/
def reposJson (repos : List (Bytes × Repo)) : Json :=
  marshalMap (repos.map fun e => (e.1, repoJson e.2))

end Hound.Config
