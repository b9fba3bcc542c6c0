import Verif.Model.Config
import Verif.Model.JsonText
import Verif.Model.Paths

/-!
# `config/config.go`: from the text of the configuration file to the configuration

`encoding/json` on the types of config/config.go:23-68. Simplifications: of numbers in the text only integers are read
(`JsonText.goRead`); names of members are compared regardless of the case of ASCII letters only; `null` in a list of texts
is the empty text; an error ends the decoding at once (in Go it is remembered and returned at the end: the same outcome). The raw
text that a `SecretMessage` keeps (81-87) is given by its value.
-/

namespace Hound.Config

open JsonText (Value)

mutual
/-- config/config.go:81-87 `UnmarshalJSON` of `SecretMessage`: the value as it is. -/
def rawMessage : Value Bytes → Json
  | .null => .null
  | .bool b => .bool b
  | .num n => .num n
  | .str s => .str s
  | .arr xs => .arr (rawElems xs)
  | .obj ms => .obj (rawMembers ms)
/-- The elements of a list. (part of `Decode`, called at config/config.go:198) -/
def rawElems : List (Value Bytes) → List Json
  | [] => []
  | x :: xs => rawMessage x :: rawElems xs
/-- The members of an object. (part of `Decode`, called at config/config.go:198) -/
def rawMembers : List (Bytes × Value Bytes) → List (Bytes × Json)
  | [] => []
  | m :: ms => (m.1, rawMessage m.2) :: rawMembers ms
end

/-- Assignment to a key of a Go map. (part of `Decode`, called at config/config.go:198) -/
def mapSet {α : Type} (k : Bytes) (v : α) : List (Bytes × α) → List (Bytes × α)
  | [] => [(k, v)]
  | e :: r => if e.1 = k then (k, v) :: r else e :: mapSet k v r

/-- A `string`; `null` leaves it as it is. `none` is an error, here and below.
(part of `Decode`, called at config/config.go:198) -/
def readText (v : Value Bytes) (old : Bytes) : Option Bytes :=
  match v with
  | .null => some old
  | .str s => some s
  | _ => none

/-- An `int` of 64 bits. (part of `Decode`, called at config/config.go:198) -/
def readInt (v : Value Bytes) (old : Int) : Option Int :=
  match v with
  | .null => some old
  | .num n => if -2 ^ 63 ≤ n ∧ n < 2 ^ 63 then some n else none
  | _ => none

/-- A `bool`. (part of `Decode`, called at config/config.go:198) -/
def readFlag (v : Value Bytes) (old : Bool) : Option Bool :=
  match v with
  | .null => some old
  | .bool b => some b
  | _ => none

/-- A `*bool`: `null` is nil. (part of `Decode`, called at config/config.go:198) -/
def readOptFlag (v : Value Bytes) : Option (Option Bool) :=
  match v with
  | .null => some none
  | .bool b => some (some b)
  | _ => none

/-- A text in a list. (part of `Decode`, called at config/config.go:198) -/
def readElems : List (Value Bytes) → Option (List Bytes)
  | [] => some []
  | x :: xs => (readText x []).bind fun s => (readElems xs).map (s :: ·)

/-- A `[]string`: `null` is nil. (part of `Decode`, called at config/config.go:198) -/
def readTexts (v : Value Bytes) : Option (List Bytes) :=
  match v with
  | .null => some []
  | .arr xs => readElems xs
  | _ => none

/-- The members of an object, one after the other. (part of `Decode`, called at config/config.go:198) -/
def readMembers {α : Type} (f : Bytes × Value Bytes → α → Option α) : List (Bytes × Value Bytes) → α → Option α
  | [], s => some s
  | m :: r, s => (f m s).bind (readMembers f r)

/-- A struct: `null` leaves it as it is. (part of `Decode`, called at config/config.go:198) -/
def readObject {α : Type} (f : Bytes × Value Bytes → α → Option α) (v : Value Bytes) (old : α) : Option α :=
  match v with
  | .null => some old
  | .obj ms => readMembers f ms old
  | _ => none

/-- config/config.go:23-26 `UrlPattern`. -/
def readPatternMember (m : Bytes × Value Bytes) (p : UrlPattern) : Option UrlPattern :=
  if foldKey m.1 = b!"base-url" then (readText m.2 p.baseUrl).map fun s => { p with baseUrl := s }
  else if foldKey m.1 = b!"anchor" then (readText m.2 p.anchor).map fun s => { p with anchor := s }
  else some p

/-- A `*UrlPattern`: `null` is nil; a struct that is there already is added to.
(part of `Decode`, called at config/config.go:198) -/
def readPattern (v : Value Bytes) (old : Option UrlPattern) : Option (Option UrlPattern) :=
  match v with
  | .null => some none
  | v => (readObject readPatternMember v (old.getD {})).map some

/-- A `*SecretMessage`: `null` is nil. (part of `Decode`, called at config/config.go:198) -/
def readMessage (v : Value Bytes) : Option Json :=
  match v with
  | .null => none
  | v => some (rawMessage v)

/-- config/config.go:28-39 `Repo`. -/
def readRepoMember (m : Bytes × Value Bytes) (r : Repo) : Option Repo :=
  let k := foldKey m.1
  if k = b!"url" then (readText m.2 r.url).map fun s => { r with url := s }
  else if k = b!"display-name" then (readText m.2 r.displayName).map fun s => { r with displayName := s }
  else if k = b!"ms-between-poll" then (readInt m.2 r.msBetweenPolls).map fun n => { r with msBetweenPolls := n }
  else if k = b!"vcs" then (readText m.2 r.vcs).map fun s => { r with vcs := s }
  else if k = b!"vcs-config" then some { r with vcsConfigMessage := readMessage m.2 }
  else if k = b!"url-pattern" then (readPattern m.2 r.urlPattern).map fun p => { r with urlPattern := p }
  else if k = b!"exclude-dot-files" then (readFlag m.2 r.excludeDotFiles).map fun b => { r with excludeDotFiles := b }
  else if k = b!"enable-poll-updates" then (readOptFlag m.2).map fun b => { r with enablePollUpdates := b }
  else if k = b!"enable-push-updates" then (readOptFlag m.2).map fun b => { r with enablePushUpdates := b }
  else if k = b!"auto-generated-files" then (readTexts m.2).map fun l => { r with autoGeneratedFiles := l }
  else some r

/-- A `*Repo` in a map: `null` is nil; it is a new struct, even if the key was there.
(part of `Decode`, called at config/config.go:198) -/
def readRepo (v : Value Bytes) : Option (Option Repo) :=
  match v with
  | .null => some none
  | v => (readObject readRepoMember v {}).map some

/-- A `map[string]*Repo`: `null` is nil; a map that is there already is added to.
(part of `Decode`, called at config/config.go:198) -/
def readRepos (v : Value Bytes) (old : List (Bytes × Option Repo)) : Option (List (Bytes × Option Repo)) :=
  match v with
  | .null => some []
  | v => readObject (fun m l => (readRepo m.2).map fun r => mapSet m.1 r l) v old

/-- A `map[string]*SecretMessage`. (part of `Decode`, called at config/config.go:198) -/
def readMessages (v : Value Bytes) (old : List (Bytes × Option Json)) : Option (List (Bytes × Option Json)) :=
  match v with
  | .null => some []
  | v => readObject (fun m l => some (mapSet m.1 (readMessage m.2) l)) v old

/-- config/config.go:60-68 `Config`, with `DbPath`. -/
structure FileConfig where
  dbPath : Bytes := []
  conf : Config := {}

/-- config/config.go:60-68, the fields. -/
def readConfigMember (m : Bytes × Value Bytes) (c : FileConfig) : Option FileConfig :=
  let k := foldKey m.1
  if k = b!"dbpath" then (readText m.2 c.dbPath).map fun s => { c with dbPath := s }
  else if k = b!"title" then (readText m.2 c.conf.title).map fun s => { c with conf := { c.conf with title := s } }
  else if k = b!"repos" then (readRepos m.2 c.conf.repos).map fun l => { c with conf := { c.conf with repos := l } }
  else if k = b!"max-concurrent-indexers" then
    (readInt m.2 c.conf.maxConcurrentIndexers).map fun n => { c with conf := { c.conf with maxConcurrentIndexers := n } }
  else if k = b!"health-check-uri" then
    (readText m.2 c.conf.healthCheckURI).map fun s => { c with conf := { c.conf with healthCheckURI := s } }
  else if k = b!"vcs-config" then
    (readMessages m.2 c.conf.vcsConfigMessages).map fun l => { c with conf := { c.conf with vcsConfigMessages := l } }
  else if k = b!"result-limit" then
    (readInt m.2 c.conf.resultLimit).map fun n => { c with conf := { c.conf with resultLimit := n } }
  else some c

/-- config/config.go:198: `json.NewDecoder(r).Decode(c)` into an empty `Config`: the first value of the text. -/
def readConfig (text : Bytes) : Option FileConfig :=
  (JsonText.goRead text).bind fun v => readObject readConfigMember v {}

/-- config/config.go:206-213: the data directory, for a process in the directory `cwd` that reads the file `filename`. -/
def dataDir (cwd filename dbPath : Bytes) : Bytes :=
  if Path.isAbs dbPath then dbPath else Path.abs cwd (Path.join (Path.dir filename) dbPath)

/-- config/config.go:191-220 `LoadFromFile`: the data directory and the configuration; `text` is what the file holds, `none` if it
cannot be read. (`Getwd` succeeds.) -/
def loadFromFile (cwd filename : Bytes) (text : Option Bytes) : Except LoadErr (Bytes × Loaded) :=
  match text.bind readConfig with
  | none => .error .badJson
  | some c =>
    match load c.conf with
    | .error e => .error e
    | .ok L => .ok (dataDir cwd filename c.dbPath, L)

end Hound.Config
