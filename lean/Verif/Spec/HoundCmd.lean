import Verif.Model.HoundCmd
import Verif.Model.Paging

/-!
# Specification: what configuration files say to the command `hound`

A configuration file is a JSON object. Its member `host` is the address of the server, its member `http-headers` an
object of header fields. Names of members are taken regardless of case.
-/

namespace Hound.Spec
open Cmd
open JsonText (Value)

/-- The members of the object in a file. -/
def fileMembers : ConfFile → List (Bytes × Value Bytes)
  | .text b => match JsonText.goRead b with
    | some (.obj ms) => ms
    | _ => []
  | _ => []

/-- The members of all files, in order. -/
def allMembers (files : List ConfFile) : List (Bytes × Value Bytes) := files.flatMap fileMembers

/-- The addresses of the server that are given, in order. -/
def hostsGiven (files : List ConfFile) : List Bytes :=
  (allMembers files).filterMap fun m =>
    if Config.foldKey m.1 = b!"host" then
      match m.2 with
      | .str v => some v
      | _ => none
    else none

/-- What is said about header fields, in order: a name and its value, or `none` where all are withdrawn (`null`). -/
def headersGiven (files : List ConfFile) : List (Option (Bytes × Bytes)) :=
  (allMembers files).flatMap fun m =>
    if Config.foldKey m.1 = b!"http-headers" then
      match m.2 with
      | .null => [none]
      | .obj hs => hs.map fun h => some (h.1, match h.2 with
        | .str v => v
        | _ => [])
      | _ => []
    else []

/-- The last thing said about a name. -/
def lastValue (k : Bytes) (given : List (Option (Bytes × Bytes))) : Option Bytes :=
  ((given.filter fun g => match g with
    | none => true
    | some e => e.1 == k).getLast?).bind fun g => g.map (·.2)

/-- The characters a name of a header field consists of (RFC 7230, 3.2.6: `token`). -/
def TokenName (k : Bytes) : Prop :=
  ∀ c ∈ k, c ∈ b!"!#$%&'*+-.^_`|~0123456789ABCDEFGHIJKLMNOPQRSTUVWXYZabcdefghijklmnopqrstuvwxyz"

/-- The value of a member is one that can be used. -/
def GoodMember (m : Bytes × Value Bytes) : Prop :=
  (Config.foldKey m.1 = b!"host" → m.2 = .null ∨ ∃ v, m.2 = .str v) ∧
  (Config.foldKey m.1 = b!"http-headers" → m.2 = .null ∨ ∃ hs, m.2 = .obj hs ∧
    ∀ h ∈ hs, h.2 = .null ∨ ∃ v, h.2 = .str v)

/-- A file that can be used: there is none, or it can be read and its first JSON value is `null` or an object with good
members. -/
def GoodFile : ConfFile → Prop
  | .missing => True
  | .unreadable => False
  | .text b => JsonText.goRead b = some .null ∨ ∃ ms, JsonText.goRead b = some (.obj ms) ∧ ∀ m ∈ ms, GoodMember m

end Hound.Spec

namespace Hound.Spec
open Cmd Wire

/-- The name under which a repository of the configuration is shown (client/client.go:56-74, see C52). -/
def shownName (repos : List (Bytes × Config.Repo)) (n : Bytes) : Option Bytes :=
  Client.repoNameFor (fun n => (repos.lookup n).map fun r => (r.displayName, r.url)) n

/-- `results` lists the entries of a map, every key once. -/
def Lists {α : Type} (results : List (Bytes × α)) (m : Bytes → Option α) : Prop :=
  (results.map (·.1)).Nodup ∧ ∀ n r, (n, r) ∈ results ↔ m n = some r

/-- The server `srv`, with the repositories `repos` configured, is what answers at the address `host`: a search
request is answered with the outcome of a search of the server for the values in the query (api/api.go:187-233), any
request for the repositories with their list (api/api.go:178-185). -/
structure AnswersAt {Q : Type} (srv : Ui.Server Q) (repos : List (Bytes × Config.Repo)) (host : Bytes)
    (net : Request → Option (Nat × Bytes)) : Prop where
  search : ∀ (req : Request) (q : Bytes), req.url = b!"http://" ++ host ++ b!"/api/v1/search?" ++ q → (35 : UInt8) ∉ q →
    (∃ e msg, Ui.Served srv (Url.formValue q) (.error e) ∧
      net req = some (answer (Api.parseAsBool (Url.formValue q b!"stats")) (.error msg))) ∨
    ∃ all results st, Ui.Served srv (Url.formValue q) (.ok all) ∧ Lists results all.results ∧
      (all.filesOpened < 2 ^ 63 → st.filesOpened = all.filesOpened) ∧ st.filesOpened < 2 ^ 63 ∧ st.duration < 2 ^ 63 ∧
      net req = some (answer (Api.parseAsBool (Url.formValue q b!"stats")) (.ok (results, st)))
  repos : ∀ req : Request, req.url = b!"http://" ++ host ++ b!"/api/v1/repos" → net req = some (reposAnswer repos)

/-- What the server is to search for: the flags and the pattern of the command line. -/
def optionsOf (fl : Flags) (dflt : Int) : SearchOptions where
  ignoreCase := fl.ignoreCase
  literalSearch := false
  linesOfContext := if 0 ≤ fl.context ∧ fl.context < 2 ^ 54 then min fl.context.toNat 20 else 2
  fileRegexp := fl.files
  excludeFileRegexp := []
  offset := 0
  limit := 0
  maxResults := dflt

end Hound.Spec
