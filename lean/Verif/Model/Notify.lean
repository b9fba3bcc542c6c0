import Verif.Model.Api
import Verif.Model.Answer
import Verif.Model.ConfigFile

/-!
# Update requests from body to answer: `api/api.go:235-320`

`Model/Api` has what the two handlers decide. Here are the body of a notification from GitHub, as `encoding/json` reads it, and the
answers as they are written.
-/

namespace Hound.Notify

open JsonText (Value)
open Config (readText readObject foldKey)

/-- api/api.go:282-287 `Webhook`, the fields of `Repository`. -/
structure Hook where
  name : Bytes := []
  fullName : Bytes := []
deriving DecidableEq

/-- api/api.go:284-285, with the names in JSON regardless of case. -/
def readHookRepo (m : Bytes × Value Bytes) (h : Hook) : Option Hook :=
  if foldKey m.1 = b!"name" then (readText m.2 h.name).map fun s => { h with name := s }
  else if foldKey m.1 = b!"full_name" then (readText m.2 h.fullName).map fun s => { h with fullName := s }
  else some h

/-- api/api.go:283. -/
def readHookMember (m : Bytes × Value Bytes) (h : Hook) : Option Hook :=
  if foldKey m.1 = b!"repository" then readObject readHookRepo m.2 h else some h

/-- api/api.go:289-291: `json.NewDecoder(r.Body).Decode(&h)`; `none` is an error. (Numbers in the body are integers; names of
members are compared regardless of the case of ASCII letters only.) -/
def decodeHook (body : Bytes) : Option Hook :=
  (JsonText.goRead body).bind fun v => readObject readHookMember v {}

/-- What the handlers write: status and body (api/api.go:29-46; `http.StatusText`). -/
def written : Api.Reply → Nat × Bytes
  | .ok => (200, JsonText.encode (.str b!"ok"))
  | .methodNotAllowed => (405, JsonText.encode (Wire.errorJson b!"Method Not Allowed"))
  | .badRequest => (400, JsonText.encode (Wire.errorJson b!"Bad Request"))
  | .notFound repo => (404, JsonText.encode (Wire.errorJson (b!"No such repository: " ++ repo)))
  | .forbidden repo => (403, JsonText.encode (Wire.errorJson (b!"Push updates are not enabled for repository " ++ repo)))

/-- api/api.go:274-319, the handler of `/api/v1/github-webhook`, with status and body of the answer, and the searchers afterwards. -/
def webhook (method body : Bytes) (idx : List (Bytes × Api.Srch)) : (Nat × Bytes) × List (Bytes × Api.Srch) :=
  let r := Api.handleWebhook method ((decodeHook body).map (·.fullName)) idx
  (written r.1, r.2)

/-- api/api.go:243-272, the handler of `/api/v1/update`. -/
def update (method : Bytes) (form : Bytes → Bytes) (idx : List (Bytes × Api.Srch)) : (Nat × Bytes) × List (Bytes × Api.Srch) :=
  let r := Api.handleUpdate method form idx
  (written r.1, r.2)

end Hound.Notify
