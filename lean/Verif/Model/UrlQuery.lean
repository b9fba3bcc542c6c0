import Verif.Model.Api
import Verif.Model.Client

/-!
# Requests of the command line client (`client/client.go`) and how the server reads them

The functions of net/url and net/http are modelled as far as the client and the server use them.
Sending the request and the errors of net/http are not modelled; the bytes of the query arrive as they
are (net/url keeps them in `RawQuery`).
-/

namespace Hound.Url
open Client (fmtD)

/-- The upper case hexadecimal digit of a number below 16. (net/url)
(for client/client.go:96-105 and `FormValue` at api/api.go:190-204) -/
def hexUpper (n : UInt8) : UInt8 := if n < 10 then 48 + n else 55 + n

/-- The value of a hexadecimal digit (net/url `ishex`, `unhex`).
(for client/client.go:96-105 and `FormValue` at api/api.go:190-204) -/
def unhex (c : UInt8) : Option UInt8 :=
  if 48 ≤ c ∧ c ≤ 57 then some (c - 48)
  else if 97 ≤ c ∧ c ≤ 102 then some (c - 97 + 10)
  else if 65 ≤ c ∧ c ≤ 70 then some (c - 65 + 10)
  else none

/-- The bytes `url.QueryEscape` leaves alone (net/url `shouldEscape`).
(for client/client.go:96-105 and `FormValue` at api/api.go:190-204) -/
def unreserved (c : UInt8) : Bool :=
  (97 ≤ c && c ≤ 122) || (65 ≤ c && c ≤ 90) || (48 ≤ c && c ≤ 57) ||
    c == 45 || c == 95 || c == 46 || c == 126

/-- A byte as a percent sign and two digits. (net/url) (for client/client.go:96-105 and `FormValue` at api/api.go:190-204) -/
def pct (c : UInt8) : Bytes := [37, hexUpper (c / 16), hexUpper (c % 16)]

/-- Go `url.QueryEscape` of one byte. (net/url) (for client/client.go:96-105 and `FormValue` at api/api.go:190-204) -/
def escapeByte (c : UInt8) : Bytes :=
  if unreserved c then [c] else if c = 32 then [43] else pct c

/-- Go `url.QueryEscape`. (net/url) (for client/client.go:96-105 and `FormValue` at api/api.go:190-204) -/
def queryEscape (s : Bytes) : Bytes := s.flatMap escapeByte

/-- Go `url.QueryUnescape`; `none` is an error. (net/url) (for client/client.go:96-105 and `FormValue` at api/api.go:190-204) -/
def queryUnescape : Bytes → Option Bytes
  | [] => some []
  | 37 :: rest =>
    match rest with
    | a :: b :: rest' =>
      match unhex a, unhex b with
      | some x, some y => (queryUnescape rest').map (((x <<< 4) ||| y) :: ·)
      | _, _ => none
    | _ => none
  | c :: rest => (queryUnescape rest).map ((if c = 43 then 32 else c) :: ·)

/-- Go `strings.Cut(s, sep)` for a separator of one byte, without the flag. (strings)
(for client/client.go:96-105 and `FormValue` at api/api.go:190-204) -/
def cut (sep : UInt8) (s : Bytes) : Bytes × Bytes := (s.takeWhile (· ≠ sep), (s.dropWhile (· ≠ sep)).drop 1)

/-- Go `url.ParseQuery` of one part between ampersands: errors leave the part out. (net/url) (for api/api.go:190-204) -/
def parsePart (part : Bytes) : Option (Bytes × Bytes) :=
  if 59 ∈ part ∨ part = [] then none
  else match queryUnescape (cut 61 part).1, queryUnescape (cut 61 part).2 with
    | some k, some v => some (k, v)
    | _, _ => none

/-- Go `url.ParseQuery`: all pairs in order; the first error is returned too, but `FormValue` ignores
it. (net/url) (for api/api.go:190-204) -/
def parseQuery (q : Bytes) : List (Bytes × Bytes) := (Api.splitByte 38 q).filterMap parsePart

/-- Go `Request.FormValue(key)` of a GET request: the first value of the key, or empty. (net/http)
(called at api/api.go:190-204) -/
def formValue (q : Bytes) (key : Bytes) : Bytes := ((parseQuery q).lookup key).getD []

/-- Go `url.Values.Encode` for one value per key, the pairs in the order of the keys. (net/url)
(called at client/client.go:105) -/
def encode : List (Bytes × Bytes) → Bytes
  | [] => []
  | [(k, v)] => queryEscape k ++ 61 :: queryEscape v
  | (k, v) :: rest => queryEscape k ++ 61 :: queryEscape v ++ 38 :: encode rest

/-- The query of a url: between the first `?` and the fragment. (net/url `Parse`)
(for client/client.go:96-105 and `FormValue` at api/api.go:190-204) -/
def rawQuery (u : Bytes) : Bytes := (cut 63 (cut 35 u).1).2

/-- Go `fmt.Sprintf("%t", b)`. (fmt) (called at client/client.go:103-104) -/
def fmtT (b : Bool) : Bytes := if b then b!"true" else b!"false"

/-- client/client.go:95-105, the url `Search` asks for. `Encode` sorts the keys. -/
def clientUrl (host pattern repos files : Bytes) (context : Int) (ignoreCase stats : Bool) : Bytes :=
  b!"http://" ++ host ++ b!"/api/v1/search?" ++ encode
    [(b!"ctx", fmtD context), (b!"files", files), (b!"i", fmtT ignoreCase), (b!"q", pattern),
      (b!"repos", repos), (b!"stats", fmtT stats)]

end Hound.Url
