import Verif.Model.UiHtml
import Verif.Model.UrlQuery
import Verif.Model.TextFile

/-!
# Parameters in addresses of the web page (`ui/assets/js/hound.js`) and in its requests

`encodeURIComponent`, `decodeURIComponent`, the browser's parsing of a relative address and reqwest's
query strings are library functions, modelled from ECMA-262, the URL standard and reqwest.
-/

namespace Hound.Ui
open Url (pct unhex)

/-- The code units of a code point (ECMA-262 `UTF16EncodeCodePoint`). (for ui/assets/js/hound.js:20-55, 1055-1071) -/
def units (r : Rune) : JsStr :=
  if r < 0x10000 then [UInt16.ofNat r]
  else [UInt16.ofNat (0xD800 + (r - 0x10000) / 0x400), UInt16.ofNat (0xDC00 + (r - 0x10000) % 0x400)]

/-- The code points of a string (ECMA-262 `CodePointAt`); `lone` says what stands for a surrogate without
partner. (for ui/assets/js/hound.js:20-55, 1055-1071) -/
def codePoints (lone : Option Rune) : JsStr → Option (List Rune)
  | [] => some []
  | [u] => if u < 0xD800 ∨ 0xDFFF < u then some [u.toNat] else lone.map fun r => [r]
  | u :: v :: rest =>
    if u < 0xD800 ∨ 0xDFFF < u then (codePoints lone (v :: rest)).map (u.toNat :: ·)
    else if u < 0xDC00 ∧ 0xDC00 ≤ v ∧ v ≤ 0xDFFF then
      (codePoints lone rest).map (((u.toNat - 0xD800) * 0x400 + (v.toNat - 0xDC00) + 0x10000) :: ·)
    else lone.bind fun r => (codePoints lone (v :: rest)).map (r :: ·)

/-- The bytes of a percent-encoding as code units. (for ui/assets/js/hound.js:20-55, 1055-1071) -/
def pctUnits (b : UInt8) : JsStr := js (pct b)

/-- The characters `encodeURIComponent` leaves alone. (ECMA-262) (for ui/assets/js/hound.js:20-55, 1055-1071) -/
def uriKept (r : Rune) : Bool :=
  (97 ≤ r && r ≤ 122) || (65 ≤ r && r ≤ 90) || (48 ≤ r && r ≤ 57) ||
    [45, 95, 46, 33, 126, 42, 39, 40, 41].contains r

/-- Code points kept, or percent-encoded byte by byte. (for ui/assets/js/hound.js:20-55, 1055-1071) -/
def encodeKeeping (keep : Rune → Bool) (rs : List Rune) : JsStr :=
  rs.flatMap fun r => if keep r then units r else (encodeRaw r).flatMap pctUnits

/-- `encodeURIComponent` (ECMA-262 `Encode`); `none`: it throws. (called at ui/assets/js/hound.js:1059-1067) -/
def encodeURIComponent (s : JsStr) : Option JsStr := (codePoints none s).map (encodeKeeping uriKept)

/-- The value of a hexadecimal digit. (for ui/assets/js/hound.js:20-55, 1055-1071) -/
def unhexUnit (u : UInt16) : Option UInt8 := if u < 128 then unhex u.toUInt8 else none

/-- One percent-encoded byte at the beginning. (ECMA-262 `Decode`) (for ui/assets/js/hound.js:20-55, 1055-1071) -/
def takeOctet : JsStr → Option (UInt8 × JsStr)
  | p :: a :: b :: rest =>
    if p = 37 then
      match unhexUnit a, unhexUnit b with
      | some x, some y => some ((x <<< 4) ||| y, rest)
      | _, _ => none
    else none
  | _ => none

/-- A number of percent-encoded bytes at the beginning. (for ui/assets/js/hound.js:20-55, 1055-1071) -/
def takeOctets : Nat → JsStr → Option (Bytes × JsStr)
  | 0, s => some ([], s)
  | n + 1, s => do
    let (b, s) ← takeOctet s
    let (bs, s) ← takeOctets n s
    return (b :: bs, s)

/-- How many bytes the encoding of a code point has that begins with this byte: its leading ones, at most
four. (ECMA-262 `Decode`) (for ui/assets/js/hound.js:20-55, 1055-1071) -/
def octetCount (b : UInt8) : Option Nat :=
  if b < 0x80 then some 1
  else if b < 0xC0 then none
  else if b < 0xE0 then some 2
  else if b < 0xF0 then some 3
  else if b < 0xF8 then some 4
  else none

/-- `decodeURIComponent` (ECMA-262 `Decode` with no reserved characters); `none`: it throws. Every round
takes a code unit. (for ui/assets/js/hound.js:20-55, 1055-1071) -/
def decodeLoop : Nat → JsStr → Option JsStr
  | _, [] => some []
  | 0, _ :: _ => none
  | fuel + 1, c :: rest =>
    if c ≠ 37 then (decodeLoop fuel rest).map (c :: ·)
    else do
      let (b, _) ← takeOctet (c :: rest)
      let n ← octetCount b
      let (bs, rest) ← takeOctets n (c :: rest)
      let (r, size) := decodeRune bs
      if size = n then (decodeLoop fuel rest).map (units r ++ ·) else none

/-- `decodeURIComponent`. (called at ui/assets/js/hound.js:20-43) -/
def decodeURIComponent (s : JsStr) : Option JsStr := decodeLoop s.length s

/-- `s.split(c)` for a separator of one code unit. (for ui/assets/js/hound.js:20-55, 1055-1071) -/
def splitUnit (sep : UInt16) : JsStr → List JsStr
  | [] => [[]]
  | c :: cs =>
    if c = sep then [] :: splitUnit sep cs
    else match splitUnit sep cs with
      | [] => [[c]]
      | x :: xs => (c :: x) :: xs

/-- The parameters as an object from names to values (names of `Object.prototype` are not treated
specially). (for ui/assets/js/hound.js:20-55, 1055-1071) -/
abbrev Fields := JsStr → Option JsStr

/-- hound.js:29-40, one part of the query. -/
def paramPart (params : Fields) (v : JsStr) : Option Fields :=
  match splitUnit 61 v with
  | [a, b] => do
    let key ← decodeURIComponent a
    let val ← decodeURIComponent (b.map fun c => if c = 43 then 32 else c)
    return fun k => if k = key then some val else params k
  | _ => some params

/-- hound.js:20-43 `ParamsFromQueryString`; `none`: `decodeURIComponent` throws. -/
def paramsFromQueryString (qs : JsStr) (params : Fields) : Option Fields :=
  if qs = [] then some params
  else (splitUnit 38 (qs.drop 1)).foldl (fun p v => p.bind fun p => paramPart p v) (some params)

/-- hound.js:46-53, the parameters of an address without query. -/
def noParams : Fields := fun k =>
  if k = js b!"q" then some [] else if k = js b!"i" then some (js b!"nope")
  else if k = js b!"literal" then some (js b!"nope") else if k = js b!"files" then some []
  else if k = js b!"excludeFiles" then some [] else if k = js b!"repos" then some (js b!"*") else none

/-- What the search form holds (hound.js:392-408 `getParams`). -/
structure Form where
  q : JsStr
  i : JsStr
  literal : JsStr
  files : JsStr
  excludeFiles : JsStr
  repos : JsStr

/-- hound.js:1055-1071, the address `updateHistory` makes; `none`: `encodeURIComponent` throws. The
repositories are not encoded. -/
def historyPath (pathname : JsStr) (p : Form) : Option JsStr := do
  let q ← encodeURIComponent p.q
  let i ← encodeURIComponent p.i
  let literal ← encodeURIComponent p.literal
  let files ← encodeURIComponent p.files
  let excludeFiles ← encodeURIComponent p.excludeFiles
  return pathname ++ js b!"?q=" ++ q ++ js b!"&i=" ++ i ++ js b!"&literal=" ++ literal ++
    js b!"&files=" ++ files ++ js b!"&excludeFiles=" ++ excludeFiles ++ js b!"&repos=" ++ p.repos

/-- The code points the browser encodes in the query of an http address. (URL standard, special-query
percent-encode set) (for ui/assets/js/hound.js:20-55, 1055-1071) -/
def specialQuery (r : Rune) : Bool := r ≤ 32 || r == 34 || r == 35 || r == 39 || r == 60 || r == 62 || 127 ≤ r

/-- The query of an address as the browser writes it. (URL standard) (for ui/assets/js/hound.js:20-55, 1055-1071) -/
def normalQuery (s : JsStr) : JsStr :=
  encodeKeeping (fun r => !specialQuery r) ((codePoints (some 0xFFFD) s).getD [])

/-- `location.search` after `history.pushState(..., path)`. Spaces and control characters at the end and
all tabs and line ends are removed, the query is what is between the first `?` and the first `#`. (URL
standard; the path begins with one slash) (for ui/assets/js/hound.js:45-55, 1070) -/
def locationSearch (path : JsStr) : JsStr :=
  let s := (path.reverse.dropWhile (· ≤ 32)).reverse.filter fun c => c ≠ 9 ∧ c ≠ 10 ∧ c ≠ 13
  let query := ((s.takeWhile (· ≠ 35)).dropWhile (· ≠ 63)).drop 1
  if query = [] then [] else 63 :: normalQuery query

/-- Pushing the address of a search (`onSearchRequested`, hound.js:1051-1054), then reading the parameters
back from the address (hound.js:45-55 `ParamsFromUrl`), as on a reload, from a bookmark or a link. -/
def reload (pathname : JsStr) (p : Form) : Option Fields := do
  let path ← historyPath pathname p
  paramsFromQueryString (locationSearch path) noParams

/-! ### The page's requests -/

/-- `s.replace(/%20/g, '+')`. (for the requests of ui/assets/js/hound.js:162-165, 232-235) -/
def replaceSpaces : JsStr → JsStr
  | 37 :: 50 :: 48 :: rest => 43 :: replaceSpaces rest
  | c :: rest => c :: replaceSpaces rest
  | [] => []

/-- reqwest `toQueryString` before the spaces: names and values encoded.
(for the requests of ui/assets/js/hound.js:162-165, 232-235) -/
def queryParts : List (JsStr × JsStr) → Option JsStr
  | [] => some []
  | [(k, v)] => do
    let k ← encodeURIComponent k
    let v ← encodeURIComponent v
    return k ++ 61 :: v
  | (k, v) :: rest => do
    let k ← encodeURIComponent k
    let v ← encodeURIComponent v
    let r ← queryParts rest
    return k ++ 61 :: v ++ 38 :: r

/-- The bytes of the query in the request made by `reqwest({url, data})` (hound.js:117-120, 162-165,
232-235), as the browser sends them; `none`: `encodeURIComponent` throws. -/
def requestQuery (data : List (JsStr × JsStr)) : Option Bytes :=
  (queryParts data).map fun q => (normalQuery (replaceSpaces q)).map fun u => u.toUInt8

end Hound.Ui
