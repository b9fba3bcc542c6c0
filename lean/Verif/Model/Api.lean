import Verif.Model.Search

/-!
# `api/api.go`: parameters, the search of all repositories, update requests

A Go map is a function to `Option`, or, where its iteration order or its key set matters, an
association list (in some order: Go's iteration order is arbitrary, theorems hold for every list).
`r.FormValue` is a function from names to strings.
-/

namespace Hound.Api

/-- The value of a string of decimal digits, `none` if some byte is no digit. (for api/api.go:124, 138, 157) -/
def digitsVal : Nat → Bytes → Option Nat
  | acc, [] => some acc
  | acc, c :: cs => if 48 ≤ c ∧ c ≤ 57 then digitsVal (acc * 10 + (c.toNat - 48)) cs else none

/-- Go `strconv.ParseUint(s, 10, bits)` (standard library): `none` is an error (empty, a byte that is
no digit, or out of range). (called at api/api.go:124, 157) -/
def parseUint (bits : Nat) (s : Bytes) : Option Nat :=
  if s = [] then none
  else match digitsVal 0 s with
    | none => none
    | some v => if v < 2 ^ bits then some v else none

/-- Go `strconv.ParseInt(s, 10, 64)` (standard library). (called at api/api.go:138) -/
def parseInt (s : Bytes) : Option Int :=
  match s with
  | [] => none
  | c :: cs =>
    if c = 45 then
      match parseUint 64 cs with
      | none => none
      | some v => if v > 2 ^ 63 then none else some (-(v : Int))
    else
      match parseUint 64 (if c = 43 then cs else c :: cs) with
      | none => none
      | some v => if v ≥ 2 ^ 63 then none else some (v : Int)

/-- The conversion of a `uint64` to a (64 bit) `int`. (for api/api.go:157-162) -/
def toInt64 (v : Nat) : Int := if v < 2 ^ 63 then (v : Int) else (v : Int) - 2 ^ 64

/-- api/api.go:123-135 `parseAsUintValue`. -/
def parseAsUintValue (sv : Bytes) (min max dflt : Nat) : Nat :=
  match parseUint 54 sv with
  | none => dflt
  | some iv =>
    if max ≠ 0 ∧ iv > max then max
    else if min ≠ 0 ∧ iv < min then min
    else iv

/-- api/api.go:137-149 `parseAsIntValue`. -/
def parseAsIntValue (sv : Bytes) (min max dflt : Int) : Int :=
  match parseInt sv with
  | none => dflt
  | some iv =>
    if max ≠ 0 ∧ iv > max then max
    else if min ≠ 0 ∧ iv < min then min
    else iv

/-- api/api.go:151-163 `parseRangeInt`. -/
def parseRangeInt (v : Bytes) : Int :=
  if v = [] then 0
  else match parseUint 64 v with
    | none => 0
    | some vi => toInt64 vi

/-- api/api.go:165-175 `parseRangeValue`. -/
def parseRangeValue (rv : Bytes) : Int × Int :=
  match indexByte rv 58 with
  | none => (0, 0)
  | some ix => (parseRangeInt (rv.take ix), parseRangeInt (rv.drop (ix + 1)))

/-- Go `strings.ToLower`, for the bytes that matter: the letters the comparison below looks at are not
the lower case of any letter outside ASCII. (called at api/api.go:100) -/
def lowerByte (c : UInt8) : UInt8 := if 65 ≤ c ∧ c ≤ 90 then c + 32 else c

/-- api/api.go:99-102 `parseAsBool`. -/
def parseAsBool (v : Bytes) : Bool :=
  let v := v.map lowerByte
  v == b!"true" || v == b!"1" || v == b!"fosho"

/-- The UTF-8 encodings of the characters Go's `unicode.IsSpace` accepts: tab, line feed, vertical tab,
form feed, carriage return, space, U+0085, U+00A0, U+1680, U+2000 to U+200A, U+2028, U+2029, U+202F,
U+205F, U+3000. (for api/api.go:105) -/
def spaces : List Bytes :=
  [[9], [10], [11], [12], [13], [32], [0xC2, 0x85], [0xC2, 0xA0], [0xE1, 0x9A, 0x80],
   [0xE2, 0x80, 0x80], [0xE2, 0x80, 0x81], [0xE2, 0x80, 0x82], [0xE2, 0x80, 0x83], [0xE2, 0x80, 0x84],
   [0xE2, 0x80, 0x85], [0xE2, 0x80, 0x86], [0xE2, 0x80, 0x87], [0xE2, 0x80, 0x88], [0xE2, 0x80, 0x89],
   [0xE2, 0x80, 0x8A], [0xE2, 0x80, 0xA8], [0xE2, 0x80, 0xA9], [0xE2, 0x80, 0xAF], [0xE2, 0x81, 0x9F],
   [0xE3, 0x80, 0x80]]

/-- Remove leading members of `ws`, at most `fuel` of them. (for api/api.go:105) -/
def trimLeftLoop (ws : List Bytes) : Nat → Bytes → Bytes
  | 0, s => s
  | fuel + 1, s =>
    match ws.find? (fun w => w.isPrefixOf s) with
    | none => s
    | some w => trimLeftLoop ws fuel (s.drop w.length)

/-- Go `strings.TrimSpace` (standard library). (called at api/api.go:105) -/
def trimSpace (s : Bytes) : Bytes :=
  let l := trimLeftLoop spaces s.length s
  (trimLeftLoop (spaces.map List.reverse) l.length l.reverse).reverse

/-- Go `strings.Split(s, sep)` for a separator of one byte (standard library). (called at api/api.go:114) -/
def splitByte (sep : UInt8) : Bytes → List Bytes
  | [] => [[]]
  | c :: cs =>
    if c = sep then [] :: splitByte sep cs
    else match splitByte sep cs with
      | [] => [[c]]
      | x :: xs => (c :: x) :: xs

/-- api/api.go:104-121 `parseAsRepoList`. `idx` lists the entries of the map in iteration order. -/
def parseAsRepoList {α : Type} (v : Bytes) (idx : List (Bytes × α)) : List Bytes :=
  let v := trimSpace v
  if v = b!"*" then idx.map (·.1)
  else (splitByte 44 v).filter fun repo => (idx.lookup repo).isSome

/-- api/api.go:48-52 `searchResponse`: the repository and what its search returned. -/
abbrev Answer := Bytes × Except SearchErr SearchResponse

/-- What `searchAll` returns: the map of results and the number of files opened (not the duration). (for api/api.go:57-96) -/
structure AllFound where
  results : Bytes → Option SearchResponse
  filesOpened : Nat

/-- api/api.go:79-91, the loop receiving the answers in the order `arrival`. -/
def collect : List Answer → AllFound → Except SearchErr AllFound
  | [], acc => .ok acc
  | (_, .error e) :: _, _ => .error e
  | (repo, .ok res) :: rest, acc =>
    if res.matches_ = [] then collect rest acc
    else collect rest {
      results := fun n => if n = repo then some res else acc.results n
      filesOpened := acc.filesOpened + res.filesOpened }

/-- api/api.go:57-96 `searchAll`, one execution: each repository of the list is searched in its own
goroutine, which sends one answer, and the answers are received in any order. `search repo` is what
`idx[repo].Search(query, opts)` returns; a repository listed twice is searched twice, and the two
searches may differ (an update may happen in between), so `sent` lists the answers. -/
def SearchAllRun (search : Bytes → Except SearchErr SearchResponse → Prop) (repos : List Bytes)
    (out : Except SearchErr AllFound) : Prop :=
  ∃ sent arrival : List Answer, sent.map (·.1) = repos ∧ (∀ a ∈ sent, search a.1 a.2) ∧
    arrival.Perm sent ∧ out = collect arrival ⟨fun _ => none, 0⟩

/-- api/api.go:18-22 -/
def defaultLinesOfContext : Nat := 2
/-- api/api.go:18-22 -/
def maxLinesOfContext : Nat := 20
/-- api/api.go:18-22 -/
def maxLimit : Int := 100000

/-- api/api.go:188-207, the options of a search request. -/
def searchOptions (form : Bytes → Bytes) (defaultMaxResults : Int) : SearchOptions :=
  let rng := parseRangeValue (form b!"rng")
  { offset := rng.1
    limit := rng.2
    fileRegexp := form b!"files"
    excludeFileRegexp := form b!"excludeFiles"
    ignoreCase := parseAsBool (form b!"i")
    literalSearch := parseAsBool (form b!"literal")
    maxResults := parseAsIntValue (form b!"limit") (-1) maxLimit defaultMaxResults
    linesOfContext := parseAsUintValue (form b!"ctx") 0 maxLinesOfContext defaultLinesOfContext }

/-- The part of a searcher the update handlers use: whether push updates are enabled
(config/config.go:56-58 `PushUpdatesEnabled`) and whether the update channel (capacity 1) holds a
request. -/
structure Srch where
  push : Bool
  pending : Bool
deriving DecidableEq, Repr

/-- searcher/searcher.go:149-162 `Update`. -/
def Srch.update (s : Srch) : Bool × Srch :=
  if s.push = false then (false, s) else (true, { s with pending := true })

/-- Replace the searcher of a repository. (for api/api.go:243-319) -/
def setSrch (repo : Bytes) (s : Srch) (idx : List (Bytes × Srch)) : List (Bytes × Srch) :=
  idx.map fun e => if e.1 = repo then (e.1, s) else e

/-- The answers of the update handlers. (for api/api.go:243-319) -/
inductive Reply where
  | ok
  | methodNotAllowed
  | badRequest
  | notFound (repo : Bytes)
  | forbidden (repo : Bytes)
deriving DecidableEq, Repr

/-- api/api.go:253-269, the loop over the repositories. -/
def updateLoop : List Bytes → List (Bytes × Srch) → Reply × List (Bytes × Srch)
  | [], idx => (.ok, idx)
  | repo :: rest, idx =>
    match idx.lookup repo with
    | none => (.notFound repo, idx)
    | some s =>
      match s.update with
      | (false, _) => (.forbidden repo, idx)
      | (true, s') => updateLoop rest (setSrch repo s' idx)

/-- api/api.go:243-272, the handler of `/api/v1/update`: the reply and the searchers afterwards. -/
def handleUpdate (method : Bytes) (form : Bytes → Bytes) (idx : List (Bytes × Srch)) :
    Reply × List (Bytes × Srch) :=
  if method ≠ b!"POST" then (.methodNotAllowed, idx)
  else updateLoop (parseAsRepoList (form b!"repos") idx) idx

/-- api/api.go:274-319, the handler of `/api/v1/github-webhook`. `fullName` is the `full_name` of the
decoded body, `none` if the body does not decode. -/
def handleWebhook (method : Bytes) (fullName : Option Bytes) (idx : List (Bytes × Srch)) :
    Reply × List (Bytes × Srch) :=
  if method ≠ b!"POST" then (.methodNotAllowed, idx)
  else match fullName with
    | none => (.badRequest, idx)
    | some repo =>
      match idx.lookup repo with
      | none => (.notFound repo, idx)
      | some s =>
        match s.update with
        | (false, _) => (.forbidden repo, idx)
        | (true, s') => (.ok, setSrch repo s' idx)

end Hound.Api
