import Verif.Model.Config
import Verif.Model.Client
import Verif.Model.TextFile
import Verif.Model.UiUrl

/-!
# JSON on the wire: Go's `encoding/json` and the `JSON.parse` of a browser (standard libraries)

api/api.go:29-36 writes answers with `json.NewEncoder(w).Encode`; client/client.go:117, 128 read them with
`json.NewDecoder(res.Body).Decode`, the web page with `JSON.parse` (the bundled `reqwest`, `type: "json"`).

A reader sees a list of units, bytes for Go and UTF-16 units for the browser; both are numbers here, so that one
parser serves for both. Simplification: of numbers, only integers are read (the server writes no others), exactly.
-/

namespace Hound.JsonText

open Hound.Config (Json)

/-! ## Writing -/

/-- A lower case hexadecimal digit. (`json.Encoder`, called at api/api.go:29-36) -/
def hexLow (n : Nat) : UInt8 := UInt8.ofNat (if n < 10 then 48 + n else 87 + n)

/-- `appendString` of `encoding/json` with HTML escaping, a byte below 0x80. (Before Go 1.22 the bytes 8 and 12 were
written as `\u0008` and `\u000c`; readers make the same of both.) (`json.Encoder`, called at api/api.go:29-36) -/
def quoteByte (b : UInt8) : Bytes :=
  if b = 34 ∨ b = 92 then [92, b]
  else if b = 8 then [92, 98]
  else if b = 12 then [92, 102]
  else if b = 10 then [92, 110]
  else if b = 13 then [92, 114]
  else if b = 9 then [92, 116]
  else if b < 32 ∨ b = 38 ∨ b = 60 ∨ b = 62 then
    [92, 117, 48, 48, hexLow (b.toNat / 16), hexLow (b.toNat % 16)]
  else [b]

/-- `appendString` of `encoding/json`, the loop. Every round takes a byte, so `fuel` need not exceed the length.
(`json.Encoder`, called at api/api.go:29-36) -/
def quoteLoop : Nat → Bytes → Bytes
  | 0, _ => []
  | _ + 1, [] => []
  | fuel + 1, b :: t =>
    if b < 128 then quoteByte b ++ quoteLoop fuel t
    else
      let d := decodeRune (b :: t)
      if d.2 = 1 then [92, 117, 102, 102, 102, 100] ++ quoteLoop fuel t
      else if d.1 = 0x2028 ∨ d.1 = 0x2029 then
        [92, 117, 50, 48, 50, hexLow (d.1 % 16)] ++ quoteLoop fuel ((b :: t).drop d.2)
      else (b :: t).take d.2 ++ quoteLoop fuel ((b :: t).drop d.2)

/-- The text of a string between its quotation marks. (`json.Encoder`, called at api/api.go:29-36) -/
def quote (s : Bytes) : Bytes := quoteLoop s.length s

mutual
/-- `json.Marshal`, from the value that is written. (`json.Encoder`, called at api/api.go:29-36) -/
def text : Json → Bytes
  | .null => b!"null"
  | .bool b => if b then b!"true" else b!"false"
  | .num n => Client.fmtD n
  | .str s => 34 :: (quote s ++ [34])
  | .arr xs => 91 :: (elemsText xs ++ [93])
  | .obj ms => 123 :: (membersText ms ++ [125])
/-- The elements of an array. (`json.Encoder`, called at api/api.go:29-36) -/
def elemsText : List Json → Bytes
  | [] => []
  | x :: xs => text x ++ (if xs.isEmpty then [] else 44 :: elemsText xs)
/-- The members of an object. (`json.Encoder`, called at api/api.go:29-36) -/
def membersText : List (Bytes × Json) → Bytes
  | [] => []
  | m :: ms => memberText m ++ (if ms.isEmpty then [] else 44 :: membersText ms)
/-- A member of an object. (`json.Encoder`, called at api/api.go:29-36) -/
def memberText : Bytes × Json → Bytes
  | (k, v) => 34 :: (quote k ++ 34 :: 58 :: text v)
end

/-- `(*json.Encoder).Encode`: a newline follows the value. (`json.Encoder`, called at api/api.go:29-36) -/
def encode (v : Json) : Bytes := text v ++ [10]

/-! ## Reading -/

/-- A value that was read, with strings of type `σ`.
(`json.Decoder`, called at client/client.go:117, 128, and the page's `reqwest`, ui/assets/js/hound.js:162-165) -/
inductive Value (σ : Type) where
  | null
  | bool (b : Bool)
  | num (n : Int)
  | str (s : σ)
  | arr (xs : List (Value σ))
  | obj (members : List (σ × Value σ))

/-- White space is skipped.
(`json.Decoder`, called at client/client.go:117, 128, and the page's `reqwest`, ui/assets/js/hound.js:162-165) -/
def skip (s : List Nat) : List Nat := s.dropWhile fun c => c = 32 || c = 9 || c = 10 || c = 13

/-- What is between the quotation marks, from behind the first one; and the rest.
(`json.Decoder`, called at client/client.go:117, 128, and the page's `reqwest`, ui/assets/js/hound.js:162-165) -/
def scanStr : List Nat → Option (List Nat × List Nat)
  | [] => none
  | c :: t =>
    if c = 34 then some ([], t)
    else if c < 32 then none
    else if c = 92 then
      match t with
      | [] => none
      | e :: t => (scanStr t).map fun p => (c :: e :: p.1, p.2)
    else (scanStr t).map fun p => (c :: p.1, p.2)

/-- The text `word` is next.
(`json.Decoder`, called at client/client.go:117, 128, and the page's `reqwest`, ui/assets/js/hound.js:162-165) -/
def word (w : List Nat) (s : List Nat) : Option (List Nat) :=
  if s.take w.length = w then some (s.drop w.length) else none

/-- A decimal digit (for client/client.go:117). -/
def isDigit (c : Nat) : Bool := 48 ≤ c && c ≤ 57

/-- An integer without sign: no leading zeros.
(`json.Decoder`, called at client/client.go:117, 128, and the page's `reqwest`, ui/assets/js/hound.js:162-165) -/
def digits (s : List Nat) : Option (Nat × List Nat) :=
  let ds := s.takeWhile isDigit
  if ds = [] ∨ (ds.head? = some 48 ∧ ds.length ≠ 1) then none
  else some (ds.foldl (fun a d => a * 10 + (d - 48)) 0, s.drop ds.length)

mutual
/-- The grammar of JSON (RFC 8259), which both readers follow; `unq` makes a string of what is between the quotation
marks. `fuel` need not exceed the length of the text.
(`json.Decoder`, called at client/client.go:117, 128, and the page's `reqwest`, ui/assets/js/hound.js:162-165) -/
def value {σ : Type} (unq : List Nat → Option σ) : Nat → List Nat → Option (Value σ × List Nat)
  | 0, _ => none
  | fuel + 1, s =>
    match skip s with
    | [] => none
    | c :: t =>
      if c = 34 then
        match scanStr t with
        | some (x, r) => (unq x).map fun y => (.str y, r)
        | none => none
      else if c = 91 then
        match skip t with
        | [] => none
        | d :: r => if d = 93 then some (.arr [], r) else (elems unq fuel (d :: r)).map fun p => (.arr p.1, p.2)
      else if c = 123 then
        match skip t with
        | [] => none
        | d :: r => if d = 125 then some (.obj [], r) else (members unq fuel (d :: r)).map fun p => (.obj p.1, p.2)
      else if c = 110 then (word [117, 108, 108] t).map fun r => (.null, r)
      else if c = 116 then (word [114, 117, 101] t).map fun r => (.bool true, r)
      else if c = 102 then (word [97, 108, 115, 101] t).map fun r => (.bool false, r)
      else if c = 45 then (digits t).map fun p => (.num (-(p.1 : Int)), p.2)
      else (digits (c :: t)).map fun p => (.num p.1, p.2)
/-- The elements of an array, at least one, with the bracket behind them.
(`json.Decoder`, called at client/client.go:117, 128, and the page's `reqwest`, ui/assets/js/hound.js:162-165) -/
def elems {σ : Type} (unq : List Nat → Option σ) : Nat → List Nat → Option (List (Value σ) × List Nat)
  | 0, _ => none
  | fuel + 1, s =>
    match value unq fuel s with
    | none => none
    | some (v, r) =>
      match skip r with
      | [] => none
      | c :: r =>
        if c = 93 then some ([v], r)
        else if c = 44 then (elems unq fuel r).map fun p => (v :: p.1, p.2)
        else none
/-- The members of an object, at least one, with the brace behind them.
(`json.Decoder`, called at client/client.go:117, 128, and the page's `reqwest`, ui/assets/js/hound.js:162-165) -/
def members {σ : Type} (unq : List Nat → Option σ) : Nat → List Nat → Option (List (σ × Value σ) × List Nat)
  | 0, _ => none
  | fuel + 1, s =>
    match skip s with
    | [] => none
    | q :: t =>
      if q = 34 then
        match scanStr t with
        | none => none
        | some (x, r) =>
          match unq x, skip r with
          | some k, c :: r =>
            if c = 58 then
              match value unq fuel r with
              | none => none
              | some (v, r) =>
                match skip r with
                | [] => none
                | c :: r =>
                  if c = 125 then some ([(k, v)], r)
                  else if c = 44 then (members unq fuel r).map fun p => ((k, v) :: p.1, p.2)
                  else none
            else none
          | _, _ => none
      else none
end

/-- The first value of a text, and what follows it.
(`json.Decoder`, called at client/client.go:117, 128, and the page's `reqwest`, ui/assets/js/hound.js:162-165) -/
def readValue {σ : Type} (unq : List Nat → Option σ) (s : List Nat) : Option (Value σ × List Nat) :=
  value unq (s.length + 1) s

/-! ## Strings -/

/-- The value of a hexadecimal digit (for client/client.go:117). -/
def unhexNat (c : Nat) : Option Nat :=
  if 48 ≤ c ∧ c ≤ 57 then some (c - 48)
  else if 97 ≤ c ∧ c ≤ 102 then some (c - 87)
  else if 65 ≤ c ∧ c ≤ 70 then some (c - 55)
  else none

/-- Four hexadecimal digits.
(`json.Decoder`, called at client/client.go:117, 128, and the page's `reqwest`, ui/assets/js/hound.js:162-165) -/
def hex4 : List Nat → Option (Nat × List Nat)
  | a :: b :: c :: d :: t =>
    match unhexNat a, unhexNat b, unhexNat c, unhexNat d with
    | some a, some b, some c, some d => some (a * 4096 + b * 256 + c * 16 + d, t)
    | _, _, _, _ => none
  | _ => none

/-- The character a letter behind a backslash stands for.
(`json.Decoder`, called at client/client.go:117, 128, and the page's `reqwest`, ui/assets/js/hound.js:162-165) -/
def escaped (e : Nat) : Option Nat :=
  if e = 34 ∨ e = 92 ∨ e = 47 then some e
  else if e = 98 then some 8
  else if e = 102 then some 12
  else if e = 110 then some 10
  else if e = 114 then some 13
  else if e = 116 then some 9
  else none

/-- A string as `encoding/json` reads it (`unquote`): a lone surrogate and a byte that is not part of UTF-8 become
U+FFFD. Every round takes a byte. (`json.Encoder`, called at api/api.go:29-36) -/
def goUnquote : Nat → List Nat → Option Bytes
  | _, [] => some []
  | 0, _ :: _ => none
  | fuel + 1, c :: t =>
    if c = 92 then
      match t with
      | [] => none
      | e :: t =>
        if e = 117 then
          match hex4 t with
          | none => none
          | some (r, t) =>
            if 0xD800 ≤ r ∧ r < 0xE000 then
              match t with
              | 92 :: 117 :: t2 =>
                match hex4 t2 with
                | some (r2, t3) =>
                  if r < 0xDC00 ∧ 0xDC00 ≤ r2 ∧ r2 < 0xE000 then
                    (goUnquote fuel t3).map
                      (encodeRune (0x10000 + (r - 0xD800) * 1024 + (r2 - 0xDC00)) ++ ·)
                  else (goUnquote fuel t).map (encodeRune runeError ++ ·)
                | none => none
              | t => (goUnquote fuel t).map (encodeRune runeError ++ ·)
            else (goUnquote fuel t).map (encodeRune r ++ ·)
        else
          match escaped e with
          | none => none
          | some x => (goUnquote fuel t).map (UInt8.ofNat x :: ·)
    else if c < 128 then (goUnquote fuel t).map (UInt8.ofNat c :: ·)
    else
      let d := decodeRune ((c :: t).map UInt8.ofNat)
      (goUnquote fuel ((c :: t).drop d.2)).map (encodeRune d.1 ++ ·)

/-- A string as `JSON.parse` reads it. (`json.Encoder`, called at api/api.go:29-36) -/
def jsUnquote : Nat → List Nat → Option Ui.JsStr
  | _, [] => some []
  | 0, _ :: _ => none
  | fuel + 1, c :: t =>
    if c = 92 then
      match t with
      | [] => none
      | e :: t =>
        if e = 117 then
          match hex4 t with
          | none => none
          | some (r, t) => (jsUnquote fuel t).map (UInt16.ofNat r :: ·)
        else
          match escaped e with
          | none => none
          | some x => (jsUnquote fuel t).map (UInt16.ofNat x :: ·)
    else (jsUnquote fuel t).map (UInt16.ofNat c :: ·)

/-- The body of an answer as a string of the browser (`charset=utf-8`). Every byte that is not part of UTF-8 becomes
U+FFFD. (The Encoding Standard makes one U+FFFD of several such bytes in some cases; the server writes none.)
(`json.Encoder`, called at api/api.go:29-36) -/
def bodyLoop : Nat → Bytes → Ui.JsStr
  | 0, _ => []
  | _ + 1, [] => []
  | fuel + 1, b :: t =>
    let d := decodeRune (b :: t)
    Ui.units d.1 ++ bodyLoop fuel ((b :: t).drop d.2)

/-- The body of an answer as a string of the browser (for ui/assets/js/hound.js:162-165). -/
def bodyText (b : Bytes) : Ui.JsStr := bodyLoop b.length b

/-- client/client.go:117, 128: the value `json.NewDecoder(res.Body).Decode` finds; what follows it is not looked at. -/
def goRead (body : Bytes) : Option (Value Bytes) :=
  (readValue (fun s => goUnquote s.length s) (body.map UInt8.toNat)).map (·.1)

/-- `JSON.parse` of the body: nothing but white space may follow the value. (`json.Encoder`, called at api/api.go:29-36) -/
def jsRead (body : Bytes) : Option (Value Ui.JsStr) :=
  match readValue (fun s => jsUnquote s.length s) ((bodyText body).map UInt16.toNat) with
  | some (v, r) => if skip r = [] then some v else none
  | none => none

end Hound.JsonText
