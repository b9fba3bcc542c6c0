import Verif.Model.Coalesce

/-!
# `client/ack.go`, `ansi/ansi.go` and the naming functions of `client/client.go`

A function returns `none` where the Go code panics with an index out of range.
-/

namespace Hound.Client

/-- The decimal digits of a number, at most `fuel` of them. (for client/ack.go:41-55) -/
def natDigitsAux : Nat → Nat → Bytes
  | 0, _ => []
  | fuel + 1, n =>
    if n < 10 then [UInt8.ofNat (48 + n)]
    else natDigitsAux fuel (n / 10) ++ [UInt8.ofNat (48 + n % 10)]

/-- The decimal digits of a number. (for client/ack.go:41-55) -/
def natDigits (n : Nat) : Bytes := natDigitsAux (n + 1) n

/-- Go `fmt.Sprintf("%d", n)`. (standard library) (for client/ack.go:41-55, client/client.go:102) -/
def fmtD (n : Int) : Bytes := if n < 0 then 45 :: natDigits n.natAbs else natDigits n.natAbs

/-- ansi/ansi.go:17-26 `Style`: a set of flags. -/
structure Style where
  bold : Bool := false
  blink : Bool := false
  underline : Bool := false
  invert : Bool := false
  intense : Bool := false
deriving DecidableEq, Repr

/-- ansi/ansi.go:28-40 `Color`: `none` is `Colorless`, the others are numbered from 0 (black).
Simplification: `Colorless` (8) is not used as a foreground colour anywhere in the code. -/
inductive Color where
  | black | red | green | yellow | blue | magenta | cyan | white
deriving DecidableEq, Repr

/-- ansi/ansi.go:30-40. -/
def Color.num : Color → Nat
  | .black => 0 | .red => 1 | .green => 2 | .yellow => 3
  | .blue => 4 | .magenta => 5 | .cyan => 6 | .white => 7

/-- ansi/ansi.go:66-103, the part of `FgBg` that builds the code in front of the text. -/
def colourCode (fg : Color) (fgStyle : Style) (bg : Option Color) (bgStyle : Style) : Bytes :=
  let buf := [27, 91]                                         -- `start`
  let buf := if fgStyle.bold then buf ++ [49, 59] else buf     -- "1;"
  let buf := if fgStyle.blink then buf ++ [53, 59] else buf    -- "5;"
  let buf := if fgStyle.underline then buf ++ [52, 59] else buf -- "4;"
  let buf := if fgStyle.invert then buf ++ [55, 59] else buf   -- "7;"
  let fgBase := if fgStyle.intense then 90 else 30
  let buf := buf ++ (fmtD (fgBase + fg.num : Nat) ++ [59])
  let buf := match bg with
    | none => buf
    | some bg =>
      let bgBase := if bgStyle.intense then 100 else 40
      buf ++ (fmtD (bgBase + bg.num : Nat) ++ [59])
  buf.dropLast ++ [109]

/-- ansi/ansi.go:10 `reset`. -/
def resetCode : Bytes := [27, 91, 48, 109]

/-- ansi/ansi.go:61-105 `Colorer.FgBg`. -/
def fgBg (enabled : Bool) (s : Bytes) (fg : Color) (fgStyle : Style) (bg : Option Color)
    (bgStyle : Style) : Bytes :=
  if !enabled then s else colourCode fg fgStyle bg bgStyle ++ s ++ resetCode

/-- ansi/ansi.go:57-59 `Colorer.Fg`. -/
def fgOnly (enabled : Bool) (s : Bytes) (fg : Color) (style : Style) : Bytes :=
  fgBg enabled s fg style none {}

/-- Go `s[a:b]`, `none` if out of range. (for client/client.go:37-54) -/
def slice (s : Bytes) (a b : Nat) : Option Bytes :=
  if a ≤ b ∧ b ≤ s.length then some ((s.take b).drop a) else none

/-- client/ack.go:24-38, the loop of `hiliteMatches` from offset `beg`. -/
def hiliteFrom (enabled : Bool) (line : Bytes) : List (Nat × Nat) → Nat → Option Bytes
  | [], beg => slice line beg line.length
  | (i, j) :: idxs, beg =>
    match slice line beg i, slice line i j, hiliteFrom enabled line idxs j with
    | some a, some m, some rest =>
      some (a ++ fgBg enabled m .black { bold := true } (some .yellow) { intense := true } ++ rest)
    | _, _, _ => none

/-- client/ack.go:17-39 `hiliteMatches`. The regular expression is represented by the list of
positions `FindAllStringIndex` returns for the line. -/
def hiliteMatches (enabled : Bool) (find : Bytes → List (Nat × Nat)) (line : Bytes) : Option Bytes :=
  hiliteFrom enabled line (find line) 0

/-- client/ack.go:41-55 `lineNumber`. -/
def lineNumber (enabled : Bool) (n : Int) (hasMatch : Bool) : Bytes :=
  fgOnly enabled (fmtD n) .yellow { bold := true } ++ [if hasMatch then 58 else 45] ++
    List.replicate (6 - (fmtD n).length) 32

/-- client/ack.go:82-95, the rows of a block from index `i`; `none` where the code panics. -/
def blockRows (enabled : Bool) (find : Bytes → List (Nat × Nat)) (start : Int) :
    Nat → List Bytes → List Bool → Option Bytes
  | _, [], _ => some []
  | _, _ :: _, [] => none
  | i, line :: lines, hasMatch :: flags =>
    match (if hasMatch then hiliteMatches enabled find line else some line),
      blockRows enabled find start (i + 1) lines flags with
    | some line, some rest => some (lineNumber enabled (start + i) hasMatch ++ line ++ [10] ++ rest)
    | _, _ => none

/-- client/ack.go:81-102, the blocks of a file. -/
def fileBlocks (enabled : Bool) (find : Bytes → List (Nat × Nat)) (ctx : Int) : List Block → Option Bytes
  | [] => some []
  | b :: bs =>
    match blockRows enabled find b.start 0 b.lines b.matches_, fileBlocks enabled find ctx bs with
    | some rows, some rest => some (rows ++ (if ctx > 0 then [45, 45, 10] else []) ++ rest)
    | _, _ => none

/-- client/ack.go:73-107, the files of a repository. -/
def presentFiles (enabled : Bool) (find : Bytes → List (Nat × Nat)) (ctx : Int) :
    List (Bytes × List LineMatch) → Option Bytes
  | [] => some []
  | (name, ms) :: fs =>
    match (coalesceMatches ms).bind (fileBlocks enabled find ctx), presentFiles enabled find ctx fs with
    | some blocks, some rest =>
      some (fgOnly enabled name .green { bold := true } ++ [10] ++ blocks ++ [10] ++ rest)
    | _, _ => none

/-- client/ack.go:57-111 `Present`: the bytes written. The repositories are given with the names
to show, in the order in which the loop visits the map of results. Writing is assumed to succeed. -/
def present (enabled : Bool) (find : Bytes → List (Nat × Nat)) (ctx : Int) :
    List (Bytes × List (Bytes × List LineMatch)) → Option Bytes
  | [] => some []
  | (repo, fs) :: rs =>
    match presentFiles enabled find ctx fs, present enabled find ctx rs with
    | some files, some rest =>
      some (fgOnly enabled repo .red { bold := true } ++ [10] ++ files ++ rest)
    | _, _ => none

/-- client/client.go:37-54 `repoNameFromUrl`. -/
def repoNameFromUrl (uri : Bytes) : Option Bytes :=
  match lastIndexByte uri 47 with
  | none => some []
  | some ax =>
    let name := uri.drop (ax + 1)
    let name := if [46, 103, 105, 116] <:+ name then name.take (name.length - 4) else name
    if ax = 0 then none
    else match lastIndexByte (uri.take (ax - 1)) 47 with
      | none => some name
      | some bx => some ((uri.take ax).drop (bx + 1) ++ [47] ++ name)

/-- client/client.go:56-74 `repoNameFor`; a repository of the map is given by its display name and
its url. -/
def repoNameFor (repos : Bytes → Option (Bytes × Bytes)) (repo : Bytes) : Option Bytes :=
  match repos repo with
  | none => some repo
  | some (display, url) =>
    if display ≠ [] then some display
    else match repoNameFromUrl url with
      | none => none
      | some name => if name = [] then some repo else some name

end Hound.Client
