import Verif.Model.Basic

/-!
# `index/grep.go`: the line searcher with context

The compiled pattern is a parameter `mt : Bytes → Option Nat`, standing for
`re.Match(buf, true, true)` (`none` is `-1`); the pattern matcher itself is modelled in
`Verif.Model.Matcher`.
-/

namespace Hound

/-- index/grep.go:18-29 `countLines`. The Go loop repeatedly finds the next newline and
cuts after it; the recursion on the number of bytes left is structural in `fuel`. -/
def countLinesAux : Nat → Bytes → Nat → Nat
  | 0, _, n => n
  | fuel + 1, b, n =>
    match indexByte b NL with
    | none => n
    | some i => countLinesAux fuel (b.drop (i + 1)) (n + 1)

/-- index/grep.go:18-29 `countLines` (fuel: every round removes at least one byte). -/
def countLines (b : Bytes) : Nat := countLinesAux b.length b 0

/-- index/grep.go:92-107, the loop of `lastNLines`. `acc` is the already filled tail
`r[n-i:]` of the result slice. -/
def lastNLinesLoop : Nat → Bytes → List Bytes → List Bytes
  | 0, _, acc => acc
  | k + 1, buf, acc =>
    match lastIndexByte buf NL with
    | none => if buf.length = 0 then acc else buf :: acc
    | some m => lastNLinesLoop k (buf.take m) (buf.drop (m + 1) :: acc)

/-- index/grep.go:87-107 `lastNLines`. Go's `nil` and empty results are both `[]`
(`toStrings` maps both to an empty list). -/
def lastNLines (buf : Bytes) (n : Nat) : List Bytes :=
  if buf.length = 0 ∨ n = 0 then [] else lastNLinesLoop n buf []

/-- index/grep.go:114-127, the loop of `firstNLines`; the result slice is produced from
the front. -/
def firstNLinesLoop : Nat → Bytes → List Bytes
  | 0, _ => []
  | k + 1, buf =>
    match indexByte buf NL with
    | none => if buf.length = 0 then [] else [buf]
    | some m => buf.take m :: firstNLinesLoop k (buf.drop (m + 1))

/-- index/grep.go:109-128 `firstNLines`. -/
def firstNLines (buf : Bytes) (n : Nat) : List Bytes :=
  if buf.length = 0 ∨ n = 0 then [] else firstNLinesLoop n buf

/-- index/grep.go:157 `bytes.LastIndex(b, nl) + 1` (0 when there is no newline). -/
def afterLastNL (b : Bytes) : Nat :=
  match lastIndexByte b NL with
  | none => 0
  | some i => i + 1

/-- The arguments of the callback `fn` of index/grep.go:138; also `index.Match`
(index/index.go:53-58). -/
structure LineMatch where
  line : Bytes
  lineno : Nat
  before : List Bytes
  after : List Bytes
deriving DecidableEq, Repr

/-- index/grep.go:146-187, the loop of `grep2`. The callback is a state transformer
`fn : σ → LineMatch → σ × Bool`; its boolean is `more`. (The callback's error return is
not modelled: the only caller, index/index.go:210-230, never returns an error.)
`fuel` bounds the number of rounds; every round removes at least one byte. -/
def grep2Loop {σ : Type} (mt : Bytes → Option Nat) (nctx : Nat) (fn : σ → LineMatch → σ × Bool) :
    Nat → Bytes → Nat → σ → σ
  | 0, _, _, st => st
  | fuel + 1, buf, lineno, st =>
    if buf.length = 0 then st else
    match mt buf with
    | none => st
    | some m =>
      -- str := bytes.LastIndex(buf[:m], nl) + 1
      let str := afterLastNL (buf.take m)
      -- endl := str - 1; if endl < 0 { endl = 0 }   (natural subtraction)
      let endl := str - 1
      -- end := m + 1; if end > len(buf) { end = len(buf) }
      let fin := if m + 1 > buf.length then buf.length else m + 1
      let lineno := lineno + countLines (buf.take str)
      let (st, more) := fn st {
        line := trimRightNL ((buf.take fin).drop str)
        lineno := lineno + 1
        before := lastNLines (buf.take endl) nctx
        after := firstNLines (buf.drop fin) nctx }
      if more then grep2Loop mt nctx fn fuel (buf.drop fin) (lineno + 1) st else st

/-- index/grep.go:134-188 `grep2`, after `fillFrom` has read the whole text `buf`
(`fillFrom` itself is modelled in `Verif.Model.BufIO`). -/
def grep2 {σ : Type} (mt : Bytes → Option Nat) (nctx : Nat) (fn : σ → LineMatch → σ × Bool)
    (buf : Bytes) (st : σ) : σ :=
  grep2Loop mt nctx fn buf.length buf 0 st

end Hound
