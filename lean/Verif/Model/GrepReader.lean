import Verif.Model.Grep
import Verif.Model.FillFrom
import Verif.Model.Client

/-!
# Searching a stream in pieces: `Grep.Reader` (codesearch/regexp/match.go:374-473) and `grepper.grep`
(index/grep.go:190-252)

The two functions have the same loops; `grep` calls a function for every line, `Reader` prints it. Neither is used by
the server, which reads whole files (`grep2`, Model/Grep). The pattern is `mt buf beginText endText`, standing for
`re.Match(buf, beginText, endText)` (`none` is `-1`).
-/

namespace Hound.Stream

variable {σ : Type} (mt : Bytes → Bool → Bool → Option Nat) (fn : σ → Nat → Bytes → σ × Bool)

/-- What one round leaves: `rest` is `buf[chunkStart:end]`. (for codesearch/regexp/match.go:399-470) -/
structure Round (σ : Type) where
  rest : Bytes
  lineno : Nat
  begin : Bool
  st : σ
  more : Bool

/-- match.go:424-457 and index/grep.go:213-236: the inner loop, on `rest = buf[chunkStart:end]`. `fn st lineno line` is
what is done with a line; its boolean says whether to go on. Every round removes at least one byte; `fuel` is the
number of bytes. -/
def inner (endText : Bool) : Nat → Bytes → Nat → Bool → σ → Round σ
  | 0, rest, lineno, bt, st => ⟨rest, lineno, bt, st, true⟩
  | fuel + 1, rest, lineno, bt, st =>
    if rest.length = 0 then ⟨rest, lineno, bt, st, true⟩ else
    match mt rest bt endText with
    | none => ⟨rest, lineno, false, st, true⟩
    | some m =>
      let str := afterLastNL (rest.take m)
      let fin := if m + 1 > rest.length then rest.length else m + 1
      let lineno := lineno + countLines (rest.take str)
      let (st, more) := fn st lineno ((rest.take fin).drop str)
      if more then inner endText fuel (rest.drop fin) (lineno + 1) false st else ⟨rest, lineno, false, st, false⟩

/-- How the search ended: `fn` said stop, at the end of the stream, with a read error. (for codesearch/regexp/match.go:399-470) -/
inductive Ended where
  | stopped
  | eof
  | failed
deriving DecidableEq

/-- match.go:415-469 and index/grep.go:204-249: the outer loop. `cap` is the size of the buffer, `buf` what is left in
it, `chunks` and `fails` the reader (Model/FillFrom). `none`: not ended after `fuel` rounds. -/
def outer (cap : Nat) (fails : Bool) : Nat → List Bytes → Bytes → Nat → Bool → σ → Option (σ × Ended)
  | 0, _, _, _, _, _ => none
  | fuel + 1, chunks, buf, lineno, bt, st =>
    let (d, chunks, e) := readFull fails chunks (cap - buf.length)
    let buf := buf ++ d
    let fin := if e = .full then afterLastNL buf else buf.length
    let r := inner mt fn (e ≠ .full) fin (buf.take fin) lineno bt st
    if r.more then
      let lineno := if e = .full then r.lineno + countLines r.rest else r.lineno
      let buf := buf.drop fin
      if buf.length = 0 ∧ e ≠ .full then some (r.st, if e = .err then .failed else .eof)
      else outer cap fails fuel chunks buf lineno r.begin r.st
    else some (r.st, .stopped)

/-- index/grep.go:192-252 `grep`, with a buffer of `cap` bytes (1 MiB if the grepper is new). -/
def grep (cap fuel : Nat) (r : Reader) (st : σ) : Option (σ × Ended) := outer mt fn cap r.fails fuel r.chunks [] 1 true st

/-- match.go:352-365 `Grep`: the flags. -/
structure Flags where
  l : Bool := false
  c : Bool := false
  n : Bool := false
  h : Bool := false

/-- What `Reader` has printed and counted; `found` is `g.Match`. (for codesearch/regexp/match.go:399-470) -/
structure Printed where
  out : Bytes := []
  err : Bytes := []
  count : Nat := 0
  found : Bool := false
deriving DecidableEq

/-- match.go:431-452: what `Reader` does with a line. The number is counted only if it is needed (432, 441, 452); here
it always is, which cannot be seen. -/
def print (g : Flags) (name : Bytes) (p : Printed) (lineno : Nat) (line : Bytes) : Printed × Bool :=
  let p := { p with found := true }
  if g.l then ({ p with out := p.out ++ name ++ [NL] }, false)
  else
    let pre := if g.h then [] else name ++ [58]
    if g.c then ({ p with count := p.count + 1 }, true)
    else if g.n then ({ p with out := p.out ++ pre ++ Client.natDigits lineno ++ [58] ++ line }, true)
    else ({ p with out := p.out ++ pre ++ line }, true)

/-- match.go:399-473 `Reader`; `why` is the text of the read error. -/
def reader (cap fuel : Nat) (g : Flags) (name why : Bytes) (r : Reader) : Option Printed :=
  (outer mt (print g name) cap r.fails fuel r.chunks [] 1 true {}).map fun (p, e) =>
    if e = .stopped then p else
    let p := if e = .failed then { p with err := p.err ++ name ++ b!": " ++ why ++ [NL] } else p
    if g.c ∧ p.count > 0 then { p with out := p.out ++ name ++ b!": " ++ Client.natDigits p.count ++ [NL] } else p

end Hound.Stream
