import Verif.Model.Coding
import Verif.Model.Utf8

/-!
# The line matcher (codesearch/regexp/match.go): a lazily built automaton over bytes

Sparse sets (`sparse.Set`) are duplicate-free lists in insertion order, which is what `Dense` returns
(C14 proves this for `codesearch/sparse`).  A `*dstate` is `dmatch` or the encoding that is its key in
`matcher.dstate` (`cache` makes exactly one `dstate` per encoding).  The two scratch states `z1`, `z2` are
not modelled: every use resets them first (`dec`, `stepEmpty`, `stepByte`), and the state passed to `cache`
is encoded before anything else happens.  `none` stands for a panic.
-/

namespace Hound

/-- `syntax.EmptyOp` (Go standard library), a bit set: one field per bit. (for codesearch/regexp/match.go:188-207) -/
structure EmptyOp where
  bol : Bool := false
  eol : Bool := false
  bot : Bool := false
  eot : Bool := false
  wb : Bool := false
  nwb : Bool := false
deriving DecidableEq, Repr

/-- `a &^ b == 0`. (for codesearch/regexp/match.go:188-207) -/
def EmptyOp.sub (a b : EmptyOp) : Bool :=
  (!a.bol || b.bol) && (!a.eol || b.eol) && (!a.bot || b.bot) && (!a.eot || b.eot) &&
    (!a.wb || b.wb) && (!a.nwb || b.nwb)

/-- `syntax.Inst` (Go standard library) together with the local opcode `instByteRange`
(codesearch/regexp/utf.go:13-19).  `rune rs fold out` is `InstRune` with `Rune = rs` and the `FoldCase`
bit of `Arg`. -/
inductive Inst
  | fail
  | accept
  | nop (out : Nat)
  | capture (out : Nat)
  | alt (out arg : Nat)
  | altMatch (out arg : Nat)
  | empty (op : EmptyOp) (out : Nat)
  | byteRange (lo hi : UInt8) (fold : Bool) (out : Nat)
  | rune (rs : List Rune) (fold : Bool) (out : Nat)
  | rune1 (r : Rune) (out : Nat)
  | runeAny (out : Nat)
  | runeAnyNotNL (out : Nat)
deriving DecidableEq, Repr

/-- `syntax.Prog` (Go standard library). (for codesearch/regexp/match.go:22) -/
structure Prog where
  inst : List Inst
  start : Nat
deriving DecidableEq, Repr

/-- codesearch/regexp/match.go:188-205 `addq`.  The recursion marks an instruction before following it, so
its depth is at most the number of instructions: `fuel` is that number plus one. -/
def addq (p : Prog) (flag : EmptyOp) : Nat → List Nat → Nat → List Nat
  | 0, q, _ => q
  | fuel + 1, q, id =>
    if id ∈ q then q
    else
      let q := q ++ [id]
      match p.inst[id]? with
      | some (.capture out) => addq p flag fuel q out
      | some (.nop out) => addq p flag fuel q out
      | some (.alt out arg) => addq p flag fuel (addq p flag fuel q out) arg
      | some (.altMatch out arg) => addq p flag fuel (addq p flag fuel q out) arg
      | some (.empty op out) => if op.sub flag then addq p flag fuel q out else q
      | _ => q

/-- Fuel for `addq`. (for codesearch/regexp/match.go:188-207) -/
def Prog.fuel (p : Prog) : Nat := p.inst.length + 1

/-- codesearch/regexp/match.go:148-153 `stepEmpty`: the new contents of `nextq`. -/
def stepEmpty (p : Prog) (runq : List Nat) (flag : EmptyOp) : List Nat :=
  runq.foldl (fun nextq id => addq p flag p.fuel nextq id) []

/-- codesearch/regexp/match.go:173-181: does the byte `c` lie in the (possibly folded) byte range? -/
def inByteRange (lo hi : UInt8) (fold : Bool) (c : UInt8) : Bool :=
  let ch := if fold && 97 ≤ c && c ≤ 122 then c - 32 else c
  lo ≤ ch && ch ≤ hi

/-- codesearch/regexp/match.go:162-182: the body of the loop of `stepByte`.  `c = none` is `endText`. -/
def stepByte1 (p : Prog) (c : Option UInt8) (flag : EmptyOp) (acc : List Nat × Bool) (id : Nat) :
    List Nat × Bool :=
  match p.inst[id]? with
  | some .accept => (acc.1, true)
  | some (.byteRange lo hi fold out) =>
    match c with
    | none => acc
    | some b => if inByteRange lo hi fold b then (addq p flag p.fuel acc.1 out, acc.2) else acc
  | _ => acc

/-- codesearch/regexp/match.go:158-185 `stepByte`: the new contents of `nextq`, and whether a match ends
here. -/
def stepByte (p : Prog) (runq : List Nat) (c : Option UInt8) (flag : EmptyOp) : List Nat × Bool :=
  runq.foldl (stepByte1 p c flag) (addq p flag p.fuel [] p.start, false)

/-- codesearch/regexp/match.go:344-349 `isWordByte`; `none` is `endText` (-1). -/
def isWordByte : Option UInt8 → Bool
  | none => false
  | some c => (65 ≤ c && c ≤ 90) || (97 ≤ c && c ≤ 122) || (48 ≤ c && c ≤ 57) || c == 95

/-- codesearch/regexp/match.go:29-34 `nstate`. -/
structure NState where
  q : List Nat
  part : Nat
  flag : Nat
deriving DecidableEq, Repr

/-- codesearch/regexp/match.go:40 `flagBOL`. -/
def flagBOL : Nat := 1
/-- codesearch/regexp/match.go:42 `flagBOT`. -/
def flagBOT : Nat := 4
/-- codesearch/regexp/match.go:44 `flagWord`. -/
def flagWord : Nat := 16

/-- Insertion into a sorted list. (for codesearch/regexp/match.go:73) -/
def insertNat (x : Nat) : List Nat → List Nat
  | [] => [x]
  | y :: ys => if x ≤ y then x :: y :: ys else y :: insertNat x ys

/-- Go's `sort.Ints` (standard library; any sorting algorithm gives the same list). (called at codesearch/regexp/match.go:73) -/
def sortInts : List Nat → List Nat
  | [] => []
  | x :: xs => insertNat x (sortInts xs)

/-- Go's `binary.PutUvarint` (standard library) for values below 2^64: the bytes written.
(called at codesearch/regexp/match.go:64, 66, 75) -/
def binPutUvarint : Nat → Nat → Bytes
  | 0, _ => []
  | fuel + 1, x =>
    if x < 0x80 then [byteOf x] else byteOf (x ||| 0x80) :: binPutUvarint fuel (x >>> 7)

/-- `binary.PutUvarint(v[:], x)` with a 10-byte buffer. (codesearch/regexp/match.go:64, 66, 75) -/
def putVar (x : Nat) : Bytes := binPutUvarint 10 x

/-- codesearch/regexp/match.go:73-78: the loop over the sorted ids; `last` is a `uint32`. -/
def encIds : Nat → List Nat → Bytes
  | _, [] => []
  | last, id :: ids => putVar ((id % 2 ^ 32 + 2 ^ 32 - last) % 2 ^ 32) ++ encIds (id % 2 ^ 32) ids

/-- codesearch/regexp/match.go:60-80 `nstate.enc`. -/
def NState.enc (z : NState) : Bytes :=
  putVar z.part ++ putVar z.flag ++ encIds (2 ^ 32 - 1) (sortInts z.q)

/-- codesearch/regexp/match.go:99-107: the loop of `dec`.  Every round consumes a byte: `fuel` is the number
of bytes. -/
def decIds : Nat → Nat → Bytes → Option (List Nat)
  | _, _, [] => some []
  | 0, _, _ :: _ => none
  | fuel + 1, last, b =>
    match uvarint b with
    | none => none
    | some (i, n) =>
      let last := (last + i % 2 ^ 32) % 2 ^ 32
      match decIds fuel last (b.drop n) with
      | none => none
      | some q => some (last :: q)

/-- codesearch/regexp/match.go:83-108 `nstate.dec`; `none` is `bug()`. -/
def NState.dec (s : Bytes) : Option NState :=
  match uvarint s with
  | none => none
  | some (i, n) =>
    match uvarint (s.drop n) with
    | none => none
    | some (f, k) =>
      let b := (s.drop n).drop k
      match decIds b.length (2 ^ 32 - 1) b with
      | none => none
      | some q => some { q := q, part := i, flag := f % 2 ^ 32 }

/-- codesearch/regexp/match.go:215-240: the flags in effect before `c`. -/
def flagsBefore (flag : Nat) (c : Option UInt8) : EmptyOp :=
  { bol := flag &&& flagBOL != 0
    bot := flag &&& flagBOT != 0
    wb := (flag &&& flagWord != 0) != isWordByte c
    nwb := (flag &&& flagWord != 0) == isWordByte c
    eol := c == some NL || c == none
    eot := c == none }

/-- codesearch/regexp/match.go:249-257: the flags in effect after `c`, and those stored in the state. -/
def flagsAfter (c : Option UInt8) : EmptyOp × Nat :=
  ({ bol := c == some NL },
    (if c == some NL then flagBOL else 0) ||| (if isWordByte c then flagWord else 0))

/-- What a `*dstate` points to. (codesearch/regexp/match.go:47-53) -/
inductive DRef
  | dmatch
  | st (key : Bytes)
deriving DecidableEq, Repr

/-- codesearch/regexp/match.go:210-263 `computeNext` up to the call of `cache`: `st key` means that
`cache` is called with a state encoded as `key`. -/
def nextOf (p : Prog) (key : Bytes) (c : Option UInt8) : Option DRef :=
  match NState.dec key with
  | none => none
  | some this =>
    let q := stepEmpty p this.q (flagsBefore this.flag c)
    match stepByte p q c (flagsAfter c).1 with
    | (_, true) => some .dmatch
    | (nextq, false) => some (.st (NState.enc { q := nextq, part := 0, flag := (flagsAfter c).2 }))

/-- codesearch/regexp/match.go:48-53 `dstate` (without the key). -/
structure DState where
  next : UInt8 → Option DRef
  matchNL : Bool
  matchEOT : Bool

/-- `matcher.dstate` (match.go:23). -/
abbrev DCache := Bytes → Option DState

/-- Storing an entry. (for codesearch/regexp/match.go:23) -/
def DCache.set (m : DCache) (k : Bytes) (d : DState) : DCache := fun k' => if k' = k then some d else m k'

/-- Changing the entry of `k`. (for codesearch/regexp/match.go:23) -/
def DCache.upd (m : DCache) (k : Bytes) (f : DState → DState) : DCache :=
  fun k' => if k' = k then (m k').map f else m k'

/-- codesearch/regexp/match.go:260-263: the end of `computeNext`, with `cache` as a parameter. -/
def withCache (cache : DCache → Bytes → Option DCache) (m : DCache) : Option DRef → Option (DCache × DRef)
  | none => none
  | some .dmatch => some (m, .dmatch)
  | some (.st k) => (cache m k).map (fun m => (m, .st k))

/-- codesearch/regexp/match.go:266-278 `cache`, given the encoding.  The entry is stored before the
recursive calls, so there are at most as many nested calls as there are encodings (`none`: out of fuel or
panic). -/
def cacheKey (p : Prog) : Nat → DCache → Bytes → Option DCache
  | 0, m, key => match m key with
    | some _ => some m
    | none => none
  | fuel + 1, m, key => match m key with
    | some _ => some m
    | none =>
      let m := m.set key ⟨fun _ => none, false, false⟩
      match withCache (cacheKey p fuel) m (nextOf p key (some NL)) with
      | none => none
      | some (m, r) =>
        let m := m.upd key (fun d => { d with matchNL := r == .dmatch })
        match withCache (cacheKey p fuel) m (nextOf p key none) with
        | none => none
        | some (m, r) => some (m.upd key (fun d => { d with matchEOT := r == .dmatch }))

/-- Fuel for `cacheKey`: more than the number of encodings of states of a program. (for codesearch/regexp/match.go:20-108) -/
def Prog.states (p : Prog) : Nat := 4 * 2 ^ p.inst.length + 1

/-- codesearch/regexp/match.go:21-27 `matcher` (the program is a parameter of the operations). -/
structure Matcher where
  dstate : DCache
  start : Bytes
  startLine : Bytes

/-- codesearch/regexp/match.go:135-136: the start state. -/
def startState (p : Prog) : NState :=
  { q := addq p { bol := true, bot := true } p.fuel [] p.start, part := 0, flag := flagBOL ||| flagBOT }

/-- codesearch/regexp/match.go:140-141: the start state at the beginning of a line. -/
def startLineState (p : Prog) : NState :=
  { q := addq p { bol := true } p.fuel [] p.start, part := 0, flag := flagBOL }

/-- codesearch/regexp/match.go:128-145 `matcher.init`. -/
def Matcher.init (p : Prog) : Option Matcher :=
  match cacheKey p p.states (fun _ => none) (startState p).enc with
  | none => none
  | some m =>
    match cacheKey p p.states m (startLineState p).enc with
    | none => none
    | some m => some { dstate := m, start := (startState p).enc, startLine := (startLineState p).enc }

/-- The `dstate` a pointer stands for; `dmatch` is codesearch/regexp/match.go:112-125. -/
def Matcher.get (M : Matcher) : DRef → Option DState
  | .dmatch => some ⟨fun c => if c = NL then none else some .dmatch, true, true⟩
  | .st k => M.dstate k

/-- `d.next[c] = d1`.  `dmatch` is a global shared by all matchers; writing to it would be a data race
and counts as a panic. (for codesearch/regexp/match.go:20-108) -/
def Matcher.setNext (M : Matcher) (d : DRef) (c : UInt8) (d1 : DRef) : Option Matcher :=
  match d with
  | .dmatch => none
  | .st k => some { M with dstate := M.dstate.upd k (fun e =>
      { e with next := fun c' => if c' = c then some d1 else e.next c' }) }

/-- codesearch/regexp/match.go:289-308 and 317-335: the loop of `match` and `matchString`, and the final test.
`i` is the index of the first byte of the rest of the text. -/
def Matcher.loop (p : Prog) (endText : Bool) : Matcher → DRef → Nat → Bytes → Option (Matcher × Option Nat)
  | M, d, i, [] =>
    match M.get d with
    | none => none
    | some e => some (M, if e.matchNL || (endText && e.matchEOT) then some i else none)
  | M, d, i, c :: cs =>
    match M.get d with
    | none => none
    | some e =>
      match e.next c with
      | some d1 => Matcher.loop p endText M d1 (i + 1) cs
      | none =>
        if c = NL then
          if e.matchNL then some (M, some i)
          else match M.setNext d c (.st M.startLine) with
            | none => none
            | some M => Matcher.loop p endText M (.st M.startLine) (i + 1) cs
        else
          match d with
          | .dmatch => none
          | .st k =>
            match withCache (cacheKey p p.states) M.dstate (nextOf p k (some c)) with
            | none => none
            | some (m, d1) =>
              match Matcher.setNext { M with dstate := m } d c d1 with
              | none => none
              | some M => Matcher.loop p endText M d1 (i + 1) cs

/-- codesearch/regexp/match.go:280-310 `match` (and 312-337 `matchString`, the same code on a string):
the new matcher and the result, `none` for -1. -/
def Matcher.run (p : Prog) (M : Matcher) (b : Bytes) (beginText endText : Bool) :
    Option (Matcher × Option Nat) :=
  Matcher.loop p endText M (if beginText then .st M.start else .st M.startLine) 0 b

/-- A sequence of calls of `match` on the same matcher (the results are dropped). (for codesearch/regexp/match.go:20-108) -/
def Matcher.calls (p : Prog) : Matcher → List (Bytes × Bool × Bool) → Option Matcher
  | M, [] => some M
  | M, (b, bt, et) :: cs =>
    match M.run p b bt et with
    | none => none
    | some (M, _) => Matcher.calls p M cs

end Hound
