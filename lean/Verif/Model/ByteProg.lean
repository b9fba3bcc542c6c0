import Verif.Model.Matcher

/-!
# Compiling rune instructions to byte instructions (codesearch/regexp/utf.go, copy.go)

`unicode.SimpleFold` is given by `orbit`: `orbit r` lists the other runes of `r`'s folding orbit in the order in
which iterating `SimpleFold` visits them.  A `[]rune` of range pairs is a list of runes, as in Go.
`none` stands for a panic.
-/

namespace Hound

/-- `unicode.SimpleFold` (Go standard library).
(called at codesearch/regexp/utf.go:103, 114, 121 and codesearch/regexp/copy.go:109, 112) -/
def simpleFold (orbit : Rune → List Rune) (r : Rune) : Rune :=
  match orbit r with
  | [] => r
  | f :: _ => f

/-- codesearch/regexp/utf.go:110-122 `asciiFold`. -/
def asciiFold (orbit : Rune → List Rune) (r : Rune) : Bool :=
  if r ≥ 0x80 then false
  else
    let r1 := simpleFold orbit r
    if r1 ≥ 0x80 then false
    else if r1 = r then true
    else simpleFold orbit r1 = r

/-- codesearch/regexp/utf.go:85-92: the case of one rune (or two equal ones) in `oneByteRange`. -/
def oneByte1 (orbit : Rune → List Rune) (r : Rune) (fold : Bool) : Option (UInt8 × UInt8 × Bool) :=
  if r ≥ 0x80 then none
  else if fold && !asciiFold orbit r then none
  else some (byteOf r, byteOf r, fold)

/-- codesearch/regexp/utf.go:72-108 `oneByteRange` (`none`: `ok == false`). -/
def oneByteRange (orbit : Rune → List Rune) : Inst → Option (UInt8 × UInt8 × Bool)
  | .rune1 r _ => if r < 0x80 then some (byteOf r, byteOf r, false) else none
  | .rune [r] fold _ => oneByte1 orbit r fold
  | .rune [a, b] fold _ =>
    if a = b then oneByte1 orbit a fold
    else if b < 0x80 then
      if fold && (List.range' a (b + 1 - a)).any (asciiFold orbit) then none
      else some (byteOf a, byteOf b, fold)
    else none
  | .rune [a, b, c, d] _ _ =>
    if a = b ∧ c = d ∧ simpleFold orbit a = c ∧ simpleFold orbit c = a then some (byteOf a, byteOf a, true)
    else none
  | _ => none

/-- codesearch/regexp/utf.go:124-132 `maxRune`. -/
def maxRune (n : Nat) : Rune :=
  let b := if n = 1 then 7 else 8 - (n + 1) + 6 * (n - 1)
  1 <<< b - 1

/-- codesearch/regexp/copy.go:52-74 `appendRange`, on pairs: the last range, then the one before it. -/
def appendRange (r : List (Rune × Rune)) (lo hi : Rune) : List (Rune × Rune) :=
  let n := r.length
  let try1 (i : Nat) : Option (List (Rune × Rune)) :=
    if i ≤ n then
      match r[n - i]? with
      | some (rlo, rhi) =>
        if lo ≤ rhi + 1 ∧ rlo ≤ hi + 1 then
          some (r.set (n - i) (if lo < rlo then lo else rlo, if hi > rhi then hi else rhi))
        else none
      | none => none
    else none
  match try1 1 with
  | some r => r
  | none => match try1 2 with
    | some r => r
    | none => r ++ [(lo, hi)]

/-- codesearch/regexp/copy.go:79 `minFold`. -/
def minFold : Rune := 0x0041
/-- codesearch/regexp/copy.go:80 `maxFold`. -/
def maxFold : Rune := 0x1044f

/-- codesearch/regexp/copy.go:107-116: the brute force loop. -/
def foldLoop (orbit : Rune → List Rune) (r : List (Rune × Rune)) (cs : List Rune) : List (Rune × Rune) :=
  cs.foldl (fun r c => (c :: orbit c).foldl (fun r f => appendRange r f f) r) r

/-- codesearch/regexp/copy.go:85-116 `appendFoldedRange`. -/
def appendFoldedRange (orbit : Rune → List Rune) (r : List (Rune × Rune)) (lo hi : Rune) : List (Rune × Rune) :=
  if lo ≤ minFold ∧ hi ≥ maxFold then appendRange r lo hi
  else if hi < minFold ∨ lo > maxFold then appendRange r lo hi
  else
    let (r, lo) := if lo < minFold then (appendRange r lo (minFold - 1), minFold) else (r, lo)
    let (r, hi) := if hi > maxFold then (appendRange r (maxFold + 1) hi, maxFold) else (r, hi)
    foldLoop orbit r (List.range' lo (hi + 1 - lo))

/-- codesearch/regexp/utf.go:134-145 `runeBuilder` with the instructions of its program. -/
structure RB where
  inst : List Inst
  begin : Nat
  out : Nat
  cache : List ((UInt8 × UInt8 × Bool × Nat) × Nat)

/-- codesearch/regexp/utf.go:147-161 `runeBuilder.init`. -/
def RB.init (inst : List Inst) (begin out : Nat) : RB :=
  { inst := inst.set begin .fail, begin := begin, out := out, cache := [] }

/-- codesearch/regexp/utf.go:163-174 `uncachedSuffix`. -/
def RB.uncachedSuffix (b : RB) (lo hi : UInt8) (fold : Bool) (next : Nat) : RB × Nat :=
  ({ b with inst := b.inst ++ [.byteRange lo hi fold (if next = 0 then b.out else next)] }, b.inst.length)

/-- codesearch/regexp/utf.go:176-190 `suffix`. -/
def RB.suffix (b : RB) (lo hi : UInt8) (fold : Bool) (next : Nat) : RB × Nat :=
  if lo < 0x80 ∨ hi > 0xbf then b.uncachedSuffix lo hi fold next
  else match b.cache.lookup (lo, hi, fold, next) with
    | some pc => (b, pc)
    | none =>
      let (b', pc) := b.uncachedSuffix lo hi fold next
      ({ b' with cache := ((lo, hi, fold, next), pc) :: b'.cache }, pc)

/-- codesearch/regexp/utf.go:192-211 `addBranch`. -/
def RB.addBranch (b : RB) (pc : Nat) : RB :=
  match b.inst[b.begin]? with
  | some .fail => { b with inst := b.inst.set b.begin (.nop pc) }
  | some (.nop out) => { b with inst := b.inst.set b.begin (.alt out pc) }
  | some (.alt out arg) =>
    let apc := b.inst.length
    { b with inst := (b.inst ++ [Inst.alt arg pc]).set b.begin (.alt out apc), begin := apc }
  | _ => b

/-- codesearch/regexp/utf.go:223-230: where the range is split into encodings of different lengths. -/
def lengthSplit (lo hi : Rune) : Option Rune :=
  ([1, 2, 3].find? fun i => lo ≤ maxRune i && maxRune i < hi).map maxRune

/-- `a &^ m`. (for codesearch/regexp/utf.go:241-249) -/
def andNot (a m : Nat) : Nat := a - (a &&& m)

/-- codesearch/regexp/utf.go:239-252: where the range is split into sections that agree on leading bytes:
the end of the first and the beginning of the second part. -/
def maskSplit (lo hi : Rune) : List Nat → Option (Rune × Rune)
  | [] => none
  | i :: is =>
    let m := 1 <<< (6 * i) - 1
    if andNot lo m ≠ andNot hi m then
      if lo &&& m ≠ 0 then some (lo ||| m, (lo ||| m) + 1)
      else if hi &&& m ≠ m then some (andNot hi m - 1, andNot hi m)
      else maskSplit lo hi is
    else maskSplit lo hi is

/-- codesearch/regexp/utf.go:263-266: the chain of byte ranges, built from its end. -/
def RB.addBytes (b : RB) : List (UInt8 × UInt8) → RB × Nat
  | [] => (b, 0)
  | (lo, hi) :: rs =>
    let (b, pc) := b.addBytes rs
    b.suffix lo hi false pc

/-- codesearch/regexp/utf.go:213-268 `addRange`.  Every recursive call has a smaller range, `fuel` is the number of
runes of the range. -/
def RB.addRange : Nat → RB → Rune → Rune → Bool → Option RB
  | 0, b, lo, hi, _ => if lo > hi then some b else none
  | fuel + 1, b, lo, hi, fold =>
    if lo > hi then some b
    else match lengthSplit lo hi with
    | some max =>
      match RB.addRange fuel b lo max fold with
      | none => none
      | some b => RB.addRange fuel b (max + 1) hi fold
    | none =>
      if hi < 0x80 then
        let (b, pc) := b.suffix (byteOf lo) (byteOf hi) fold 0
        some (b.addBranch pc)
      else match maskSplit lo hi [1, 2, 3] with
      | some (e, s) =>
        match RB.addRange fuel b lo e fold with
        | none => none
        | some b => RB.addRange fuel b s hi fold
      | none =>
        let ulo := encodeRune lo
        let uhi := encodeRune hi
        if ulo.length ≠ uhi.length then none
        else
          let (b, pc) := b.addBytes (ulo.zip uhi)
          some (b.addBranch pc)

/-- `addRange(lo, hi, false)`. (as called at codesearch/regexp/utf.go:54, 57, 66) -/
def RB.range (b : RB) (lo hi : Rune) : Option RB := RB.addRange (hi + 1 - lo) b lo hi false

/-- A `[]rune` as range pairs (the `for j := 0; j < len(r); j += 2` loops; an odd length would panic and cannot
occur except for the single runes treated separately). (codesearch/regexp/utf.go:45, 56) -/
def pairsOf : List Rune → List (Rune × Rune)
  | a :: b :: rs => (a, b) :: pairsOf rs
  | _ => []

/-- codesearch/regexp/utf.go:38-58: the ranges of an instruction that is not a single byte range. -/
def instRanges (orbit : Rune → List Rune) (rs : List Rune) (fold : Bool) : List (Rune × Rune) :=
  if fold then
    match rs with
    | [r] => appendFoldedRange orbit [] r r
    | _ => (pairsOf rs).foldl (fun rr p => appendFoldedRange orbit rr p.1 p.2) []
  else
    match rs with
    | [r] => [(r, r)]
    | _ => pairsOf rs

/-- codesearch/regexp/utf.go:52-59 and 65-66: build the machine for the ranges at `pc`. -/
def buildRanges (inst : List Inst) (pc out : Nat) (ranges : List (Rune × Rune)) : Option (List Inst) :=
  (ranges.foldl (fun b p => b.bind fun b => b.range p.1 p.2) (some (RB.init inst pc out))).map (·.inst)

/-- codesearch/regexp/utf.go:24-67: the body of the loop of `toByteProg`. -/
def toByteInst (orbit : Rune → List Rune) (inst : List Inst) (pc : Nat) : Option (List Inst) :=
  match inst[pc]? with
  | some (.rune rs fold out) =>
    match oneByteRange orbit (.rune rs fold out) with
    | some (lo, hi, f) => some (inst.set pc (.byteRange lo hi f out))
    | none => buildRanges inst pc out (instRanges orbit rs fold)
  | some (.rune1 r out) =>
    match oneByteRange orbit (.rune1 r out) with
    | some (lo, hi, f) => some (inst.set pc (.byteRange lo hi f out))
    | none => buildRanges inst pc out [(r, r)]
  | some (.runeAny out) => buildRanges inst pc out [(0, 0x10FFFF)]
  | some (.runeAnyNotNL out) => buildRanges inst pc out [(0, 0x10FFFF)]
  | _ => some inst

/-- codesearch/regexp/utf.go:21-70 `toByteProg`: the loop runs over the original instructions. -/
def toByteProg (orbit : Rune → List Rune) (p : Prog) : Option Prog :=
  ((List.range p.inst.length).foldl (fun inst pc => inst.bind fun inst => toByteInst orbit inst pc)
    (some p.inst)).map fun inst => { p with inst := inst }

end Hound
