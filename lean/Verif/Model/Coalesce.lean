import Verif.Model.Grep

/-!
# `client/coalesce.go`: merging matches with context into blocks
-/

namespace Hound.Client

/-- client/coalesce.go:7-11 `Block`. -/
structure Block where
  lines : List Bytes
  matches_ : List Bool
  start : Int
deriving DecidableEq, Repr

/-- client/coalesce.go:13-15 `endOfBlock`. -/
def endOfBlock (b : Block) : Int := b.start + b.lines.length - 1

/-- client/coalesce.go:17-19 `startOfMatch`. -/
def startOfMatch (m : LineMatch) : Int := (m.lineno : Int) - m.before.length

/-- client/coalesce.go:21-23 `matchIsInBlock`. -/
def matchIsInBlock (m : LineMatch) (b : Block) : Bool := startOfMatch m ≤ endOfBlock b

/-- client/coalesce.go:25-48 `matchToBlock`. -/
def matchToBlock (m : LineMatch) : Block where
  lines := m.before ++ m.line :: m.after
  matches_ := (List.replicate (1 + m.before.length + m.after.length) false).set m.before.length true
  start := (m.lineno : Int) - m.before.length

/-- client/coalesce.go:50-55 `clampZero`. -/
def clampZero (n : Int) : Int := if n < 0 then 0 else n

/-- client/coalesce.go:57-78 `mergeMatchIntoBlock`: `none` if an index is out of range. -/
def mergeMatchIntoBlock (m : LineMatch) (b : Block) : Option Block :=
  let off := endOfBlock b - startOfMatch m + 1
  let idx := (b.lines.length : Int) - off
  let nb : Int := m.before.length
  if off < 0 then none
  else
    let new := m.before.drop off.toNat
    let b := { b with lines := b.lines ++ new, matches_ := b.matches_ ++ new.map fun _ => false }
    let b? : Option Block :=
      if off < nb + 1 then
        some { b with lines := b.lines ++ [m.line], matches_ := b.matches_ ++ [true] }
      else if 0 ≤ idx + nb ∧ idx + nb < b.matches_.length then
        some { b with matches_ := b.matches_.set (idx + nb).toNat true }
      else none
    match b? with
    | none => none
    | some b =>
      let new := m.after.drop (clampZero (off - nb - 1)).toNat
      some { b with lines := b.lines ++ new, matches_ := b.matches_ ++ new.map fun _ => false }

/-- client/coalesce.go:83-96, the loop of `coalesceMatches`. -/
def coalesceLoop : List LineMatch → List Block → Option Block → Option (List Block)
  | [], res, none => some res
  | [], res, some curr => some (res ++ [curr])
  | m :: ms, res, none => coalesceLoop ms res (some (matchToBlock m))
  | m :: ms, res, some curr =>
    if matchIsInBlock m curr then
      match mergeMatchIntoBlock m curr with
      | none => none
      | some curr => coalesceLoop ms res (some curr)
    else coalesceLoop ms (res ++ [curr]) (some (matchToBlock m))

/-- client/coalesce.go:80-99 `coalesceMatches`. -/
def coalesceMatches (ms : List LineMatch) : Option (List Block) := coalesceLoop ms [] none

end Hound.Client
