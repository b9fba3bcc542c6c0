import Verif.Model.Grep

/-!
# The lines of a file's matches on the web page (`ui/assets/js/hound.js`)
-/

namespace Hound.Ui

/-- The line objects of hound.js:620-638. -/
structure Line where
  number : Int
  content : Bytes
  isMatch : Bool
deriving DecidableEq, Repr

/-- ui/assets/js/hound.js:614-642 `MatchToLines`.  (The strings went through JSON; they are kept as bytes.) -/
def matchToLines (m : LineMatch) : List Line :=
  m.before.mapIdx (fun i l => ⟨(m.lineno : Int) - m.before.length + i, l, false⟩) ++
    ⟨m.lineno, m.line, true⟩ ::
    m.after.mapIdx (fun i l => ⟨(m.lineno : Int) + i + 1, l, false⟩)

/-- hound.js:660: the number of the last line of `current`, `-1` if there is none. -/
def lastNumber (current : Option (List Line)) : Int :=
  match current with
  | none => -1
  | some c => (c.getLast?.map (·.number)).getD (-1)

/-- hound.js:664-674: one line of a block that overlaps `current`.  `none`: an object that is not there is
assigned to (TypeError). -/
def mergeLine (max : Int) (current : List Line) (line : Line) : Option (List Line) :=
  if line.number > max then some (current ++ [line])
  else if line.isMatch then
    let i : Int := (current.length : Int) - 1 - (max - line.number)
    if 0 ≤ i then
      match current[i.toNat]? with
      | some l => some (current.set i.toNat { l with isMatch := true })
      | none => none
    else none
  else some current

/-- hound.js:658-681, the loop of `CoalesceMatches` over the blocks. -/
def coalesceLines : List (List Line) → List (List Line) → Option (List Line) → Option (List (List Line))
  | [], res, none => some res
  | [], res, some current => some (res ++ [current])
  | block :: blocks, res, current =>
    let max := lastNumber current
    match block with
    | [] => none
    | first :: _ =>
      if first.number ≤ max then
        match current with
        | none => none
        | some c =>
          match block.foldlM (mergeLine max) c with
          | none => none
          | some c => coalesceLines blocks res (some c)
      else
        match current with
        | none => coalesceLines blocks res (some block)
        | some c => coalesceLines blocks (res ++ [c]) (some block)

/-- hound.js:652-688 `CoalesceMatches`. -/
def coalesceMatches (ms : List LineMatch) : Option (List (List Line)) :=
  coalesceLines (ms.map matchToLines) [] none

end Hound.Ui
