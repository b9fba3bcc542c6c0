import Verif.Model.Basic

/-!
# `path/filepath` on Unix: `Clean`, `Join`, `Dir`, `IsAbs`, `Abs`

From the Go source as known, since the standard library is not in the sandbox. config/config.go:206-213 uses them to find the
data directory; the same functions make all paths below it.
-/

namespace Hound.Path

/-- The separator. (called at config/config.go:206-208) -/
def SL : UInt8 := 47
/-- The dot. (called at config/config.go:206-208) -/
def DOT : UInt8 := 46

/-- `Clean`: the loop that takes the last name off the output (`out` is in reverse), down to `dotdot` bytes.
(called at config/config.go:206-208) -/
def back (dotdot : Nat) : Bytes → Bytes
  | [] => []
  | c :: out => if out.length > dotdot ∧ c ≠ SL then back dotdot out else out

/-- `Clean`: the loop over the path. `out` is what is written, in reverse; `dotdot` the number of its bytes that stay.
(called at config/config.go:206-208) -/
def cleanLoop (rooted : Bool) : Nat → Bytes → Bytes → Nat → Bytes
  | 0, _, out, _ => out
  | _, [], out, _ => out
  | fuel + 1, c :: t, out, dotdot =>
    if c = SL then cleanLoop rooted fuel t out dotdot
    else if c = DOT ∧ (t.head? = none ∨ t.head? = some SL) then cleanLoop rooted fuel t out dotdot
    else if c = DOT ∧ t.head? = some DOT ∧ ((t.drop 1).head? = none ∨ (t.drop 1).head? = some SL) then
      if out.length > dotdot then cleanLoop rooted fuel (t.drop 1) (back dotdot out) dotdot
      else if !rooted then
        let out := DOT :: DOT :: (if out.length > 0 then SL :: out else out)
        cleanLoop rooted fuel (t.drop 1) out out.length
      else cleanLoop rooted fuel (t.drop 1) out dotdot
    else
      let out := if (rooted ∧ out.length ≠ 1) ∨ (!rooted ∧ out.length ≠ 0) then SL :: out else out
      let name := (c :: t).takeWhile (· ≠ SL)
      cleanLoop rooted fuel ((c :: t).drop name.length) (name.reverse ++ out) dotdot

/-- `filepath.IsAbs`. (called at config/config.go:206-208) -/
def isAbs (p : Bytes) : Bool := p.head? == some SL

/-- `filepath.Clean`. (called at config/config.go:206-208) -/
def clean (p : Bytes) : Bytes :=
  if p = [] then [DOT]
  else
    let out := if isAbs p then cleanLoop true p.length (p.drop 1) [SL] 1 else cleanLoop false p.length p [] 0
    if out.length = 0 then [DOT] else out.reverse

/-- `filepath.Join` of two elements. (called at config/config.go:206-208) -/
def join (a b : Bytes) : Bytes :=
  if a ≠ [] then clean (a ++ [SL] ++ b) else if b ≠ [] then clean b else []

/-- `filepath.Dir`: the path up to its last separator. (called at config/config.go:206-208) -/
def dir (p : Bytes) : Bytes := clean ((p.reverse.dropWhile (· ≠ SL)).reverse)

/-- `filepath.Abs`, for a process in the directory `cwd`. (called at config/config.go:206-208) -/
def abs (cwd p : Bytes) : Bytes := if isAbs p then clean p else join cwd p

end Hound.Path
