import Verif.Model.UiLink
import Verif.Model.UiRepos

/-!
# The numbers on the web page (`ui/assets/js/hound.js`)
-/

namespace Hound.Ui

/-- `t | 0` for a whole number (ECMA-262 `ToInt32`). (for ui/assets/js/hound.js:10-18) -/
def toInt32 (t : Int) : Int :=
  let m := t % 4294967296
  if m < 2147483648 then m else m - 4294967296

/-- `"" + n` for a whole number. (for ui/assets/js/hound.js:10-18) -/
def numberText (n : Int) : JsStr := js (Client.fmtD n)

/-- hound.js:13-16, the loop; `substring` takes a negative position for 0. -/
def numberGroups : Nat → JsStr → List JsStr → List JsStr
  | 0, _, b => b
  | fuel + 1, s, b =>
    if s.length > 0 then numberGroups fuel (s.take (s.length - 3)) (s.drop (s.length - 3) :: b) else b

/-- hound.js:10-18 `FormatNumber`. -/
def formatNumber (t : Int) : JsStr :=
  let s := numberText (toInt32 t)
  joinUnits (numberGroups s.length s [])

end Hound.Ui
