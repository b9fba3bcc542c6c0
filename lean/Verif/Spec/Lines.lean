/-!
# Specification: the lines of a text, and searching it line by line

Independent of the model: only lists.
-/

namespace Hound.Spec

/-- The lines of a text. A newline byte (10) ends a line; a last line without newline
counts; an empty text has no lines. -/
def lines : List UInt8 → List (List UInt8)
  | [] => []
  | c :: cs =>
    if c = 10 then [] :: lines cs
    else match lines cs with
      | [] => [[c]]
      | l :: ls => (c :: l) :: ls

/-- The pieces between newlines: like `lines`, but the (possibly empty) text after the last
newline always counts, so there is one piece more than there are newlines. -/
def pieces : List UInt8 → List (List UInt8)
  | [] => [[]]
  | c :: cs =>
    if c = 10 then [] :: pieces cs
    else match pieces cs with
      | [] => [[c]]
      | l :: ls => (c :: l) :: ls

/-- Text with the last `n` elements of a list. -/
def takeLast {α : Type} (n : Nat) (l : List α) : List α := l.drop (l.length - n)

end Hound.Spec

namespace Hound.Spec

/-- A pattern seen as a set of lines: `acc bot eot line` says whether the pattern matches inside
`line` when the line is the first (`bot`) / last (`eot`) one of the text handed to the matcher. -/
abbrev LineAcc := Bool → Bool → List UInt8 → Bool

/-- What a line matcher must return for a text given by its pieces: the offset of the end of the
first accepted piece. `off` is the offset of the first piece, `first` says that it starts the text. -/
def firstEnd (acc : LineAcc) : Bool → List (List UInt8) → Nat → Option Nat
  | _, [], _ => none
  | first, [p], off => if acc first true p then some (off + p.length) else none
  | first, p :: q :: ps, off =>
    if acc first false p then some (off + p.length)
    else firstEnd acc false (q :: ps) (off + p.length + 1)

/-- `mt` is a line matcher for the pattern `acc`. (`Verif.Props.Matcher` shows that hound's
matcher is one.) -/
def IsLineMatcher (mt : List UInt8 → Option Nat) (acc : LineAcc) : Prop :=
  ∀ buf, buf ≠ [] → mt buf = firstEnd acc true (pieces buf) 0

/-- Pairs (line number starting at 1, line) of the lines satisfying `p`. -/
def matchingLinesFrom (p : List UInt8 → Bool) : Nat → List (List UInt8) → List (Nat × List UInt8)
  | _, [] => []
  | n, l :: ls => if p l then (n, l) :: matchingLinesFrom p (n + 1) ls
                  else matchingLinesFrom p (n + 1) ls

/-- Pairs (line number starting at 1, line) of the lines of `buf` satisfying `p`. -/
def matchingLines (p : List UInt8 → Bool) (buf : List UInt8) : List (Nat × List UInt8) :=
  matchingLinesFrom p 1 (lines buf)

end Hound.Spec

namespace Hound.Spec

/-- Pairs (line number, line) of the lines accepted by `acc`, each line being judged with its true
position flags: `bot` holds for the first line only, `eot` for a line that is not followed by a
newline. `n` is the number of the first line of the list, `bot` its flag and
`nlAtEnd` says whether the last line is followed by a newline. -/
def acceptedFrom (acc : LineAcc) (nlAtEnd : Bool) : Bool → Nat → List (List UInt8) →
    List (Nat × List UInt8)
  | _, _, [] => []
  | bot, n, [l] => if acc bot (!nlAtEnd) l then [(n, l)] else []
  | bot, n, l :: m :: ls =>
    if acc bot false l then (n, l) :: acceptedFrom acc nlAtEnd false (n + 1) (m :: ls)
    else acceptedFrom acc nlAtEnd false (n + 1) (m :: ls)

/-- Pairs (line number, line) of the lines of `buf` accepted by `acc`. -/
def acceptedLines (acc : LineAcc) (buf : List UInt8) : List (Nat × List UInt8) :=
  acceptedFrom acc (buf.getLast? = some 10) true 1 (lines buf)

/-- The extra "line" after a final newline: an empty line, numbered one past the last line,
that a search reports when the pattern accepts an empty last line and does not accept the last
real line. It is not a line of the text. -/
def phantom (acc : LineAcc) (buf : List UInt8) : List (Nat × List UInt8) :=
  match (lines buf).getLast? with
  | none => []
  | some l =>
    if buf.getLast? = some 10 ∧ acc false true [] = true ∧ acc false false l = false then
      [((lines buf).length + 1, [])]
    else []

end Hound.Spec
