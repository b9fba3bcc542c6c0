import Verif.Spec.RuneProg

/-!
# Specification: a match inside a line, and programs compiled from a pattern

`regexp/syntax` (Go's standard library, not part of /repo) parses a pattern into a tree, simplifies it and compiles
it to a program.  `Faithful` is what is expected of the result; `Thompson` is the shape of the program that
`syntax.Compile` builds, from which `Verif.Proofs.Thompson` proves `Faithful`.
-/

namespace Hound.Spec
open Hound

/-- The bytes of `w` from `s` up to `e` are a line of `w` (or the empty text after a final newline). -/
def LineAt (w : Bytes) (s e : Nat) : Prop :=
  s ≤ e ∧ e ≤ w.length ∧ NL ∉ slice w s e ∧ (s = 0 ∨ w[s - 1]? = some NL) ∧ (e = w.length ∨ w[e]? = some NL)

/-- The text `w` has a match of `re` that lies between the positions `s` and `e`. -/
def MatchWithin (orbit : Rune → List Rune) (re : Re) (w : Bytes) (s e : Nat) : Prop :=
  ∃ i j, s ≤ i ∧ i ≤ j ∧ j ≤ e ∧ MatchAt orbit w re i j

/-- The program finds a match in a line exactly if the text has a match of the expression inside the line. -/
def Faithful (orbit : Rune → List Rune) (re : Re) (p : Prog) : Prop :=
  ∀ (w : Bytes) (s e : Nat), LineAt w s e →
    (RuneAccepts orbit p (s == 0) (e == w.length) (slice w s e) ↔ MatchWithin orbit re w s e)

/-- `i` is an instruction that continues at `a` or at `b`. -/
def IsAlt (i : Inst) (a b : Nat) : Prop :=
  i = .alt a b ∨ i = .alt b a ∨ i = .altMatch a b ∨ i = .altMatch b a

/-- `i` is an instruction that only continues at `a`. -/
def IsSkip (i : Inst) (a : Nat) : Prop := i = .nop a ∨ i = .capture a

/-- `X` contains a program fragment for the expression, entered at the first number and left at the second
(the shapes of `regexp/syntax/compile.go`). -/
inductive Thompson (orbit : Rune → List Rune) (X : List Inst) : Re → Nat → Nat → Prop
  | fail {e k} (h : X[e]? = some .fail) : Thompson orbit X .noMatch e k
  | emptyMatch {k} : Thompson orbit X .emptyMatch k k
  | skip {re i e e' k} (h : X[e]? = some i) (hi : IsSkip i e') (hf : Thompson orbit X re e' k) :
      Thompson orbit X re e k
  | skipEnd {re i e k' k} (h : X[k']? = some i) (hi : IsSkip i k) (hf : Thompson orbit X re e k') :
      Thompson orbit X re e k
  | litNil {fold k} : Thompson orbit X (.literal [] fold) k k
  | litCons {r rs fold i e m k} (h : X[e]? = some i) (ho : runeOut i = some m)
      (hr : ∀ x, InstHas orbit i x ↔ FoldsTo orbit fold r x) (hf : Thompson orbit X (.literal rs fold) m k) :
      Thompson orbit X (.literal (r :: rs) fold) e k
  | charClass {ranges i e k} (h : X[e]? = some i) (ho : runeOut i = some k)
      (hr : ∀ x, InstHas orbit i x ↔ ∃ p ∈ ranges, p.1 ≤ x ∧ x ≤ p.2) : Thompson orbit X (.charClass ranges) e k
  | anyCharNotNL {i e k} (h : X[e]? = some i) (ho : runeOut i = some k) (hr : ∀ x, InstHas orbit i x ↔ x ≠ 10) :
      Thompson orbit X .anyCharNotNL e k
  | anyChar {i e k} (h : X[e]? = some i) (ho : runeOut i = some k) (hr : ∀ x, InstHas orbit i x) :
      Thompson orbit X .anyChar e k
  | beginLine {e k} (h : X[e]? = some (.empty { bol := true } k)) : Thompson orbit X .beginLine e k
  | endLine {e k} (h : X[e]? = some (.empty { eol := true } k)) : Thompson orbit X .endLine e k
  | beginText {e k} (h : X[e]? = some (.empty { bot := true } k)) : Thompson orbit X .beginText e k
  | endText {e k} (h : X[e]? = some (.empty { eot := true } k)) : Thompson orbit X .endText e k
  | wordBoundary {e k} (h : X[e]? = some (.empty { wb := true } k)) : Thompson orbit X .wordBoundary e k
  | noWordBoundary {e k} (h : X[e]? = some (.empty { nwb := true } k)) : Thompson orbit X .noWordBoundary e k
  | capture {r e k} (hf : Thompson orbit X r e k) : Thompson orbit X (.capture r) e k
  | star {r i e l k} (h : X[l]? = some i) (hi : IsAlt i e k) (hf : Thompson orbit X r e l) :
      Thompson orbit X (.star r) l k
  | plus {r i e l k} (h : X[l]? = some i) (hi : IsAlt i e k) (hf : Thompson orbit X r e l) :
      Thompson orbit X (.plus r) e k
  | quest {r i e l k} (h : X[l]? = some i) (hi : IsAlt i e k) (hf : Thompson orbit X r e k) :
      Thompson orbit X (.quest r) l k
  | concatNil {k} : Thompson orbit X (.concat []) k k
  | concatCons {r rs e m k} (hf : Thompson orbit X r e m) (hg : Thompson orbit X (.concat rs) m k) :
      Thompson orbit X (.concat (r :: rs)) e k
  | altNil {e k} (h : X[e]? = some .fail) : Thompson orbit X (.alternate []) e k
  | altOne {r e k} (hf : Thompson orbit X r e k) : Thompson orbit X (.alternate [r]) e k
  | altCons {r rs i l e e' k} (h : X[l]? = some i) (hi : IsAlt i e e') (hf : Thompson orbit X r e k)
      (hg : Thompson orbit X (.alternate rs) e' k) : Thompson orbit X (.alternate (r :: rs)) l k
  /-- the expression was rewritten to an equivalent one first (`Simplify`) -/
  | simplify {re re' e k} (h : ∀ w i j, MatchAt orbit w re i j ↔ MatchAt orbit w re' i j)
      (hf : Thompson orbit X re' e k) : Thompson orbit X re e k

/-- `p` is built like the program `syntax.Compile` makes for `re`. -/
def Compiles (orbit : Rune → List Rune) (re : Re) (p : Prog) : Prop :=
  ∃ k, Thompson orbit p.inst re p.start k ∧ p.inst[k]? = some .accept

end Hound.Spec
