import Verif.Spec.Unicode
import Verif.Spec.Paging

/-!
# Specification: every search is answered
-/

namespace Hound.GoRe
open Hound Hound.Spec

/-- The text is no pattern, and the error says what is wrong with it. -/
def Refused (T : Tables) (text : Bytes) : Prop := ∃ e, parse T text = .error e ∧ e ≠ .internal

/-- codesearch/regexp/regexp.go:33-46: the program that `Compile` makes for the matcher, if none of its steps panics. -/
def ByteProgramOf (T : Tables) (text : Bytes) (q : Prog) : Prop :=
  ∃ t p, parse T text = .ok t ∧ compileProg T.orbit (simplify t) = some p ∧ toByteProg T.orbit p = some q

/-- The programs have fewer than 2^32 instructions. -/
def Fits (T : Tables) (text : Bytes) : Prop := ∀ q, ByteProgramOf T text q → q.inst.length < 2 ^ 32

/-- codesearch/regexp/regexp.go:33-54 `Compile`, for all texts: an error where the parser has one, and otherwise what `CompiledText`
says if the programs have fewer than 2^32 instructions. -/
structure CompilesAll (T : Tables) (grow : Nat → Nat → Nat) (compile : Bytes → Option (Compiled Query)) : Prop where
  refuses : ∀ text e, parse T text = .error e → compile text = none
  accepts : ∀ text t, parse T text = .ok t → ∃ c, compile text = some c ∧ c.query = (HInfo.regexpQuery grow T.orbit t.re).1 ∧
    (Fits T text → CompiledTree grow T.orbit t c)

/-- The patterns a search compiles: the one searched for, and those for file names that are not empty. -/
def PatternOf (pat : Bytes) (quoteMeta : Bytes → Bytes) (opt : SearchOptions) (text : Bytes) : Prop :=
  text = fullPattern quoteMeta pat opt ∨ (text = opt.fileRegexp ∧ text ≠ []) ∨ (text = opt.excludeFileRegexp ∧ text ≠ [])

end Hound.GoRe
