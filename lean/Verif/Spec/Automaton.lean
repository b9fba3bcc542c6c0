import Verif.Model.Matcher
import Verif.Spec.Regex

/-!
# Specification: the paths of a byte program through one line

A program is read as a nondeterministic automaton.  Nothing here knows about sets of states, encodings,
caches or the order in which instructions are explored.
-/

namespace Hound.Spec
open Hound

/-- What the assertions see at position `pos` of the line `l`.  `bot`: the line begins the text;
`eot`: the line ends the text. -/
def flagsAt (l : Bytes) (bot eot : Bool) (pos : Nat) : EmptyOp :=
  { bol := pos == 0
    eol := pos == l.length
    bot := bot && pos == 0
    eot := eot && pos == l.length
    wb := wordBoundaryAt l pos
    nwb := !wordBoundaryAt l pos }

/-- Everything the assertion asks for is the case. -/
def Asserted (op now : EmptyOp) : Prop :=
  (op.bol = true → now.bol = true) ∧ (op.eol = true → now.eol = true) ∧
  (op.bot = true → now.bot = true) ∧ (op.eot = true → now.eot = true) ∧
  (op.wb = true → now.wb = true) ∧ (op.nwb = true → now.nwb = true)

/-- The byte `c` lies between `lo` and `hi`; when case is ignored, a letter `a` to `z` counts as its capital. -/
def ByteIn (lo hi : UInt8) (fold : Bool) (c : UInt8) : Prop :=
  (lo ≤ c ∧ c ≤ hi ∧ ¬ (fold = true ∧ 97 ≤ c ∧ c ≤ 122)) ∨
    (fold = true ∧ 97 ≤ c ∧ c ≤ 122 ∧ lo ≤ c - 32 ∧ c - 32 ≤ hi)

instance (op now : EmptyOp) : Decidable (Asserted op now) := by unfold Asserted; infer_instance

instance (lo hi : UInt8) (fold : Bool) (c : UInt8) : Decidable (ByteIn lo hi fold c) := by unfold ByteIn; infer_instance

/-- One step of the program from (position, instruction) to (position, instruction): either without reading, or
over one byte of the line. -/
inductive PStep (p : Prog) (l : Bytes) (bot eot : Bool) : Nat × Nat → Nat × Nat → Prop
  | capture {pos pc out} (h : p.inst[pc]? = some (.capture out)) : PStep p l bot eot (pos, pc) (pos, out)
  | nop {pos pc out} (h : p.inst[pc]? = some (.nop out)) : PStep p l bot eot (pos, pc) (pos, out)
  | altOut {pos pc out arg} (h : p.inst[pc]? = some (.alt out arg)) : PStep p l bot eot (pos, pc) (pos, out)
  | altArg {pos pc out arg} (h : p.inst[pc]? = some (.alt out arg)) : PStep p l bot eot (pos, pc) (pos, arg)
  | altMatchOut {pos pc out arg} (h : p.inst[pc]? = some (.altMatch out arg)) :
      PStep p l bot eot (pos, pc) (pos, out)
  | altMatchArg {pos pc out arg} (h : p.inst[pc]? = some (.altMatch out arg)) :
      PStep p l bot eot (pos, pc) (pos, arg)
  | empty {pos pc op out} (h : p.inst[pc]? = some (.empty op out))
      (hf : Asserted op (flagsAt l bot eot pos)) : PStep p l bot eot (pos, pc) (pos, out)
  | byte {pos pc lo hi fold out c} (h : p.inst[pc]? = some (.byteRange lo hi fold out))
      (hc : l[pos]? = some c) (hr : ByteIn lo hi fold c) : PStep p l bot eot (pos, pc) (pos + 1, out)

/-- Zero or more steps. -/
inductive PPath (p : Prog) (l : Bytes) (bot eot : Bool) : Nat × Nat → Nat × Nat → Prop
  | refl (a) : PPath p l bot eot a a
  | tail {a b c} (h : PPath p l bot eot a b) (s : PStep p l bot eot b c) : PPath p l bot eot a c

/-- The program matches somewhere inside the line. -/
def Accepts (p : Prog) (bot eot : Bool) (l : Bytes) : Prop :=
  ∃ i j pc, i ≤ l.length ∧ PPath p l bot eot (i, p.start) (j, pc) ∧ p.inst[pc]? = some .accept

/-- A well-formed program: every target is an instruction, and instruction numbers fit into 32 bits. -/
structure ProgOK (p : Prog) : Prop where
  start : p.start < p.inst.length
  len : p.inst.length < 2 ^ 32
  targets : ∀ i ∈ p.inst, ∀ t, t ∈ (match i with
    | .nop out | .capture out | .empty _ out | .byteRange _ _ _ out | .rune _ _ out | .rune1 _ out
    | .runeAny out | .runeAnyNotNL out => [out]
    | .alt out arg | .altMatch out arg => [out, arg]
    | .fail | .accept => []) → t < p.inst.length

end Hound.Spec
