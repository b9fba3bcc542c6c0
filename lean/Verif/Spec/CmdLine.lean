import Verif.Model.CmdLine
import Verif.Spec.GoInt
/-!
# Specification: command lines

How a command line is written, and what it says. Of the model only the types of flags and values are used.
-/

namespace Hound
namespace Flag

/-- The text `v` says `x`. -/
inductive Says : Kind → Bytes → Val → Prop where
  | str (v : Bytes) : Says .str v (.str v)
  | number (v : Bytes) (i : Int) : GoInt.IsInt v i → Says .int v (.int i)
  | yes (v : Bytes) : v ∈ [b!"1", b!"t", b!"T", b!"TRUE", b!"true", b!"True"] → Says .bool v (.bool true)
  | no (v : Bytes) : v ∈ [b!"0", b!"f", b!"F", b!"FALSE", b!"false", b!"False"] → Says .bool v (.bool false)

/-- One or two hyphens. -/
def Dashes (d : Bytes) : Prop := d = b!"-" ∨ d = b!"--"

/-- The first arguments set flag `name` to `x`, and the others follow. -/
inductive Opt (flags : List (Bytes × Kind)) : List Bytes → Bytes → Val → List Bytes → Prop where
  /-- `--name=value` -/
  | joined (d name v : Bytes) (k : Kind) (x : Val) (args : List Bytes) : Dashes d → (name, k) ∈ flags → Says k v x →
      Opt flags ((d ++ name ++ b!"=" ++ v) :: args) name x args
  /-- `--name` -/
  | alone (d name : Bytes) (args : List Bytes) : Dashes d → (name, Kind.bool) ∈ flags →
      Opt flags ((d ++ name) :: args) name (.bool true) args
  /-- `--name value` -/
  | apart (d name v : Bytes) (k : Kind) (x : Val) (args : List Bytes) : Dashes d → (name, k) ∈ flags → k ≠ .bool → Says k v x →
      Opt flags ((d ++ name) :: v :: args) name x args

/-- A command line: flags, and behind them either something that does not look like a flag, or nothing, or anything after `--`. -/
inductive Line (flags : List (Bytes × Kind)) : List Bytes → List (Bytes × Val) → List Bytes → Prop where
  | none : Line flags [] [] []
  | rest (a : Bytes) (args : List Bytes) : (a.head? ≠ some 45 ∨ a = b!"-") → Line flags (a :: args) [] (a :: args)
  | ended (args : List Bytes) : Line flags (b!"--" :: args) [] args
  | opt (args args' rest : List Bytes) (name : Bytes) (x : Val) (sets : List (Bytes × Val)) : Opt flags args name x args' →
      Line flags args' sets rest → Line flags args ((name, x) :: sets) rest

/-- The command line asks for help: behind flags there is `-h` or `-help`. -/
inductive Asks (flags : List (Bytes × Kind)) : List Bytes → Prop where
  | plain (d name : Bytes) (args : List Bytes) : Dashes d → (name = b!"help" ∨ name = b!"h") → Asks flags ((d ++ name) :: args)
  | joined (d name v : Bytes) (args : List Bytes) : Dashes d → (name = b!"help" ∨ name = b!"h") →
      Asks flags ((d ++ name ++ b!"=" ++ v) :: args)
  | opt (args args' : List Bytes) (name : Bytes) (x : Val) : Opt flags args name x args' → Asks flags args' → Asks flags args

/-- The names of flags: each once, not empty, without `=`, and not beginning with a hyphen. -/
def GoodFlags (flags : List (Bytes × Kind)) : Prop :=
  (flags.map (·.1)).Nodup ∧ ∀ e ∈ flags, e.1 ≠ [] ∧ (61 : UInt8) ∉ e.1 ∧ e.1.head? ≠ some 45

/-- The flag has the value it was given last, or else its default. -/
def Has (sets : List (Bytes × Val)) (name : Bytes) (dflt x : Val) : Prop :=
  (x = dflt ∧ ∀ y, (name, y) ∉ sets) ∨ ∃ a b, sets = a ++ (name, x) :: b ∧ ∀ y, (name, y) ∉ b

/-- The flags of `hound`, as its users know them. -/
abbrev houndKnows : List (Bytes × Kind) :=
  [(b!"host", .str), (b!"repos", .str), (b!"files", .str), (b!"context", .int), (b!"ignore-case", .bool), (b!"show-stats", .bool),
    (b!"like-grep", .bool)]
/-- The flags of `houndd`. -/
abbrev hounddKnows : List (Bytes × Kind) := [(b!"conf", .str), (b!"addr", .str), (b!"dev", .bool), (b!"version", .bool)]

/-- Everything on the command line of `houndd` is used: what it serves is told by the flags and nothing is left over. -/
def HounddFull : Prop := ∀ args conf addr dev, hounddMain args = .serve conf addr dev → ∃ sets,
  Line hounddKnows args sets []

end Flag
end Hound
