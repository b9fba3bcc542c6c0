import Verif.Model.HoundCmd
import Verif.Model.GoInt
/-!
The command lines of `hound` and `houndd`: `cmds/hound/main.go:83-97`, `cmds/houndd/main.go:127-150`, with Go's package `flag` (from
the Go source as known, since the standard library is not in the sandbox).
-/

namespace Hound
namespace Flag

/-- The kinds of flags. (cmds/hound/main.go:84-90, cmds/houndd/main.go:132-135) -/
inductive Kind where
  | str
  | int
  | bool
deriving DecidableEq, Repr

/-- The values of flags. (cmds/hound/main.go:84-90, cmds/houndd/main.go:132-135) -/
inductive Val where
  | str (b : Bytes)
  | int (i : Int)
  | bool (b : Bool)
deriving DecidableEq, Repr

/-- `strconv.ParseBool`. (for cmds/hound/main.go:92) -/
def parseBool (v : Bytes) : Option Bool :=
  if v ∈ [b!"1", b!"t", b!"T", b!"TRUE", b!"true", b!"True"] then some true
  else if v ∈ [b!"0", b!"f", b!"F", b!"FALSE", b!"false", b!"False"] then some false
  else none

/-- The `Set` of the flag's value; `none` is an error. (for cmds/hound/main.go:92) -/
def setValue : Kind → Bytes → Option Val
  | .str, v => some (.str v)
  | .int, v => (GoInt.parseInt v).map .int
  | .bool, v => (parseBool v).map .bool

/-- A name and what is behind the first `=`. (for cmds/hound/main.go:92) -/
def splitEq : Bytes → Bytes × Option Bytes
  | [] => ([], none)
  | c :: r => if c = 61 then ([], some r) else (c :: (splitEq r).1, (splitEq r).2)

/-- What one round of the loop finds: the end of the flags, a flag, a call for help, or an error. (for cmds/hound/main.go:92) -/
inductive One where
  | stop (rest : List Bytes)
  | set (name : Bytes) (x : Val) (rest : List Bytes)
  | help
  | bad
deriving DecidableEq

/-- `parseOne` from the look-up of the name on. (for cmds/hound/main.go:92) -/
def flagOf (formal : Bytes → Option Kind) (name : Bytes) (value : Option Bytes) (args : List Bytes) : One :=
  match formal name with
  | none => if name = b!"help" ∨ name = b!"h" then .help else .bad
  | some .bool =>
    match setValue .bool (value.getD b!"true") with
    | some x => .set name x args
    | none => .bad
  | some k =>
    match value, args with
    | some v, _ =>
      match setValue k v with
      | some x => .set name x args
      | none => .bad
    | none, v :: args' =>
      match setValue k v with
      | some x => .set name x args'
      | none => .bad
    | none, [] => .bad

/-- `parseOne`. (for cmds/hound/main.go:92) -/
def parseOne (formal : Bytes → Option Kind) : List Bytes → One
  | [] => .stop []
  | s :: args =>
    match s with
    | d :: c :: r =>
      if d ≠ 45 then .stop (s :: args)
      else if c = 45 ∧ r = [] then .stop args
      else
        match (if c = 45 then r else c :: r) with
        | [] => .bad
        | n :: nr =>
          if n = 45 ∨ n = 61 then .bad
          else flagOf formal (n :: (splitEq nr).1) (splitEq nr).2 args
    | _ => .stop (s :: args)

/-- How the parsing ends: help was called for, there is an error, or these flags were set and these arguments are left.
(for cmds/hound/main.go:92) -/
inductive Outcome where
  | help
  | bad
  | ok (sets : List (Bytes × Val)) (rest : List Bytes)
deriving DecidableEq

/-- `Parse`, with fuel; each round takes at least one argument. (for cmds/hound/main.go:92) -/
def parseLoop (formal : Bytes → Option Kind) : Nat → List Bytes → Outcome
  | 0, _ => .bad
  | k + 1, args =>
    match parseOne formal args with
    | .stop rest => .ok [] rest
    | .help => .help
    | .bad => .bad
    | .set name x args' =>
      match parseLoop formal k args' with
      | .ok sets rest => .ok ((name, x) :: sets) rest
      | o => o

/-- `flag.Parse`: the flags that are set, in order, and the arguments that are left. (for cmds/hound/main.go:92,
cmds/houndd/main.go:137) -/
def parse (formal : Bytes → Option Kind) (args : List Bytes) : Outcome :=
  parseLoop formal (args.length + 1) args

/-- A variable after the flags have been set one after the other. (for cmds/hound/main.go:84-92) -/
def current (sets : List (Bytes × Val)) (name : Bytes) (dflt : Val) : Val :=
  sets.foldl (fun a e => if e.1 = name then e.2 else a) dflt

/-- The string. (for cmds/hound/main.go:84-86) -/
def Val.toStr : Val → Bytes
  | .str b => b
  | _ => []
/-- The number. (for cmds/hound/main.go:87) -/
def Val.toInt : Val → Int
  | .int i => i
  | _ => 0
/-- The truth value. (for cmds/hound/main.go:88-90) -/
def Val.toBool : Val → Bool
  | .bool b => b
  | _ => false

/-- The flag of a name. (for cmds/hound/main.go:92) -/
def formal (flags : List (Bytes × Kind)) (name : Bytes) : Option Kind := List.lookup name flags

/-! ## `hound` -/

/-- cmds/hound/main.go:84-90 -/
def houndFlags : List (Bytes × Kind) :=
  [(b!"host", .str), (b!"repos", .str), (b!"files", .str), (b!"context", .int), (b!"ignore-case", .bool), (b!"show-stats", .bool),
    (b!"like-grep", .bool)]

/-- cmds/hound/main.go:76-81 `defaultFlagForHost`. -/
def defaultFlagForHost (defaultHost : Bytes) : Bytes := if defaultHost ≠ [] then defaultHost else b!"localhost:6080"

/-- cmds/hound/main.go:84-92 -/
def houndSettings (defaultHost : Bytes) (sets : List (Bytes × Val)) : Cmd.Flags where
  host := (current sets b!"host" (.str (defaultFlagForHost defaultHost))).toStr
  repos := (current sets b!"repos" (.str b!"*")).toStr
  files := (current sets b!"files" (.str [])).toStr
  context := (current sets b!"context" (.int 2)).toInt
  ignoreCase := (current sets b!"ignore-case" (.bool false)).toBool
  stats := (current sets b!"show-stats" (.bool false)).toBool
  likeGrep := (current sets b!"like-grep" (.bool false)).toBool

/-- How the program ends: `flag` has shown the usage (status 0), it has shown an error (status 2), or the command has run.
(cmds/hound/main.go:92-130) -/
inductive HoundEnd where
  | help
  | bad
  | ran (e : Cmd.Ending)
deriving DecidableEq

/-- cmds/hound/main.go:83-130 `main`, with the arguments of the program. -/
def houndMain (defaultHost : Bytes) (w : Cmd.World) (args : List Bytes) : HoundEnd :=
  match parse (formal houndFlags) args with
  | .help => .help
  | .bad => .bad
  | .ok sets rest => .ran (Cmd.command w (houndSettings defaultHost sets) rest)

/-! ## `houndd` -/

/-- cmds/houndd/main.go:132-135 -/
def hounddFlags : List (Bytes × Kind) := [(b!"conf", .str), (b!"addr", .str), (b!"dev", .bool), (b!"version", .bool)]

/-- What `houndd` does after reading the command line: shows the usage, an error or its version, or goes on with this configuration
file, this address and in development mode or not. (cmds/houndd/main.go:132-150) -/
inductive HounddEnd where
  | help
  | bad
  | version
  | serve (conf addr : Bytes) (dev : Bool)
deriving DecidableEq

/-- cmds/houndd/main.go:132-150. The arguments that are left are not looked at. -/
def hounddMain (args : List Bytes) : HounddEnd :=
  match parse (formal hounddFlags) args with
  | .help => .help
  | .bad => .bad
  | .ok sets _ =>
    if (current sets b!"version" (.bool false)).toBool then .version
    else .serve (current sets b!"conf" (.str b!"config.json")).toStr (current sets b!"addr" (.str b!":6080")).toStr
      (current sets b!"dev" (.bool false)).toBool

end Flag
end Hound
