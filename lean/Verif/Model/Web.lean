import Verif.Model.Basic

/-!
# `web/web.go` and the start of `cmds/houndd/main.go`: when requests are answered

The server is a state machine; an execution is a sequence of events in any order the program allows.
Requests run in their own goroutines; `main` loads the repositories and then installs the handler.
`Idx` stands for the map of searchers.
-/

namespace Hound.Web

/-- What a request is answered with. (for web/web.go:18-48, 72-85) -/
inductive Reply (Idx : Type) where
  /-- web/web.go:28-31, the health check -/
  | healthy
  /-- web/web.go:38-40, "Hound is not ready." with status 503 -/
  | notReady
  /-- web/web.go:35-36, answered by the handlers set up with these searchers -/
  | served (idx : Idx)

/-- Where `main` is (cmds/houndd/main.go:127-188). -/
inductive Main (Idx : Type) where
  /-- `makeSearchers` is running -/
  | loading
  /-- `makeSearchers` has returned, `ServeWithIndex` builds the handlers -/
  | loaded (idx : Idx)
  /-- `serveWith` holds the write lock -/
  | locked (idx : Idx)
  /-- waiting for the server to end -/
  | ready
  /-- `main` has panicked, the process is gone -/
  | dead

/-- web/web.go:14-25 `Server`, with the requests holding the read lock and the handler each has read,
the requests begun so far, and the log of answers (newest first). -/
structure Sv (Idx : Type) where
  main : Main Idx := .loading
  mux : Option Idx := none
  inside : List (Nat × Option Idx) := []
  seen : List Nat := []
  log : List (Nat × Reply Idx) := []

/-- The steps of an execution; `id` names a request. (for web/web.go:18-48, 72-85) -/
inductive Ev (Idx : Type) where
  /-- a request for the health check path: begins and is answered -/
  | health (id : Nat)
  /-- another request begins: it takes the read lock and reads the handler -/
  | enter (id : Nat)
  /-- it is answered and releases the lock -/
  | reply (id : Nat)
  /-- `makeSearchers` returns -/
  | loadDone (idx : Idx)
  /-- `makeSearchers` or `ui.Content` fails -/
  | crash
  /-- `serveWith` takes the write lock -/
  | lock
  /-- `serveWith` stores the handler and releases the lock -/
  | set

/-- web/web.go:35-41 -/
def replyOf {Idx : Type} : Option Idx → Reply Idx
  | some idx => .served idx
  | none => .notReady

/-- One step; `none` if the program cannot take it.
* web/web.go:27-42 `ServeHTTP`: `health`, `enter` (`RLock`, read of `s.mux`), `reply` (and `RUnlock`);
* web/web.go:44-48 `serveWith`: `lock` waits until no request holds the read lock, `set` stores and unlocks;
* cmds/houndd/main.go:155-187, web/web.go:72-85 `ServeWithIndex`: `loadDone`, `crash`. -/
def step {Idx : Type} (s : Sv Idx) : Ev Idx → Option (Sv Idx)
  | .health id =>
    match s.main with
    | .dead => none
    | _ =>
      if id ∈ s.seen then none
      else some { s with seen := id :: s.seen, log := (id, .healthy) :: s.log }
  | .enter id =>
    match s.main with
    | .dead => none
    | .locked _ => none
    | _ =>
      if id ∈ s.seen then none
      else some { s with inside := (id, s.mux) :: s.inside, seen := id :: s.seen }
  | .reply id =>
    match s.main with
    | .dead => none
    | _ =>
      match s.inside.lookup id with
      | none => none
      | some m => some { s with
          inside := s.inside.filter (fun e => !(id == e.1)), log := (id, replyOf m) :: s.log }
  | .loadDone idx =>
    match s.main with
    | .loading => some { s with main := .loaded idx }
    | _ => none
  | .crash =>
    match s.main with
    | .loading => some { s with main := .dead }
    | .loaded _ => some { s with main := .dead }
    | _ => none
  | .lock =>
    match s.main with
    | .loaded idx => if s.inside = [] then some { s with main := .locked idx } else none
    | _ => none
  | .set =>
    match s.main with
    | .locked idx => some { s with main := .ready, mux := some idx }
    | _ => none

/-- An execution. (for web/web.go:18-48, 72-85) -/
def run {Idx : Type} : Sv Idx → List (Ev Idx) → Option (Sv Idx)
  | s, [] => some s
  | s, e :: es =>
    match step s e with
    | none => none
    | some s' => run s' es

end Hound.Web
