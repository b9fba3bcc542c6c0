import Verif.Model.Basic
/-!
How the server begins to serve: `web/web.go:27-85` and `cmds/houndd/main.go:149-187`, with the goroutine of each request, that of
`main` and that which listens, and with the lock as `sync.RWMutex` has it (from the Go source as known, since the standard library is
not in the sandbox):

* a reader is let in at once, unless a writer has the lock or waits for it; then the reader waits in a queue;
* the writer waits until the readers that are inside have left;
* when the writer leaves, all readers in the queue are let in.

What the handlers answer (api/api.go, ui/ui.go) is left out: a request that reaches them is `served`.
-/

namespace Hound
namespace Gate

/-- Why the process has ended. (cmds/houndd/main.go:60-74, 155-158, 187, web/web.go:73-76, 84) -/
inductive End where
  /-- cmds/houndd/main.go:157 -/
  | load
  /-- web/web.go:75 -/
  | content
  /-- web/web.go:64, 84: `http.ListenAndServe` has returned -/
  | listen
  /-- cmds/houndd/main.go:60-74: a signal -/
  | signal
deriving DecidableEq, Repr

/-- Where `main` is. (cmds/houndd/main.go:149-187, web/web.go:44-48, 72-85) -/
inductive Main where
  /-- cmds/houndd/main.go:155 -/
  | loading
  /-- cmds/houndd/main.go:159-187, web/web.go:73-80 -/
  | loaded
  /-- web/web.go:45, waiting -/
  | waits
  /-- web/web.go:46-47 -/
  | has
  /-- web/web.go:84 -/
  | receives
  /-- the process has ended -/
  | gone (why : End)
deriving DecidableEq, Repr

/-- The answers. (web/web.go:29, 36, 38-40) -/
inductive Reply where
  | healthy
  | notReady
  | served
deriving DecidableEq, Repr

/-- Where a request is. (web/web.go:27-42) -/
inductive Place where
  /-- it has not come -/
  | none
  /-- line 28 -/
  | begun
  /-- line 33, in the queue -/
  | queued
  /-- line 35, has the lock -/
  | inside
  /-- line 36 or 38: has read whether there are handlers -/
  | reads (m : Bool)
  /-- it is answered and has left -/
  | answered (r : Reply)
deriving DecidableEq, Repr

/-- The server. (web/web.go:18-25) -/
structure St where
  /-- `HealthCheckURI` -/
  uri : Bytes
  /-- whether `ui.Content` succeeds -/
  content : Bool
  main : Main
  /-- whether `http.ListenAndServe` has returned; its goroutine then is at line 64, sending -/
  failed : Bool
  /-- whether `s.mux` is set -/
  mux : Bool
  /-- how many requests have come -/
  made : Nat
  place : Nat → Place
  path : Nat → Bytes

/-- Whether the process is there. (for cmds/houndd/main.go:187) -/
def St.alive (s : St) : Bool :=
  match s.main with
  | .gone _ => false
  | _ => true

/-- Whether `serveWith` has the lock or waits for it. (for web/web.go:45-46) -/
def St.writer (s : St) : Bool :=
  match s.main with
  | .waits | .has => true
  | _ => false

/-- Whether request `n` has the lock. (for web/web.go:33-34) -/
def St.reader (s : St) (n : Nat) : Bool :=
  match s.place n with
  | .inside | .reads _ => true
  | _ => false

/-- Set the value for `n`. (for web/web.go:27-42) -/
def put {α : Type} (f : Nat → α) (n : Nat) (x : α) : Nat → α := fun k => if k = n then x else f k

/-- Those in the queue are let in. (for web/web.go:46) -/
def admit (f : Nat → Place) : Nat → Place := fun k => if f k = .queued then .inside else f k

/-- What happens. (web/web.go:27-85) -/
inductive Ev where
  /-- request `n` comes -/
  | call (n : Nat)
  /-- its goroutine goes on -/
  | request (n : Nat)
  /-- the searchers are made, or it failed -/
  | load (ok : Bool)
  /-- `main` goes on -/
  | main
  /-- `http.ListenAndServe` returns -/
  | listen
  /-- a signal ends the process -/
  | signal
deriving DecidableEq, Repr

/-- One step. (web/web.go:27-85, cmds/houndd/main.go:149-187) -/
inductive Step : St → Ev → St → Prop where
  /-- web/web.go:64: as long as `http.ListenAndServe` runs -/
  | call (s : St) (p : Bytes) : s.alive = true → s.failed = false →
      Step s (.call s.made) { s with made := s.made + 1, place := put s.place s.made .begun, path := put s.path s.made p }
  /-- web/web.go:28-31 -/
  | health (s : St) (n : Nat) : s.alive = true → s.place n = .begun → s.path n = s.uri →
      Step s (.request n) { s with place := put s.place n (.answered .healthy) }
  /-- web/web.go:33 -/
  | lock (s : St) (n : Nat) : s.alive = true → s.place n = .begun → s.path n ≠ s.uri →
      Step s (.request n) { s with place := put s.place n (if s.writer then .queued else .inside) }
  /-- web/web.go:35 -/
  | read (s : St) (n : Nat) : s.alive = true → s.place n = .inside →
      Step s (.request n) { s with place := put s.place n (.reads s.mux) }
  /-- web/web.go:36-40, 34 -/
  | reply (s : St) (n : Nat) (m : Bool) : s.alive = true → s.place n = .reads m →
      Step s (.request n) { s with place := put s.place n (.answered (if m then .served else .notReady)) }
  /-- cmds/houndd/main.go:155 -/
  | load (s : St) : s.main = .loading → Step s (.load true) { s with main := .loaded }
  /-- cmds/houndd/main.go:156-158 -/
  | loadFails (s : St) : s.main = .loading → Step s (.load false) { s with main := .gone .load }
  /-- web/web.go:73-82, 45 -/
  | build (s : St) : s.main = .loaded → s.content = true → Step s .main { s with main := .waits }
  /-- web/web.go:74-76 -/
  | noContent (s : St) : s.main = .loaded → s.content = false → Step s .main { s with main := .gone .content }
  /-- web/web.go:45: the lock is granted -/
  | get (s : St) : s.main = .waits → (∀ n, s.reader n = false) → Step s .main { s with main := .has }
  /-- web/web.go:46-47 -/
  | set (s : St) : s.main = .has → Step s .main { s with main := .receives, mux := true, place := admit s.place }
  /-- web/web.go:84, 64, cmds/houndd/main.go:187: the channel has no buffer, sending and receiving are one step -/
  | receive (s : St) : s.main = .receives → s.failed = true → Step s .main { s with main := .gone .listen }
  /-- web/web.go:64 -/
  | listen (s : St) : s.alive = true → s.failed = false → Step s .listen { s with failed := true }
  /-- cmds/houndd/main.go:60-74, from line 165 on -/
  | signal (s : St) : s.alive = true → s.main ≠ .loading → Step s .signal { s with main := .gone .signal }

/-- `web.Start` has returned. (web/web.go:54-68) -/
def start (uri : Bytes) (content : Bool) : St := ⟨uri, content, .loading, false, false, 0, fun _ => .none, fun _ => []⟩

end Gate
end Hound
