import Verif.Model.LockWait
/-!
A request that searches several repositories: `api/api.go:54-96`. For each repository there is a goroutine that searches it
and sends what it got to the goroutine of the request, over a channel with room for all of them. The searches wait for the
locks of their repositories as in `Model/LockWait`, while the repositories are updated.
-/

namespace Hound
namespace Fan

/-- Where the goroutine of a request is. (api/api.go:71-96) -/
inductive Main where
  /-- lines 71-76: starting the goroutine of the `j`-th repository -/
  | spawning (j : Nat)
  /-- line 80: has received `k` results -/
  | waiting (k : Nat)
  /-- has returned: with results (line 95), or with an error (line 82) -/
  | answered (ok : Bool)
deriving DecidableEq, Repr

/-- Where the goroutine for a repository is. (api/api.go:72-75) -/
inductive Go where
  /-- not started yet -/
  | none
  /-- line 73, `Search` has not been called yet -/
  | started
  /-- line 73, in `Search`, as the search with this number of the repository -/
  | searching (n : Nat)
  /-- line 74: `Search` has returned, with an error or not -/
  | sending (err : Bool)
  /-- has sent, and ended -/
  | gone (err : Bool)
deriving DecidableEq, Repr

/-- A request. (api/api.go:54-79) -/
structure Req where
  /-- the numbers of the repositories to be searched; one may be named twice -/
  repos : List Nat
  main : Main
  gos : Nat → Go
  /-- the channel: what was sent and not received, with the place of the repository in the list, and whether it is an error -/
  buf : List (Nat × Bool)
  /-- the places of those whose results were received -/
  got : List Nat

/-- How many the channel takes. (api/api.go:70) -/
def Req.cap (q : Req) : Nat := q.repos.length

/-- The server: the locks of its repositories, and the requests. (api/api.go:54-96, searcher/searcher.go:117-135) -/
structure St where
  locks : Nat → Lw.St
  made : Nat
  reqs : Nat → Req

/-- Change the value at a number. (for api/api.go:54-96) -/
def upd {α : Type} (f : Nat → α) (i : Nat) (x : α) : Nat → α := fun k => if k = i then x else f k

/-- What happens: a request comes; its goroutine goes on; the goroutine for a repository goes on at a lock, has its
answer, or sends it; a repository is updated. (api/api.go:54-96) -/
inductive Ev where
  | request (repos : List Nat)
  | main (r : Nat)
  | lock (r j i : Nat) (e : Lw.Ev)
  | found (r j : Nat) (err : Bool)
  | send (r j : Nat)
  | own (i : Nat) (e : Lw.Ev)
deriving DecidableEq, Repr

/-- The request after something was received. (api/api.go:80-92) -/
def Req.receive (q : Req) (k j : Nat) (err : Bool) (rest : List (Nat × Bool)) : Req :=
  { q with buf := rest, got := q.got ++ [j], main := if err then .answered false else .waiting (k + 1) }

/-- One step. (api/api.go:54-96) -/
inductive Step : St → Ev → St → Prop where
  /-- a request comes: lines 68-70 -/
  | request (s : St) (repos : List Nat) : Step s (.request repos)
      { s with made := s.made + 1, reqs := upd s.reqs s.made ⟨repos, .spawning 0, fun _ => .none, [], []⟩ }
  /-- lines 71-75 -/
  | spawn (s : St) (r j : Nat) : r < s.made → (s.reqs r).main = .spawning j → j < (s.reqs r).repos.length → Step s (.main r)
      { s with reqs := upd s.reqs r { s.reqs r with main := .spawning (j + 1), gos := upd (s.reqs r).gos j .started } }
  /-- line 76: the loop ends -/
  | spawned (s : St) (r j : Nat) : r < s.made → (s.reqs r).main = .spawning j → (s.reqs r).repos.length ≤ j → Step s (.main r)
      { s with reqs := upd s.reqs r { s.reqs r with main := .waiting 0 } }
  /-- lines 79-92 -/
  | receive (s : St) (r k j : Nat) (err : Bool) (rest : List (Nat × Bool)) : r < s.made → (s.reqs r).main = .waiting k →
      k < (s.reqs r).repos.length → (s.reqs r).buf = (j, err) :: rest → Step s (.main r)
      { s with reqs := upd s.reqs r ((s.reqs r).receive k j err rest) }
  /-- lines 79, 95 -/
  | answer (s : St) (r k : Nat) : r < s.made → (s.reqs r).main = .waiting k → (s.reqs r).repos.length ≤ k → Step s (.main r)
      { s with reqs := upd s.reqs r { s.reqs r with main := .answered true } }
  /-- line 73: `Search` is called; searcher/searcher.go:132 -/
  | call (s : St) (r j i n : Nat) (l : Lw.St) : r < s.made → (s.reqs r).gos j = .started → (s.reqs r).repos[j]? = some i →
      Lw.Step (s.locks i) (.call n) l → Step s (.lock r j i (.call n))
      { s with locks := upd s.locks i l, reqs := upd s.reqs r { s.reqs r with gos := upd (s.reqs r).gos j (.searching n) } }
  /-- inside `Search` -/
  | run (s : St) (r j i n : Nat) (l : Lw.St) : r < s.made → (s.reqs r).gos j = .searching n → (s.reqs r).repos[j]? = some i →
      Lw.Step (s.locks i) (.search n) l → Step s (.lock r j i (.search n)) { s with locks := upd s.locks i l }
  /-- line 73: `Search` returns -/
  | found (s : St) (r j i n : Nat) (err : Bool) : r < s.made → (s.reqs r).gos j = .searching n → (s.reqs r).repos[j]? = some i →
      (s.locks i).place n = .ended → Step s (.found r j err)
      { s with reqs := upd s.reqs r { s.reqs r with gos := upd (s.reqs r).gos j (.sending err) } }
  /-- line 74: there is room in the channel -/
  | send (s : St) (r j : Nat) (err : Bool) : r < s.made → (s.reqs r).gos j = .sending err → (s.reqs r).buf.length < (s.reqs r).cap →
      Step s (.send r j)
      { s with reqs := upd s.reqs r { s.reqs r with gos := upd (s.reqs r).gos j (.gone err), buf := (s.reqs r).buf ++ [(j, err)] } }
  /-- a new index comes, or the goroutine that polls the repository goes on: searcher/searcher.go:117-125, 343-391 -/
  | own (s : St) (i : Nat) (e : Lw.Ev) (l : Lw.St) : e = .update ∨ e = .poller → Lw.Step (s.locks i) e l →
      Step s (.own i e) { s with locks := upd s.locks i l }

/-- A server that has just been started. (api/api.go:190-275) -/
def start : St := ⟨fun _ => Lw.start, 0, fun _ => ⟨[], .spawning 0, fun _ => .none, [], []⟩⟩

end Fan
end Hound
