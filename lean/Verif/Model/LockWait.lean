/-!
How searches and updates wait for one another at the locks: `searcher/searcher.go:117-135, 343-391` and
`index/index.go:117-125, 147-151`, with the locks as `sync.RWMutex` has them (from the Go source as known, since
the standard library is not in the sandbox):

* a reader is let in at once, unless a writer has the lock or waits for it; then the reader waits in a queue;
* a writer waits until the readers that are inside have left;
* when the writer leaves, all readers in the queue are let in.

There is one writer for each lock, the goroutine that polls the repository.
-/

namespace Hound
namespace Lw

/-- Where the goroutine that polls the repository is. (searcher/searcher.go:117-125, 343-391) -/
inductive Poller where
  /-- outside of `swapIndexes` -/
  | idle
  /-- line 118, waiting -/
  | waitsLive
  /-- line 121 -/
  | swaps
  /-- line 124, index/index.go:118, waiting for the lock of the old index -/
  | waitsOld
  /-- index/index.go:120-124 -/
  | closesOld
  /-- line 119, `Unlock` -/
  | leaves
  /-- line 382 -/
  | after
  /-- line 384, index/index.go:118, waiting for the lock of the new index -/
  | waitsNew
  /-- index/index.go:120-124 -/
  | closesNew
deriving DecidableEq, Repr

/-- Where a search is. (searcher/searcher.go:131-135, index/index.go:147-151) -/
inductive Search where
  /-- not called yet -/
  | none
  /-- line 132, in the queue for the lock of the searcher -/
  | queued
  /-- line 134: has it -/
  | inside
  /-- index/index.go:150, in the queue for the lock of the index -/
  | queuedIndex
  /-- has it, and is searching -/
  | reading
  /-- has returned -/
  | ended
deriving DecidableEq, Repr

/-- The searcher. Indexes are numbers. (searcher/searcher.go:21-35) -/
structure St where
  poller : Poller
  /-- `s.idx` -/
  cur : Nat
  /-- the old and the new index of the update -/
  old : Nat
  new : Nat
  /-- the number of the next index -/
  next : Nat
  /-- how many searches have been called -/
  made : Nat
  /-- where they are -/
  place : Nat → Search
  /-- the index they use -/
  uses : Nat → Nat

/-- Whether a writer has the lock of the searcher or waits for it. (for searcher/searcher.go:118-119) -/
def St.writerLive (s : St) : Bool :=
  match s.poller with
  | .waitsLive | .swaps | .waitsOld | .closesOld | .leaves => true
  | _ => false

/-- Whether a writer has the lock of index `h` or waits for it. (for index/index.go:118-119) -/
def St.writerOwn (s : St) (h : Nat) : Bool :=
  match s.poller with
  | .waitsOld | .closesOld => decide (h = s.old)
  | .waitsNew | .closesNew => decide (h = s.new)
  | _ => false

/-- The readers that have the lock of the searcher. (for searcher/searcher.go:132-133) -/
def St.readerLive (s : St) (n : Nat) : Bool :=
  match s.place n with
  | .inside | .queuedIndex | .reading => true
  | _ => false

/-- The readers that have the lock of index `h`. (for index/index.go:150-151) -/
def St.readerOwn (s : St) (h n : Nat) : Bool := decide (s.place n = .reading) && decide (s.uses n = h)

/-- Put search `n` somewhere. (for searcher/searcher.go:131-135) -/
def put (f : Nat → Search) (n : Nat) (x : Search) : Nat → Search := fun k => if k = n then x else f k

/-- Those in the queue for the lock of the searcher are let in. (for searcher/searcher.go:119) -/
def admitLive (f : Nat → Search) : Nat → Search := fun k => if f k = .queued then .inside else f k

/-- Those in the queue for the lock of index `h` are let in. (for index/index.go:119) -/
def admitOwn (s : St) (h : Nat) : Nat → Search :=
  fun k => if s.place k = .queuedIndex ∧ s.uses k = h then .reading else s.place k

/-- What happens: a search is called, an update begins, a search or the poller goes on. (searcher/searcher.go:117-135, 343-391) -/
inductive Ev where
  | call (n : Nat)
  | update
  | search (n : Nat)
  | poller
deriving DecidableEq, Repr

/-- One step. (searcher/searcher.go:117-135, 343-391, index/index.go:117-125, 147-151) -/
inductive Step : St → Ev → St → Prop where
  /-- searcher/searcher.go:132 -/
  | call (s : St) : Step s (.call s.made)
      { s with made := s.made + 1, place := put s.place s.made (if s.writerLive then .queued else .inside) }
  /-- searcher/searcher.go:134, index/index.go:150 -/
  | enter (s : St) (n : Nat) : s.place n = .inside → Step s (.search n)
      { s with place := put s.place n (if s.writerOwn s.cur then .queuedIndex else .reading),
               uses := fun k => if k = n then s.cur else s.uses k }
  /-- the search itself ends; index/index.go:151, searcher/searcher.go:133 -/
  | ends (s : St) (n : Nat) : s.place n = .reading → Step s (.search n) { s with place := put s.place n .ended }
  /-- searcher/searcher.go:370-382, 118: there is a new index -/
  | update (s : St) : s.poller = .idle → Step s .update { s with poller := .waitsLive, new := s.next, next := s.next + 1 }
  /-- searcher/searcher.go:118: the lock is granted -/
  | getLive (s : St) : s.poller = .waitsLive → (∀ n, s.readerLive n = false) → Step s .poller { s with poller := .swaps }
  /-- searcher/searcher.go:121-124 -/
  | swap (s : St) : s.poller = .swaps → Step s .poller { s with poller := .waitsOld, old := s.cur, cur := s.new }
  /-- index/index.go:118 -/
  | getOld (s : St) : s.poller = .waitsOld → (∀ n, s.readerOwn s.old n = false) → Step s .poller { s with poller := .closesOld }
  /-- index/index.go:119-124 -/
  | closeOld (s : St) : s.poller = .closesOld → Step s .poller { s with poller := .leaves, place := admitOwn s s.old }
  /-- searcher/searcher.go:119 -/
  | leave (s : St) : s.poller = .leaves → Step s .poller { s with poller := .after, place := admitLive s.place }
  /-- searcher/searcher.go:390 -/
  | done (s : St) : s.poller = .after → Step s .poller { s with poller := .idle }
  /-- searcher/searcher.go:382-384: the swap failed -/
  | undo (s : St) : s.poller = .after → Step s .poller { s with poller := .waitsNew }
  /-- index/index.go:118 -/
  | getNew (s : St) : s.poller = .waitsNew → (∀ n, s.readerOwn s.new n = false) → Step s .poller { s with poller := .closesNew }
  /-- index/index.go:119-124 -/
  | closeNew (s : St) : s.poller = .closesNew → Step s .poller { s with poller := .idle, place := admitOwn s s.new }

/-- A searcher that has been made. (searcher/searcher.go:449-455) -/
def start : St := ⟨.idle, 0, 0, 0, 1, 0, fun _ => .none, fun _ => 0⟩

end Lw
end Hound
