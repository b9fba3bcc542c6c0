import Verif.Spec.Race
/-!
The goroutines that know about one repository, with every access they make to memory that is shared:
`searcher/searcher.go`, `index/index.go` (locks), `web/web.go`, `api/api.go` (which goroutines there are) and
`cmds/houndd/main.go`.

The limiter is left out: it orders the goroutines that make searchers and poll repositories among themselves only.  So is the channel
through which a search gives its result to the request, and everything that is not written any more once the
goroutines that read it have been started (the configuration, the map of searchers, the directories of an index).
-/

namespace Hound
namespace Race

/-- Locks, channels and started goroutines. (for searcher/searcher.go:21-35, web/web.go:18-25) -/
structure Sync where
  writer : Lock → Option Who
  readers : Lock → Who → Bool
  sent : Chan → Nat
  rcvd : Chan → Nat
  closed : Chan → Bool
  started : Who → Bool

/-- Put a value in its place. (for searcher/searcher.go:117-201) -/
def upd {A B : Type} [DecidableEq A] (f : A → B) (a : A) (b : B) : A → B := fun x => if x = a then b else f x

/-- What an operation needs and what it does, in Go. (for searcher/searcher.go:117-201, web/web.go:27-48,
index/index.go:111-125, 147-151) -/
inductive Sync.Can (y : Sync) (w : Who) : Op → Sync → Prop where
  | read (x : Var) : Can y w (.read x) y
  | write (x : Var) : Can y w (.write x) y
  | other : Can y w .other y
  | go (u : Who) : y.started u = false → Can y w (.go u) { y with started := upd y.started u true }
  | lock (l : Lock) : y.writer l = none → (∀ u, y.readers l u = false) →
      Can y w (.lock l) { y with writer := upd y.writer l (some w) }
  | unlock (l : Lock) : y.writer l = some w → Can y w (.unlock l) { y with writer := upd y.writer l none }
  | rlock (l : Lock) : y.writer l = none →
      Can y w (.rlock l) { y with readers := upd y.readers l (upd (y.readers l) w true) }
  | runlock (l : Lock) : y.readers l w = true →
      Can y w (.runlock l) { y with readers := upd y.readers l (upd (y.readers l) w false) }
  | send (c : Chan) : y.sent c < y.rcvd c + cap c →
      Can y w (.send c (y.sent c)) { y with sent := upd y.sent c (y.sent c + 1) }
  | recv (c : Chan) : y.rcvd c < y.sent c →
      Can y w (.recv c (y.rcvd c)) { y with rcvd := upd y.rcvd c (y.rcvd c + 1) }
  | close (c : Chan) : y.closed c = false → Can y w (.close c) { y with closed := upd y.closed c true }
  | recvClosed (c : Chan) : y.closed c = true → Can y w (.recvClosed c) y

/-- The values of the shared places, and the local variables that matter. (for searcher/searcher.go:117-135, 343-391) -/
structure Vals where
  /-- `s.idx` -/
  cur : Nat
  /-- how many indexes have been made -/
  next : Nat
  /-- `s.shutdownRequested` -/
  flag : Bool
  /-- whether `s.mux` is set -/
  mux : Bool
  /-- `oldIdx` of `swapIndexes` -/
  old : Nat
  /-- `idx` of `updateAndReindex` -/
  new : Nat
  /-- the index a search uses -/
  used : Nat → Nat → Nat

/-- The goroutines, as programs: from one line to the next, with what is done there. (searcher/searcher.go:117-201,
285-327, 343-528, cmds/houndd/main.go:59-74, 150-187, web/web.go:27-86, api/api.go:70-78, 190-275,
index/index.go:117-125, 147-151; each constructor below its lines) -/
inductive Prog (v : Vals) : Who → Nat → Op → Nat → Vals → Prop where
  /- cmds/houndd/main.go:150-187, searcher/searcher.go:285-327, web/web.go:44-86 -/
  | main0 : Prog v .main 0 (.go .server) 1 v
  | main1 : Prog v .main 1 (.go .maker) 2 v
  | main2 (k : Nat) : Prog v .main 2 (.recv .result k) 3 v
  | main3 (k : Nat) : Prog v .main 3 (.send .update k) 4 v
  | main4 : Prog v .main 4 (.go .stopper) 5 v
  | main5 : Prog v .main 5 (.lock .web) 6 v
  | main6 : Prog v .main 6 (.write .mux) 7 { v with mux := true }
  | main7 : Prog v .main 7 (.unlock .web) 8 v
  /- searcher/searcher.go:393-455, 500-528: the index is made, the fields of the searcher are set -/
  | maker0 : Prog v .maker 0 (.write (.data 0)) 1 v
  | maker1 : Prog v .maker 1 (.write .idx) 2 v
  | maker2 : Prog v .maker 2 (.write .flag) 3 v
  | maker3 : Prog v .maker 3 (.go .poller) 4 v
  | maker4 (k : Nat) : Prog v .maker 4 (.send .result k) 5 v
  /- searcher/searcher.go:457-498: the poller is held; it ends if there is no updating -/
  | poller0 (k : Nat) : Prog v .poller 0 (.recv .update k) 1 v
  | poller1 : Prog v .poller 1 .other 2 v
  | pollerOff : Prog v .poller 1 (.close .done) 20 v
  /- searcher/searcher.go:184-196 `waitForUpdate` -/
  | pollerUpdate (k : Nat) : Prog v .poller 2 (.recv .update k) 3 v
  | pollerTimer : Prog v .poller 2 .other 3 v
  | pollerShutdown (k : Nat) : Prog v .poller 2 (.recv .shutdown k) 3 v
  /- searcher/searcher.go:477-480 -/
  | poller3 : Prog v .poller 3 (.read .flag) (if v.flag then 4 else 5) v
  | poller4 : Prog v .poller 4 (.close .done) 20 v
  /- searcher/searcher.go:343-380 `updateAndReindex`: nothing new, or a failure, or a new index -/
  | pollerSame : Prog v .poller 5 .other 2 v
  | pollerBuild : Prog v .poller 5 (.write (.data v.next)) 6 { v with new := v.next, next := v.next + 1 }
  /- searcher/searcher.go:117-125 `swapIndexes`, index/index.go:117-125 `Destroy` -/
  | poller6 : Prog v .poller 6 (.lock .live) 7 v
  | poller7 : Prog v .poller 7 (.read .idx) 8 { v with old := v.cur }
  | poller8 : Prog v .poller 8 (.write .idx) 9 { v with cur := v.new }
  | poller9 : Prog v .poller 9 (.lock (.own v.old)) 10 v
  | poller10 : Prog v .poller 10 (.write (.data v.old)) 11 v
  | poller11 : Prog v .poller 11 (.unlock (.own v.old)) 12 v
  | poller12 : Prog v .poller 12 (.unlock .live) 13 v
  /- searcher/searcher.go:382-390: done; or the swap failed, and the new index is destroyed -/
  | pollerDone : Prog v .poller 13 .other 2 v
  | poller13 : Prog v .poller 13 (.lock (.own v.new)) 14 v
  | poller14 : Prog v .poller 14 (.write (.data v.new)) 15 v
  | poller15 : Prog v .poller 15 (.unlock (.own v.new)) 2 v
  /- cmds/houndd/main.go:60-74, searcher/searcher.go:165-176 `Stop` and `Wait` -/
  | stopper0 : Prog v .stopper 0 .other 1 v
  | stopper1 (k : Nat) : Prog v .stopper 1 (.send .shutdown k) 2 v
  | stopperFull : Prog v .stopper 1 .other 3 v
  | stopper2 : Prog v .stopper 2 (.write .flag) 3 { v with flag := true }
  | stopper3 : Prog v .stopper 3 (.recvClosed .done) 4 v
  /- web/web.go:64-66: a goroutine for each request -/
  | server0 (n : Nat) : Prog v .server 0 (.go (.request n)) 0 v
  /- web/web.go:27-42 `ServeHTTP` -/
  | request0 (n : Nat) : Prog v (.request n) 0 (.rlock .web) 1 v
  | request1 (n : Nat) : Prog v (.request n) 1 (.read .mux) (if v.mux then 2 else 3) v
  /- api/api.go:70-78, 190-225: goroutines that search -/
  | requestSearch (n m : Nat) : Prog v (.request n) 2 (.go (.search n m)) 2 v
  /- api/api.go:235-241, searcher/searcher.go:139-146 `GetExcludedFiles` -/
  | requestExcluded (n : Nat) : Prog v (.request n) 2 (.read .idx) 3 v
  /- api/api.go:243-275, searcher/searcher.go:149-162 `Update` -/
  | requestUpdate (n k : Nat) : Prog v (.request n) 2 (.send .update k) 2 v
  | requestDone (n : Nat) : Prog v (.request n) 2 .other 3 v
  | request3 (n : Nat) : Prog v (.request n) 3 (.runlock .web) 4 v
  /- searcher/searcher.go:131-135 and index/index.go:147-151 `Search` -/
  | search0 (n m : Nat) : Prog v (.search n m) 0 (.rlock .live) 1 v
  | search1 (n m : Nat) : Prog v (.search n m) 1 (.read .idx) 2
      { v with used := fun n' m' => if n' = n ∧ m' = m then v.cur else v.used n' m' }
  | search2 (n m : Nat) : Prog v (.search n m) 2 (.rlock (.own (v.used n m))) 3 v
  | search3 (n m : Nat) : Prog v (.search n m) 3 (.read (.data (v.used n m))) 4 v
  | search4 (n m : Nat) : Prog v (.search n m) 4 (.runlock (.own (v.used n m))) 5 v
  | search5 (n m : Nat) : Prog v (.search n m) 5 (.runlock .live) 6 v

/-- The process. (for searcher/searcher.go:21-35) -/
structure St where
  pc : Who → Nat
  sync : Sync
  vals : Vals

/-- One goroutine that has been started does the next thing it has to do. (for searcher/searcher.go:393-498) -/
inductive Step (s : St) : Who → Op → St → Prop where
  | mk (w : Who) (o : Op) (p : Nat) (v : Vals) (y : Sync) : s.sync.started w = true →
      Prog s.vals w (s.pc w) o p v → s.sync.Can w o y → Step s w o ⟨upd s.pc w p, y, v⟩

/-- The process when it starts. (for cmds/houndd/main.go:150-160) -/
def start : St :=
  ⟨fun _ => 0, ⟨fun _ => none, fun _ _ => false, fun _ => 0, fun _ => 0, fun _ => false, fun w => decide (w = .main)⟩,
    ⟨0, 1, false, false, 0, 0, fun _ _ => 0⟩⟩

/-- What can happen: any interleaving of the goroutines. (for searcher/searcher.go:393-498) -/
inductive Run : Trace → St → Prop where
  | start : Run [] start
  | step {tr : Trace} {s t : St} {w : Who} {o : Op} : Run tr s → Step s w o t → Run (tr ++ [(w, o)]) t

end Race
end Hound
