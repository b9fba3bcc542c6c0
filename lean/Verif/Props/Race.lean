import Verif.Proofs.RaceProg
/-!
C100: goroutines do not access the same memory without coordination.

The property in full is `NoRaceFull`: whatever the schedule, no two goroutines race.  It does not hold: the request for the list of
excluded files reads which index is live without the lock (`excluded_race`), and the request to shut down is written after
the message that announces it (`shutdown_race`).  `races_exact` says that these two are all there are, for any number of requests,
searches and updates in any order.
-/

namespace Hound
namespace Race

/-- C100 in full. -/
def NoRaceFull : Prop := ∀ (tr : Trace) (s : St), Run tr s → ∀ (i j : Nat) (w u : Who) (x : Var), ¬ Races tr i j w u x

/-- The request `w` for the list of excluded files and the poller `u` access the live index. -/
def ExcludedRace (w u : Who) (x : Var) : Prop := x = .idx ∧ (∃ n, w = .request n) ∧ u = .poller
/-- `w` who announces the shutdown and the poller `u` access the flag. -/
def ShutdownRace (w u : Who) (x : Var) : Prop := x = .flag ∧ w = .stopper ∧ u = .poller

private theorem accesses {tr : Trace} {s : St} (h : Run tr s) {i : Nat} {w : Who} {x : Var}
    (hi : At tr i w (.write x) ∨ At tr i w (.read x)) :
    (x = .idx ∧ (w = .maker ∨ w = .poller ∨ (∃ n m, w = .search n m) ∨ ∃ n, w = .request n)) ∨
    (x = .flag ∧ (w = .maker ∨ w = .poller ∨ w = .stopper)) ∨
    (x = .mux ∧ (w = .main ∨ ∃ n, w = .request n)) ∨
    (∃ hd, x = .data hd ∧ (w = .maker ∨ w = .poller ∨ ∃ n m, w = .search n m)) := by
  rcases hi with hi | hi <;>
  · obtain ⟨s', t, _, h2⟩ := h.before hi
    cases h2 with
    | mk _ _ _ _ hP _ =>
      generalize s'.pc w = pc at hP
      cases hP <;> simp

private theorem writers {tr : Trace} {s : St} (h : Run tr s) {i : Nat} {w : Who} {x : Var}
    (hi : At tr i w (.write x)) : w = .maker ∨ (w = .poller ∧ x ≠ .flag ∧ x ≠ .mux) ∨ (w = .main ∧ x = .mux) ∨
      (w = .stopper ∧ x = .flag) := by
  obtain ⟨s', t, _, h2⟩ := h.before hi
  cases h2 with
  | mk _ _ _ _ hP _ =>
    generalize s'.pc w = pc at hP
    cases hP <;> simp

private theorem readers {tr : Trace} {s : St} (h : Run tr s) {i : Nat} {w : Who} {x : Var}
    (hi : At tr i w (.read x)) : (w = .poller ∧ (x = .idx ∨ x = .flag)) ∨ (∃ n, w = .request n ∧ (x = .idx ∨ x = .mux)) ∨
      (∃ n m, w = .search n m ∧ (x = .idx ∨ ∃ hd, x = .data hd)) := by
  obtain ⟨s', t, _, h2⟩ := h.before hi
  cases h2 with
  | mk _ _ _ _ hP _ =>
    generalize s'.pc w = pc at hP
    cases hP <;> simp

private theorem idx_held {tr : Trace} {s : St} (h : Run tr s) {i : Nat} (hi : At tr i .poller (.write .idx)) :
    HeldW tr .live .poller i := by
  obtain ⟨s', t, h1, h2⟩ := h.before hi
  cases h2 with
  | mk _ _ _ _ hP _ =>
    generalize hpc : s'.pc .poller = pc at hP
    cases hP; exact h1.pollLive (by omega) (by omega)

private theorem search_held {tr : Trace} {s : St} (h : Run tr s) {i n m : Nat} (hi : At tr i (.search n m) (.read .idx)) :
    HeldR tr .live (.search n m) i := by
  obtain ⟨s', t, h1, h2⟩ := h.before hi
  cases h2 with
  | mk _ _ _ _ hP _ =>
    generalize hpc : s'.pc (.search n m) = pc at hP
    cases hP; exact h1.searchLive n m (by omega) (by omega)

private theorem mux_held {tr : Trace} {s : St} (h : Run tr s) {i : Nat} (hi : At tr i .main (.write .mux)) :
    HeldW tr .web .main i := by
  obtain ⟨s', t, h1, h2⟩ := h.before hi
  cases h2 with
  | mk _ _ _ _ hP _ =>
    generalize hpc : s'.pc .main = pc at hP
    cases hP; exact h1.mainWeb (by omega) (by omega)

private theorem request_held {tr : Trace} {s : St} (h : Run tr s) {i n : Nat} (hi : At tr i (.request n) (.read .mux)) :
    HeldR tr .web (.request n) i := by
  obtain ⟨s', t, h1, h2⟩ := h.before hi
  cases h2 with
  | mk _ _ _ _ hP _ =>
    generalize hpc : s'.pc (.request n) = pc at hP
    cases hP; exact h1.requestWeb n (by omega) (by omega)

/-- A search reads an index that was made before it was made live. -/
private theorem data_held {tr : Trace} {s : St} (h : Run tr s) {i n m hd : Nat}
    (hi : At tr i (.search n m) (.read (.data hd))) : HeldR tr (.own hd) (.search n m) i ∧
      (hd = 0 ∨ ∃ b k j, b < k ∧ k < j ∧ j < i ∧ At tr b .poller (.write (.data hd)) ∧
        At tr k .poller (.write .idx) ∧ At tr j (.search n m) (.read .idx)) := by
  obtain ⟨s', t, h1, h2⟩ := h.before hi
  cases h2 with
  | mk _ _ _ _ hP _ =>
    generalize hpc : s'.pc (.search n m) = pc at hP
    cases hP
    refine ⟨h1.searchOwn n m (by omega) (by omega), ?_⟩
    rcases h1.usedMade n m (by omega) with h0 | ⟨b, k, j, h3, h4, h5, h6, h7⟩
    · exact .inl h0
    · exact .inr ⟨b, k, j, h3, h4, (At.take.1 h7).1, (At.take.1 h5).2, (At.take.1 h6).2, (At.take.1 h7).2⟩

/-- The poller makes an index with a new number, or closes one holding its lock. -/
private theorem poller_data {tr : Trace} {s : St} (h : Run tr s) {i hd : Nat}
    (hi : At tr i .poller (.write (.data hd))) : HeldW tr (.own hd) .poller i ∨
      (∃ s', Run (tr.take i) s' ∧ hd = s'.vals.next) := by
  obtain ⟨s', t, h1, h2⟩ := h.before hi
  cases h2 with
  | mk _ _ _ _ hP _ =>
    generalize hpc : s'.pc .poller = pc at hP
    cases hP
    · exact .inr ⟨s', h1, rfl⟩
    · exact .inl (h1.pollOld (by omega) (by omega))
    · exact .inl (h1.pollNew (by omega) (by omega))

/-- What the poller does to an index and what a search does with it are in order. -/
private theorem data_ordered {tr : Trace} {s : St} (h : Run tr s) {i j n m hd : Nat}
    (hi : At tr i .poller (.write (.data hd))) (hj : At tr j (.search n m) (.read (.data hd))) :
    Hb tr i j ∨ Hb tr j i := by
  obtain ⟨hr, hm⟩ := data_held h hj
  have hne : i ≠ j := fun e => by subst e; have := (hi.uniq hj).1; cases this
  rcases poller_data h hi with hw | ⟨s', h1, hnext⟩
  · by_cases hlt : i < j
    · exact .inl (h.write_read hi hj hw hr (by simp) hlt)
    · exact .inr (h.read_write hj hi hr hw (by simp) (by omega))
  · have hsm := h1.small
    by_cases hlt : i < j
    · rcases hm with h0 | ⟨b, k, j', h3, h4, h5, h6, h7, h8⟩
      · omega
      · have hib : i ≤ b := by
          apply Classical.byContradiction
          intro hc
          have := h1.dataSmall (.inl (At.take.2 ⟨by omega, h6⟩))
          omega
        exact .inl (.trans (.inside (by omega) hi h7) (.trans
          (h.write_read h7 h8 (idx_held h h7) (search_held h h8) (by simp) h4) (.inside h5 h8 hj)))
    · have := h1.dataSmall (.inr (At.take.2 ⟨by omega, hj⟩))
      omega

private theorem ordered {tr : Trace} {s : St} (h : Run tr s) {i j : Nat} {w u : Who} {x : Var} (hne : w ≠ u)
    (hi : At tr i w (.write x)) (hj : At tr j u (.write x) ∨ At tr j u (.read x)) :
    Hb tr i j ∨ Hb tr j i ∨ ExcludedRace u w x ∨ ShutdownRace w u x := by
  have hij : i ≠ j := fun e => by
    subst e
    rcases hj with hj | hj
    · exact hne (hi.uniq hj).1
    · exact hne (hi.uniq hj).1
  have hread : ∀ {u' : Who}, At tr j u' (.write x) ∨ At tr j u' (.read x) → ∃ o, At tr j u' o := by
    rintro u' (h | h)
    · exact ⟨_, h⟩
    · exact ⟨_, h⟩
  rcases writers h hi with rfl | ⟨rfl, hx1, hx2⟩ | ⟨rfl, rfl⟩ | ⟨rfl, rfl⟩
  · -- the maker
    rcases hj with hj | hj
    · rcases writers h hj with rfl | ⟨rfl, _, _⟩ | ⟨rfl, rfl⟩ | ⟨rfl, _⟩
      · exact absurd rfl hne
      · exact .inl (h.made hi hj (by simp))
      · rcases accesses h (.inl hi) with h' | h' | h' | h' <;> simp at h'
      · exact .inl (h.made hi hj (by simp))
    · rcases readers h hj with ⟨rfl, _⟩ | ⟨n, rfl, rfl | rfl⟩ | ⟨n, m, rfl, _⟩
      · exact .inl (h.made hi hj (by simp))
      · exact .inl (h.made hi hj (by simp))
      · rcases accesses h (.inl hi) with h' | h' | h' | h' <;> simp at h'
      · exact .inl (h.made hi hj (by simp))
  · -- the poller
    rcases hj with hj | hj
    · rcases writers h hj with rfl | ⟨rfl, _, _⟩ | ⟨rfl, rfl⟩ | ⟨rfl, rfl⟩
      · exact .inr (.inl (h.made hj hi (by simp)))
      · exact absurd rfl hne
      · exact absurd rfl hx2
      · exact absurd rfl hx1
    · rcases readers h hj with ⟨rfl, _⟩ | ⟨n, rfl, rfl | rfl⟩ | ⟨n, m, rfl, rfl | ⟨hd, rfl⟩⟩
      · exact absurd rfl hne
      · exact .inr (.inr (.inl ⟨rfl, ⟨n, rfl⟩, rfl⟩))
      · exact absurd rfl hx2
      · by_cases hlt : i < j
        · exact .inl (h.write_read hi hj (idx_held h hi) (search_held h hj) (by simp) hlt)
        · exact .inr (.inl (h.read_write hj hi (search_held h hj) (idx_held h hi) (by simp) (by omega)))
      · rcases data_ordered h hi hj with h' | h'
        · exact .inl h'
        · exact .inr (.inl h')
  · -- main
    rcases hj with hj | hj
    · rcases writers h hj with rfl | ⟨rfl, _, h'⟩ | ⟨rfl, _⟩ | ⟨_, h'⟩
      · rcases accesses h (.inl hj) with h' | h' | h' | h' <;> simp at h'
      · exact absurd rfl h'
      · exact absurd rfl hne
      · cases h'
    · rcases readers h hj with ⟨rfl, h' | h'⟩ | ⟨n, rfl, h' | _⟩ | ⟨n, m, rfl, h' | ⟨hd, h'⟩⟩
      · cases h'
      · cases h'
      · cases h'
      · by_cases hlt : i < j
        · exact .inl (h.write_read hi hj (mux_held h hi) (request_held h hj) (by simp) hlt)
        · exact .inr (.inl (h.read_write hj hi (request_held h hj) (mux_held h hi) (by simp) (by omega)))
      · cases h'
      · cases h'
  · -- who stops
    rcases hj with hj | hj
    · rcases writers h hj with rfl | ⟨rfl, h', _⟩ | ⟨_, h'⟩ | ⟨rfl, _⟩
      · exact .inr (.inl (h.made hj hi (by simp)))
      · exact absurd rfl h'
      · cases h'
      · exact absurd rfl hne
    · rcases readers h hj with ⟨rfl, _⟩ | ⟨n, rfl, h' | h'⟩ | ⟨n, m, rfl, h' | ⟨hd, h'⟩⟩
      · exact .inr (.inr (.inr ⟨rfl, rfl, rfl⟩))
      · cases h'
      · cases h'
      · cases h'
      · cases h'

/-- C100: whatever the schedule, however many requests, searches and updates there are, the only races are those between
the request for the list of excluded files and an update, and between the shutdown and the poller. -/
theorem races_exact (tr : Trace) (s : St) (h : Run tr s) (i j : Nat) (w u : Who) (x : Var)
    (hr : Races tr i j w u x) :
    ExcludedRace w u x ∨ ExcludedRace u w x ∨ ShutdownRace w u x ∨ ShutdownRace u w x := by
  obtain ⟨⟨hne, hc⟩, h1, h2⟩ := hr
  rcases hc with ⟨hi, hj⟩ | ⟨hi, hj⟩ | ⟨hi, hj⟩
  · rcases ordered h hne hi (.inl hj) with h' | h' | h' | h'
    · exact absurd h' h1
    · exact absurd h' h2
    · exact .inr (.inl h')
    · exact .inr (.inr (.inl h'))
  · rcases ordered h hne hi (.inr hj) with h' | h' | h' | h'
    · exact absurd h' h1
    · exact absurd h' h2
    · exact .inr (.inl h')
    · exact .inr (.inr (.inl h'))
  · rcases ordered h hne.symm hj (.inr hi) with h' | h' | h' | h'
    · exact absurd h' h2
    · exact absurd h' h1
    · exact .inl h'
    · exact .inr (.inr (.inr h'))

/-- C100, the part that holds: as long as nobody asks for the list of excluded files and the server is not shut down,
there is no race.  (The full statement is `NoRaceFull`.) -/
theorem no_race_partial (tr : Trace) (s : St) (h : Run tr s) (hex : ∀ i n, ¬ Reads tr i (.request n) .idx)
    (hsh : ∀ i, ¬ Writes tr i .stopper .flag) (i j : Nat) (w u : Who) (x : Var) : ¬ Races tr i j w u x := by
  intro hr
  have hc := hr.1.2
  have noW : ∀ k n, ¬ Writes tr k (.request n) .idx := fun k n hk => by
    rcases writers h hk with h' | ⟨h', _⟩ | ⟨h', _⟩ | ⟨h', _⟩ <;> cases h'
  have noR : ∀ k, ¬ Reads tr k .stopper .flag := fun k hk => by
    rcases readers h hk with ⟨h', _⟩ | ⟨n, h', _⟩ | ⟨n, m, h', _⟩ <;> cases h'
  rcases races_exact tr s h i j w u x hr with ⟨rfl, ⟨n, rfl⟩, rfl⟩ | ⟨rfl, ⟨n, rfl⟩, rfl⟩ | ⟨rfl, rfl, rfl⟩ |
    ⟨rfl, rfl, rfl⟩
  · rcases hc with ⟨a, _⟩ | ⟨a, _⟩ | ⟨a, _⟩
    · exact noW _ _ a
    · exact noW _ _ a
    · exact hex _ _ a
  · rcases hc with ⟨_, a⟩ | ⟨_, a⟩ | ⟨_, a⟩
    · exact noW _ _ a
    · exact hex _ _ a
    · exact noW _ _ a
  · rcases hc with ⟨a, _⟩ | ⟨a, _⟩ | ⟨a, _⟩
    · exact hsh _ a
    · exact hsh _ a
    · exact noR _ a
  · rcases hc with ⟨_, a⟩ | ⟨_, a⟩ | ⟨_, a⟩
    · exact hsh _ a
    · exact noR _ a
    · exact hsh _ a

/-- Searches never race with anything, whatever else is asked of the server. -/
theorem search_never_races (tr : Trace) (s : St) (h : Run tr s) (i j n m : Nat) (u : Who) (x : Var) :
    ¬ Races tr i j (.search n m) u x := by
  intro hr
  rcases races_exact tr s h i j _ u x hr with ⟨_, ⟨n', h'⟩, _⟩ | ⟨_, _, h'⟩ | ⟨_, h', _⟩ | ⟨_, _, h'⟩ <;> cases h'

/-- What is in an index is never read while it is being made or closed. -/
theorem index_never_races (tr : Trace) (s : St) (h : Run tr s) (i j hd : Nat) (w u : Who) :
    ¬ Races tr i j w u (.data hd) := by
  intro hr
  rcases races_exact tr s h i j w u _ hr with ⟨h', _⟩ | ⟨h', _⟩ | ⟨h', _⟩ | ⟨h', _⟩ <;> cases h'

/-! ## The two races -/

/-- Whether one event happens before another directly. -/
private def edge (tr : Trace) (a b : Nat) : Bool :=
  match tr[a]?, tr[b]? with
  | some (w, o), some (u, o') =>
    decide (w = u) || decide (o = .go u) ||
    match o, o' with
    | .unlock l, .lock l' => decide (l = l')
    | .unlock l, .rlock l' => decide (l = l')
    | .runlock l, .lock l' => decide (l = l')
    | .send c k, .recv c' k' => decide (c = c' ∧ k = k')
    | .recv c k, .send c' k' => decide (c = c' ∧ k' = k + cap c)
    | .close c, .recvClosed c' => decide (c = c')
    | _, _ => false
  | _, _ => false

/-- A set of events that contains everything that happens before its members. -/
private theorem Hb.within {tr : Trace} {i j : Nat} (h : Hb tr i j) (p : Nat → Bool)
    (hp : ∀ a, a < tr.length → ∀ b, b < tr.length → a < b → edge tr a b = true → p b = true → p a = true) :
    p j = true → p i = true := by
  have go : ∀ {a b : Nat} {w u : Who} {o o' : Op}, a < b → At tr a w o → At tr b u o' → edge tr a b = true →
      p b = true → p a = true := fun hab ha hb he => hp _ ha.lt _ hb.lt hab he
  induction h with
  | inside hl h1 h2 => exact go hl h1 h2 (by unfold At at h1 h2; simp [edge, h1, h2])
  | go hl h1 h2 => exact go hl h1 h2 (by unfold At at h1 h2; simp [edge, h1, h2])
  | lock hl h1 h2 => exact go hl h1 h2 (by unfold At at h1 h2; simp [edge, h1, h2])
  | rlock hl h1 h2 => exact go hl h1 h2 (by unfold At at h1 h2; simp [edge, h1, h2])
  | runlock hl h1 h2 => exact go hl h1 h2 (by unfold At at h1 h2; simp [edge, h1, h2])
  | send hl h1 h2 => exact go hl h1 h2 (by unfold At at h1 h2; simp [edge, h1, h2])
  | room hl h1 h2 => exact go hl h1 h2 (by unfold At at h1 h2; simp [edge, h1, h2])
  | close hl h1 h2 => exact go hl h1 h2 (by unfold At at h1 h2; simp [edge, h1, h2])
  | trans _ _ h1 h2 => exact fun hk => h1 (h2 hk)

private theorem Run.ext {tr : Trace} {s : St} {w : Who} {o : Op} {p : Nat} {v : Vals} {y : Sync} (h : Run tr s)
    (a : s.sync.started w = true) (b : Prog s.vals w (s.pc w) o p v) (c : s.sync.Can w o y) :
    Run (tr ++ [(w, o)]) ⟨upd s.pc w p, y, v⟩ := .step h (.mk w o p v y a b c)

/-- The server starts; its repository has changed, and the new index is about to be made live. -/
def begun : Trace :=
  [(.main, .go .server), (.main, .go .maker), (.maker, .write (.data 0)), (.maker, .write .idx), (.maker, .write .flag),
   (.maker, .go .poller), (.maker, .send .result 0), (.main, .recv .result 0), (.main, .send .update 0),
   (.main, .go .stopper), (.main, .lock .web), (.main, .write .mux), (.main, .unlock .web),
   (.poller, .recv .update 0), (.poller, .other), (.poller, .other)]

/-- A request for the list of excluded files comes in at that moment. -/
def excludedTrace : Trace := begun ++
  [(.poller, .read .flag), (.poller, .write (.data 1)), (.poller, .lock .live), (.poller, .read .idx),
   (.server, .go (.request 0)), (.request 0, .rlock .web), (.request 0, .read .mux), (.request 0, .read .idx),
   (.poller, .write .idx)]

/-- The server is shut down when the poller has just woken up. -/
def shutdownTrace : Trace := begun ++
  [(.stopper, .other), (.stopper, .send .shutdown 0), (.stopper, .write .flag), (.poller, .read .flag)]

/-- Nobody asks for the list of excluded files: a search, and then the update. -/
def quietTrace : Trace := begun ++
  [(.server, .go (.request 0)), (.request 0, .rlock .web), (.request 0, .read .mux), (.request 0, .go (.search 0 0)),
   (.search 0 0, .rlock .live), (.search 0 0, .read .idx), (.search 0 0, .rlock (.own 0)),
   (.search 0 0, .read (.data 0)), (.search 0 0, .runlock (.own 0)), (.search 0 0, .runlock .live),
   (.poller, .read .flag), (.poller, .write (.data 1)), (.poller, .lock .live), (.poller, .read .idx),
   (.poller, .write .idx), (.poller, .lock (.own 0)), (.poller, .write (.data 0))]

theorem excluded_runs : ∃ s, Run excludedTrace s := by
  have h := Run.start
  have h := h.ext rfl .main0 (.go _ rfl)
  have h := h.ext rfl .main1 (.go _ rfl)
  have h := h.ext rfl .maker0 (.write _)
  have h := h.ext rfl .maker1 (.write _)
  have h := h.ext rfl .maker2 (.write _)
  have h := h.ext rfl .maker3 (.go _ rfl)
  have h := h.ext rfl (.maker4 0) (.send _ (by decide))
  have h := h.ext rfl (.main2 0) (.recv _ (by decide))
  have h := h.ext rfl (.main3 0) (.send _ (by decide))
  have h := h.ext rfl .main4 (.go _ rfl)
  have h := h.ext rfl .main5 (.lock _ rfl (fun _ => rfl))
  have h := h.ext rfl .main6 (.write _)
  have h := h.ext rfl .main7 (.unlock _ rfl)
  have h := h.ext rfl (.poller0 0) (.recv _ (by decide))
  have h := h.ext rfl .poller1 .other
  have h := h.ext rfl .pollerTimer .other
  have h := h.ext rfl .poller3 (.read _)
  have h := h.ext rfl .pollerBuild (.write _)
  have h := h.ext rfl .poller6 (.lock _ rfl (fun _ => rfl))
  have h := h.ext rfl .poller7 (.read _)
  have h := h.ext rfl (.server0 0) (.go _ rfl)
  have h := h.ext rfl (.request0 0) (.rlock _ rfl)
  have h := h.ext rfl (.request1 0) (.read _)
  have h := h.ext rfl (.requestExcluded 0) (.read _)
  have h := h.ext rfl .poller8 (.write _)
  exact ⟨_, h⟩

theorem shutdown_runs : ∃ s, Run shutdownTrace s := by
  have h := Run.start
  have h := h.ext rfl .main0 (.go _ rfl)
  have h := h.ext rfl .main1 (.go _ rfl)
  have h := h.ext rfl .maker0 (.write _)
  have h := h.ext rfl .maker1 (.write _)
  have h := h.ext rfl .maker2 (.write _)
  have h := h.ext rfl .maker3 (.go _ rfl)
  have h := h.ext rfl (.maker4 0) (.send _ (by decide))
  have h := h.ext rfl (.main2 0) (.recv _ (by decide))
  have h := h.ext rfl (.main3 0) (.send _ (by decide))
  have h := h.ext rfl .main4 (.go _ rfl)
  have h := h.ext rfl .main5 (.lock _ rfl (fun _ => rfl))
  have h := h.ext rfl .main6 (.write _)
  have h := h.ext rfl .main7 (.unlock _ rfl)
  have h := h.ext rfl (.poller0 0) (.recv _ (by decide))
  have h := h.ext rfl .poller1 .other
  have h := h.ext rfl .pollerTimer .other
  have h := h.ext rfl .stopper0 .other
  have h := h.ext rfl (.stopper1 0) (.send _ (by decide))
  have h := h.ext rfl .stopper2 (.write _)
  have h := h.ext rfl .poller3 (.read _)
  exact ⟨_, h⟩

theorem quiet_runs : ∃ s, Run quietTrace s := by
  have h := Run.start
  have h := h.ext rfl .main0 (.go _ rfl)
  have h := h.ext rfl .main1 (.go _ rfl)
  have h := h.ext rfl .maker0 (.write _)
  have h := h.ext rfl .maker1 (.write _)
  have h := h.ext rfl .maker2 (.write _)
  have h := h.ext rfl .maker3 (.go _ rfl)
  have h := h.ext rfl (.maker4 0) (.send _ (by decide))
  have h := h.ext rfl (.main2 0) (.recv _ (by decide))
  have h := h.ext rfl (.main3 0) (.send _ (by decide))
  have h := h.ext rfl .main4 (.go _ rfl)
  have h := h.ext rfl .main5 (.lock _ rfl (fun _ => rfl))
  have h := h.ext rfl .main6 (.write _)
  have h := h.ext rfl .main7 (.unlock _ rfl)
  have h := h.ext rfl (.poller0 0) (.recv _ (by decide))
  have h := h.ext rfl .poller1 .other
  have h := h.ext rfl .pollerTimer .other
  have h := h.ext rfl (.server0 0) (.go _ rfl)
  have h := h.ext rfl (.request0 0) (.rlock _ rfl)
  have h := h.ext rfl (.request1 0) (.read _)
  have h := h.ext rfl (.requestSearch 0 0) (.go _ rfl)
  have h := h.ext rfl (.search0 0 0) (.rlock _ rfl)
  have h := h.ext rfl (.search1 0 0) (.read _)
  have h := h.ext rfl (.search2 0 0) (.rlock _ rfl)
  have h := h.ext rfl (.search3 0 0) (.read _)
  have h := h.ext rfl (.search4 0 0) (.runlock _ rfl)
  have h := h.ext rfl (.search5 0 0) (.runlock _ rfl)
  have h := h.ext rfl .poller3 (.read _)
  have h := h.ext rfl .pollerBuild (.write _)
  have h := h.ext rfl .poller6 (.lock _ rfl (fun u => by simp [upd, Race.start]))
  have h := h.ext rfl .poller7 (.read _)
  have h := h.ext rfl .poller8 (.write _)
  have h := h.ext rfl .poller9 (.lock _ rfl (fun u => by simp [upd, Race.start]))
  have h := h.ext rfl .poller10 (.write _)
  exact ⟨_, h⟩

/-- The goroutines that start the server and poll the repository. -/
private def mine (tr : Trace) (i : Nat) : Bool :=
  match tr[i]? with
  | some (w, _) => decide (w = .main ∨ w = .maker ∨ w = .poller)
  | none => false

/-- The request for the list of excluded files reads which index is live while an update writes it. -/
theorem excluded_race : Races excludedTrace 23 24 (.request 0) .poller .idx := by
  refine ⟨⟨by decide, .inr (.inr ⟨rfl, rfl⟩)⟩, fun h => ?_, fun h => by have := h.lt; omega⟩
  have := h.within (mine excludedTrace) (by decide +kernel) (by decide)
  exact absurd this (by decide)

/-- The flag is written after the message that announces the shutdown; the poller may read it at that moment. -/
theorem shutdown_race : Races shutdownTrace 18 19 .stopper .poller .flag := by
  refine ⟨⟨by decide, .inr (.inl ⟨rfl, rfl⟩)⟩, fun h => ?_, fun h => by have := h.lt; omega⟩
  have := h.within (mine shutdownTrace) (by decide +kernel) (by decide)
  exact absurd this (by decide)

/-- C100 does not hold in full. -/
theorem not_noRaceFull : ¬ NoRaceFull := fun h => by
  obtain ⟨s, hs⟩ := excluded_runs
  exact h _ s hs _ _ _ _ _ excluded_race

/-- The update in which a search was under way meets the hypotheses of `no_race_partial`: the search has read index 0,
the update then closes it, and the first happens before the second. -/
example : (∃ s, Run quietTrace s) ∧ (∀ i n, ¬ Reads quietTrace i (.request n) .idx) ∧
    (∀ i, ¬ Writes quietTrace i .stopper .flag) ∧
    Conflict quietTrace 23 32 (.search 0 0) .poller (.data 0) ∧ Hb quietTrace 23 32 := by
  have e1 : Reads quietTrace 23 (.search 0 0) (.data 0) := rfl
  have e2 : Writes quietTrace 32 .poller (.data 0) := rfl
  refine ⟨quiet_runs, fun i n h => ?_, fun i h => ?_, ⟨by decide, .inr (.inr ⟨e1, e2⟩)⟩, ?_⟩
  · have hm : (Who.request n, Op.read .idx) ∈ quietTrace := List.mem_of_getElem? h
    simp [quietTrace, begun] at hm
  · have hm : (Who.stopper, Op.write .flag) ∈ quietTrace := List.mem_of_getElem? h
    simp [quietTrace, begun] at hm
  · exact .trans (.inside (j := 24) (by decide) e1 rfl)
      (.trans (.runlock (j := 31) (w := .search 0 0) (l := .own 0) (by decide) rfl rfl) (.inside (by decide) rfl e2))

end Race
end Hound
