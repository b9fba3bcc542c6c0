import Verif.Props.Fair

/-!
# C97: histories that meet the hypotheses, and histories in which a promise is broken
-/

namespace Hound.Fair
open Spec
open Sr (Cfg PC)

/-! ## Fairness of histories made from pieces -/

theorem moves_often {σ ε : Type} {Step : σ → ε → σ → Prop} {own : ε → Prop} {st : Nat → σ} {ev : Nat → Option ε} {e : ε} (ho : own e)
    (h : ∀ n, ∃ m, n ≤ m ∧ ev m = some e) : Moves Step own st ev := fun n _ => by
  obtain ⟨m, hm, he⟩ := h n
  exact ⟨m, hm, e, he, ho⟩

theorem moves_rest {σ ε : Type} {Step : σ → ε → σ → Prop} {own : ε → Prop} {st : Nat → σ} {ev : Nat → Option ε} {t : σ} {N : Nat}
    (hr : ∀ n, N ≤ n → st n = t) (hno : ∀ e u, own e → ¬ Step t e u) : Moves Step own st ev := fun n h => by
  obtain ⟨e, u, h1, h2⟩ := h (max n N) (by omega)
  rw [hr _ (by omega)] at h2
  exact absurd h2 (hno e u h1)

theorem ends_often {over : Nat → Prop} {st : Nat → Sr.St} {t : Sr.St} (ht : t.searches = []) (h : ∀ n, ∃ m, n ≤ m ∧ st m = t) :
    SearchesEnd over st := fun n i x _ => by
  obtain ⟨m, hm, he⟩ := h n
  exact ⟨m, hm, Or.inl fun y => by rw [he, ht]; simp⟩

theorem rest_often {σ : Type} {st : Nat → σ} {t : σ} {N : Nat} (hr : ∀ n, N ≤ n → st n = t) : ∀ n, ∃ m, n ≤ m ∧ st m = t :=
  fun n => ⟨max n N, by omega, hr _ (by omega)⟩

theorem writers_none {st : Nat → Sr.St} {ev : Nat → Option Sr.Ev} (h : ∀ n i, ev n ≠ some (.searchStart i) ∧ ev n ≠ some (.searchRead i)) :
    WritersFirst st ev := fun n i => ⟨fun he => absurd he (h n i).1, fun he => absurd he (h n i).2⟩

/-! ## A repository that changes once, is polled and searched for ever -/

/-- The repository polls and takes requests. -/
def both : Cfg := ⟨true, true, true⟩

/-- A step in which writers go first. -/
def Good (s : Cur.St Nat) (e : Cur.Ev) (t : Cur.St Nat) : Prop :=
  Cur.Step both id s e t ∧ (∀ i, e = .sr (.searchStart i) → ∀ k, s.sr.pc ≠ .swapping k) ∧ ∀ i, e = .sr (.searchRead i) → s.sr.pc ≠ .undo s.sr.live

theorem good_other (s : Cur.St Nat) {e : Sr.Ev} {t : Sr.St} (h : Sr.Step both s.sr e t) (h1 : e ≠ .check := by simp)
    (h2 : ∀ x, e ≠ .pulled x := by simp) (h3 : e ≠ .built true := by simp) (h4 : ∀ k, s.sr.pc ≠ .swapping k := by simp)
    (h5 : ∀ i, e = .searchRead i → s.sr.pc ≠ .undo s.sr.live := by simp) : Good s (.sr e) { s with sr := t } :=
  ⟨.other s e t h h1 h2 h3, fun _ _ => h4, fun i hi => h5 i (by simpa using hi)⟩

theorem good_plain {s t : Cur.St Nat} {e : Cur.Ev} (h : Cur.Step both id s e t) (h1 : ∀ i, e ≠ .sr (.searchStart i) := by simp)
    (h2 : ∀ i, e ≠ .sr (.searchRead i) := by simp) : Good s e t := ⟨h, fun i hi => absurd hi (h1 i), fun i hi => absurd hi (h2 i)⟩

def firstIndex : Cur.St Nat := ⟨Sr.St.init 7, 7, none, 0, fun _ => 7⟩

def firstEvents : List Cur.Ev :=
  [.sr .begin, .sr .gate, .sr .enter, .changed 8, .sr .wake, .sr .goOn, .sr .check, .fetched 8, .sr (.pulled (some 8)), .sr (.built true),
    .sr .swapLock, .sr (.destroyed true), .sr .release]

/-- The index of revision 8 is live. -/
def secondIndex : Cur.St Nat where
  sr := { Sr.St.init 7 with
    begun := true, pc := .waiting, rev := 8, count := 2, live := 1,
    handles := Sr.setHandle { Sr.St.init 7 with handles := Sr.setHandle (Sr.St.init 7) 1 ⟨8, true, true⟩ } 0 ⟨7, false, false⟩ }
  upstream := 8
  fetched := some 8
  copy := 8
  files := fun h => if h = 1 then 8 else 7

def againEvents : List Cur.Ev :=
  [.sr (.searchStart 1), .sr (.searchRead 1), .sr (.searchEnd 1 8 1), .sr .updateAccepted, .sr .wake, .sr .goOn, .sr .check, .fetched 8,
    .sr (.pulled (some 8)), .sr .release]

theorem first_path : Path Good firstIndex firstEvents secondIndex :=
  .cons (good_other firstIndex (.begin _ rfl rfl) (h4 := by simp [firstIndex, Sr.St.init])) <|
  .cons (good_other _ (.gate _ rfl rfl) (h4 := by simp [firstIndex, Sr.St.init])) <|
  .cons (good_other _ (.enter _ rfl (Or.inl rfl))) <|
  .cons (good_plain (.changed _ 8)) <|
  .cons (good_other _ (.wakeTimer _ rfl rfl)) <|
  .cons (good_other _ (.goOn _ rfl rfl)) <|
  .cons (good_plain (.check _ _ (.check _ rfl))) <|
  .cons (good_plain (.fetched _ rfl rfl)) <|
  .cons (good_plain (.pulled _ 8 _ (.pullNew _ 8 rfl (by decide)) rfl)) <|
  .cons (good_plain (.built _ _ (.buildOk _ 8 rfl))) <|
  .cons (good_plain (.other _ .swapLock _ (.swapLock _ 1 rfl rfl) (by simp) (by simp) (by simp))) <|
  .cons (good_other _ (.destroyed _ 0 1 true _ rfl (.ok _ rfl))) <|
  .cons (good_other _ (.release _ _ rfl)) (.nil _)

theorem again_path : Path Good secondIndex againEvents secondIndex :=
  .cons (good_other secondIndex (.searchStart _ 1 rfl rfl (by simp [secondIndex, Sr.St.init])) (h4 := by simp [secondIndex])) <|
  .cons (good_other _ (.searchRead _ 1 List.mem_cons_self) (h4 := by simp [secondIndex]) (h5 := by simp [secondIndex])) <|
  .cons (good_other _ (.searchEnd _ 1 1 List.mem_cons_self) (h4 := by simp [secondIndex])) <|
  .cons (good_other _ (.updateAccepted _ rfl rfl) (h4 := by simp [secondIndex])) <|
  .cons (good_other _ (.wakeUpdate _ rfl rfl) (h4 := by simp [secondIndex])) <|
  .cons (good_other _ (.goOn _ rfl rfl)) <|
  .cons (good_plain (.check _ _ (.check _ rfl))) <|
  .cons (good_plain (.fetched _ rfl rfl)) <|
  .cons (good_plain (.pulled _ 8 _ (.pullSame _ rfl) rfl)) <|
  .cons (good_other _ (.release _ _ rfl)) (.nil _)

/-- The hypotheses of `last_revision_shown` and `requested_revision_shown` are met by a history in which the repository is changed to revision 8
at moment 3, and in which there are checks, requests and searches for ever. -/
theorem fair_case : ∃ st ev, History (Cur.Step both id) st ev ∧ Cur.Start id 7 (st 0) ∧ FairRepo both id st ev ∧ both.timer = true ∧
    ev 0 = some (.sr .begin) ∧ ev 2 = some (.sr .enter) ∧ (∀ m e, ev m = some (.sr e) → e.stop = false) ∧
    (∀ m, ev m ≠ some (.sr (.destroyed false))) ∧ CalmFrom ev 4 ∧ (st 4).upstream = 8 ∧
    (∀ n, ∃ m, n ≤ m ∧ ev m = some (.sr .updateAccepted)) ∧
    (∀ n, ∃ m, n ≤ m ∧ ev m = some (.sr (.searchStart 1)) ∧ ev (m + 1) = some (.sr (.searchRead 1)) ∧ ev (m + 2) = some (.sr (.searchEnd 1 8 1))) ∧
    (∀ n, ∃ m, n ≤ m ∧ ev m = some (.sr .check)) := by
  obtain ⟨st, ev, h1, h2, h3, h4, h5, h6, h7, h8⟩ := lasso first_path again_path (by decide)
  have hall : ∀ n e, ev n = some e → e ∈ firstEvents ++ againEvents := fun n e he => by
    by_cases hn : n < firstEvents.length
    · rw [h3 n hn] at he
      exact List.mem_append_left _ (List.mem_of_getElem? he)
    · exact List.mem_append_right _ (h4 n (Nat.not_lt.1 hn) e he)
  have hist : History (Cur.Step both id) st ev := fun n => by
    have := h1 n
    split <;> simp_all [Good]
  have hcalm : CalmFrom ev 4 := fun m hm e he => by
    have hin : e ∈ firstEvents.drop 4 ++ againEvents := by
      by_cases hn : m < firstEvents.length
      · rw [h3 m hn] at he
        refine List.mem_append_left _ (List.mem_of_getElem? (i := m - 4) ?_)
        rw [List.getElem?_drop, show 4 + (m - 4) = m by omega]
        exact he
      · exact List.mem_append_right _ (h4 m (Nat.not_lt.1 hn) e he)
    simp only [firstEvents, againEvents, List.drop_succ_cons, List.drop_zero, List.cons_append, List.nil_append, List.mem_cons, List.not_mem_nil, or_false] at hin
    intro x hx
    rw [List.mem_singleton] at hx
    subst hx
    rcases hin with h | h | h | h | h | h | h | h | h | h | h | h | h | h | h | h | h | h | h <;> subst h <;> simp [Sr.Ev.stop]
  refine ⟨st, ev, hist, ?_, ⟨?_, ?_, ?_⟩, rfl, h3 0 (by decide), h3 2 (by decide), ?_, ?_, hcalm, ?_, ?_, ?_, ?_⟩
  · rw [h2]; exact ⟨rfl, rfl, fun _ => rfl⟩
  · exact moves_often (e := .sr .wake) rfl fun n => h5 n _ (by simp [againEvents])
  · refine ends_often (t := secondIndex.sr) rfl fun n => ?_
    obtain ⟨m, hm, he⟩ := h6 n
    exact ⟨m, hm, by rw [he]⟩
  · intro n i
    have key : ∀ x, atSearcher ev n = some x → ev n = some (.sr x) := fun x hx => by
      unfold atSearcher at hx
      split at hx
      · next y hy => rw [hy, Option.some.inj hx]
      · simp at hx
    constructor
    · intro he
      exact (step_of h1 (key _ he)).2.1 i rfl
    · intro he
      exact (step_of h1 (key _ he)).2.2 i rfl
  · intro m e he
    have := hall m _ he
    simp only [firstEvents, againEvents, List.cons_append, List.nil_append, List.mem_cons, List.not_mem_nil, or_false, Cur.Ev.sr.injEq, reduceCtorEq, false_or] at this
    rcases this with h | h | h | h | h | h | h | h | h | h | h | h | h | h | h | h | h | h | h | h <;> subst h <;> rfl
  · intro m he
    have := hall m _ he
    simp [firstEvents, againEvents] at this
  · have hu := cur_exec hist 4 (firstEvents.length - 4)
    have := (Cur.fetched_upstream hu fun r hr => by
      obtain ⟨j, k1, _, ke⟩ := mem_seg.1 hr
      exact (hcalm j k1 _ ke _ (List.mem_singleton.2 rfl)).1 r rfl).1
    rw [show 4 + (firstEvents.length - 4) = firstEvents.length from rfl, h7] at this
    exact this.symm
  · exact fun n => h5 n _ (by simp [againEvents])
  · intro n
    obtain ⟨m, hm, hk⟩ := h8 n
    exact ⟨m, hm, hk 0 (by decide), hk 1 (by decide), hk 2 (by decide)⟩
  · exact fun n => h5 n _ (by simp [againEvents])

/-- In it, every search is answered from the files of revision 8 from some moment on. -/
example : ∃ st ev, History (Cur.Step both id) st ev ∧ (∀ n, ∃ m, n ≤ m ∧ ev m = some (.sr (.searchEnd 1 8 1))) ∧
    (∃ m, 4 ≤ m ∧ ShowsFrom id st ev m 8) ∧ ∀ n, ∃ m, n ≤ m ∧ ev m = some (.sr .updateAccepted) ∧ ∃ k, m ≤ k ∧ ShowsFrom id st ev k (st m).upstream := by
  obtain ⟨st, ev, h1, h2, h3, h4, h5, h6, h7, h8, h9, h10, h11, h12, h13⟩ := fair_case
  refine ⟨st, ev, h1, fun n => (h12 n).elim fun m hm => ⟨m + 2, by omega, hm.2.2.2⟩, ?_, fun n => ?_⟩
  · rw [← h10]
    exact last_revision_shown h1 h2 h3 h4 ⟨0, h5⟩ h7 h8 h9
  · obtain ⟨m, hm, he⟩ := h11 (max n 4)
    exact ⟨m, by omega, he, requested_revision_shown h1 h2 h3 h7 h8 he ⟨2, by omega, h6⟩ fun k hk => h9 k (by omega)⟩

/-- Its searcher meets the hypotheses of `checked_forever` and `request_served`. -/
example : ∃ st ev, History (Sr.Step both) st ev ∧ st 0 = .init 7 ∧ FairSearcher both st ev ∧ (∃ m, ev m = some .begin) ∧
    (∀ m e, ev m = some e → e.stop = false) ∧ (∃ n, ev n = some .updateAccepted ∧ ∃ m, m < n ∧ ev m = some .enter) := by
  obtain ⟨st, ev, h1, h2, h3, h4, h5, h6, h7, h8, h9, h10, h11, h12, h13⟩ := fair_case
  have key : ∀ n x, atSearcher ev n = some x → ev n = some (.sr x) := fun n x hx => by
    unfold atSearcher at hx
    split at hx
    · next y hy => rw [hy, Option.some.inj hx]
    · simp at hx
  have key' : ∀ n x, ev n = some (.sr x) → atSearcher ev n = some x := fun n x hx => by simp [atSearcher, hx]
  obtain ⟨n, hn, hu⟩ := h11 3
  refine ⟨_, _, sr_history h1, h2.1, ⟨?_, h3.ends, h3.writers⟩, ⟨0, key' _ _ h5⟩, fun m e he => h7 m e (key m e he), n, key' _ _ hu, 2, by omega, key' _ _ h6⟩
  refine moves_often (e := .check) rfl fun n => ?_
  obtain ⟨m, hm, he⟩ := h13 n
  exact ⟨m, hm, key' _ _ he⟩

/-! ## One searcher, finite histories -/

theorem sr_path {c : Cfg} {s t : Sr.St} {es : List Sr.Ev} (h : Sr.Exec c s es t) : Path (Sr.Step c) s es t := by
  induction h with
  | nil s => exact .nil s
  | cons h1 _ ih => exact .cons h1 ih

/-- A piece without searches, after which the goroutine can do nothing, makes a fair history. -/
theorem fair_rest {c : Cfg} {s t : Sr.St} {es : List Sr.Ev} (h : Sr.Exec c s es t) (ht : t.searches = [])
    (hno : ∀ e u, e.poller = true → ¬ Sr.Step c t e u) (hs : ∀ i, Sr.Ev.searchStart i ∉ es ∧ Sr.Ev.searchRead i ∉ es) :
    ∃ st, History (Sr.Step c) st (fun n => es[n]?) ∧ st 0 = s ∧ FairSearcher c st (fun n => es[n]?) ∧ ∀ n, es.length ≤ n → st n = t := by
  obtain ⟨st, h1, h2, h3⟩ := rest (sr_path h)
  refine ⟨st, h1, h2, ⟨moves_rest h3 hno, ends_often ht (rest_often h3), writers_none fun n i => ?_⟩, h3⟩
  exact ⟨fun he => (hs i).1 (List.mem_of_getElem? he), fun he => (hs i).2 (List.mem_of_getElem? he)⟩

/-- The hypotheses of `stop_ends` are met. -/
example : ∃ st ev, History (Sr.Step both) st ev ∧ st 0 = .init 7 ∧ FairSearcher both st ev ∧ ev 4 = some .stopReturn := by
  have hx : ∃ t, Sr.Exec both (.init 7) [.begin, .gate, .enter, .stopSend, .stopReturn, .wake, .finished] t ∧ t.pc = .done ∧ t.searches = [] :=
    ⟨_, .cons (.begin _ rfl rfl) <| .cons (.gate _ rfl rfl) <| .cons (.enter _ rfl (Or.inl rfl)) <| .cons (.stopSend _ rfl rfl) <|
      .cons (.stopReturn _ Nat.one_pos) <| .cons (.wakeStop _ rfl rfl) <| .cons (.finish _ rfl rfl) (.nil _), rfl, rfl⟩
  obtain ⟨t, hx, ht, hs⟩ := hx
  obtain ⟨st, h1, h2, h3, _⟩ := fair_rest hx hs (fun e u hp hst => by cases hst <;> simp_all [Sr.Ev.poller]) (by simp)
  exact ⟨st, _, h1, h2, h3, rfl⟩

/-- **C97** for requests without the condition that the searcher had begun to wait. -/
def ServedFull : Prop :=
  ∀ (c : Cfg) (rev : Nat) (st : Nat → Sr.St) (ev : Nat → Option Sr.Ev), History (Sr.Step c) st ev → st 0 = .init rev → FairSearcher c st ev →
    (∀ m e, ev m = some e → e.stop = false) → ∀ n, ev n = some .updateAccepted → ∃ m, n < m ∧ ev m = some .check

/-- It is false of the program, however fair the scheduler: the request is taken for the start signal, and no check is ever made. -/
theorem not_servedFull : ¬ ServedFull := by
  intro hf
  have hx : ∃ t, Sr.Exec Sr.pushOnly (.init 7) [.begin, .updateAccepted, .gate, .enter] t ∧ t.pc = .waiting ∧ t.updateCh = false ∧
      t.shutdownCh = false ∧ t.searches = [] :=
    ⟨_, .cons (.begin _ rfl rfl) <| .cons (.updateAccepted _ rfl rfl) <| .cons (.gate _ rfl rfl) <|
      .cons (.enter _ rfl (Or.inr rfl)) (.nil _), rfl, rfl, rfl, rfl⟩
  obtain ⟨t, hx, ht, hu, hc, hs⟩ := hx
  obtain ⟨st, h1, h2, h3, _⟩ := fair_rest hx hs (fun e u hp hst => by cases hst <;> simp_all [Sr.Ev.poller, Cfg.timer, Sr.pushOnly]) (by simp)
  obtain ⟨m, hm, he⟩ := hf Sr.pushOnly 7 st _ h1 h2 h3 (fun m e he => by
    have := List.mem_of_getElem? he
    simp only [List.mem_cons, List.not_mem_nil, or_false] at this
    rcases this with h | h | h | h <;> subst h <;> rfl) 1 rfl
  have := List.mem_of_getElem? he
  simp at this

/-! ## The server -/

/-- Two searchers in these states, and where the ending goroutine stands. -/
def pair (a b : Sr.St) (chan : Bool) (pc : Down.DPC) : Down.St := ⟨fun j => if j = 0 then a else if j = 1 then b else .init 7, chan, pc⟩

theorem set0 {a b a' : Sr.St} {chan : Bool} {pc : Down.DPC} : Down.setSr (pair a b chan pc) 0 a' = (pair a' b chan pc).srs := by
  funext j
  by_cases h : j = 0 <;> simp [Down.setSr, pair, h]

theorem set1 {a b b' : Sr.St} {chan : Bool} {pc : Down.DPC} : Down.setSr (pair a b chan pc) 1 b' = (pair a b' chan pc).srs := by
  funext j
  by_cases h : j = 1
  · subst h; simp [Down.setSr, pair]
  · simp [Down.setSr, pair, h]

/-- Two repositories, both polling; one may be checked at a time. -/
def two (c : Cfg) : Down.Site := ⟨2, fun _ => c, fun _ => 7, 1⟩

theorem pair0 {c : Cfg} {a b a' : Sr.St} {chan : Bool} {pc : Down.DPC} {e : Sr.Ev} (h : Sr.Step c a e a') (hne : pc ≠ .exited) (hs : e.stop = false)
    (hb : e = .begin → pc = .absent) (hc : e = .check → Down.holdsToken a.pc = false ∧ Down.holdsToken b.pc = false) :
    Down.Step (two c) (pair a b chan pc) (.own 0 e) (pair a' b chan pc) := by
  have := Down.Step.own (w := two c) (pair a b chan pc) 0 e a' hne Nat.zero_lt_two hs hb (fun hh => by
    obtain ⟨h1, h2⟩ := hc hh
    simp [Down.St.used, two, List.range_succ, pair, h1, h2]) h
  rw [set0] at this
  exact this

theorem pair1 {c : Cfg} {a b b' : Sr.St} {chan : Bool} {pc : Down.DPC} {e : Sr.Ev} (h : Sr.Step c b e b') (hne : pc ≠ .exited) (hs : e.stop = false)
    (hb : e = .begin → pc = .absent) (hc : e = .check → Down.holdsToken a.pc = false ∧ Down.holdsToken b.pc = false) :
    Down.Step (two c) (pair a b chan pc) (.own 1 e) (pair a b' chan pc) := by
  have := Down.Step.own (w := two c) (pair a b chan pc) 1 e b' hne Nat.one_lt_two hs hb (fun hh => by
    obtain ⟨h1, h2⟩ := hc hh
    simp [Down.St.used, two, List.range_succ, pair, h1, h2]) h
  rw [set1] at this
  exact this

def begun : Sr.St := { Sr.St.init 7 with begun := true, updateCh := true }
def idle (pc : PC) : Sr.St := { Sr.St.init 7 with begun := true, pc := pc }

theorem init_pair (c : Cfg) : Down.St.init (two c) = pair (.init 7) (.init 7) false .absent := by
  simp only [Down.St.init, pair, Down.St.mk.injEq, and_true]
  funext j
  by_cases h : j = 0 <;> by_cases h' : j = 1 <;> simp [h, h', two]

def loadEvents : List Down.Ev := [.own 0 .begin, .own 1 .begin, .own 0 .gate, .own 0 .enter, .own 1 .gate, .own 1 .enter, .handle]

theorem load_path (c : Cfg) (hc : c.poll = true ∨ c.push = true) :
    Path (Down.Step (two c)) (Down.St.init (two c)) loadEvents (pair (idle .waiting) (idle .waiting) false .listening) := by
  rw [init_pair]
  refine .cons (pair0 (a' := begun) (.begin _ rfl rfl) (by simp) rfl (by simp) (by simp)) ?_
  refine .cons (pair1 (b' := begun) (.begin _ rfl rfl) (by simp) rfl (by simp) (by simp)) ?_
  refine .cons (pair0 (a' := idle .gated) (.gate _ rfl rfl) (by simp) rfl (by simp) (by simp)) ?_
  refine .cons (pair0 (a' := idle .waiting) (.enter _ rfl hc) (by simp) rfl (by simp) (by simp)) ?_
  refine .cons (pair1 (b' := idle .gated) (.gate _ rfl rfl) (by simp) rfl (by simp) (by simp)) ?_
  refine .cons (pair1 (b' := idle .waiting) (.enter _ rfl hc) (by simp) rfl (by simp) (by simp)) ?_
  refine .cons (.handle _ rfl fun i _ => ?_) (.nil _)
  have hi : i < 2 := by assumption
  rcases (show i = 0 ∨ i = 1 by omega) with rfl | rfl <;> rfl

def roundEvents : List Down.Ev :=
  [.own 0 .wake, .own 1 .wake, .own 0 .goOn, .own 1 .goOn, .own 0 .check, .own 0 (.pulled (some 7)), .own 0 .release,
    .own 1 .check, .own 1 (.pulled (some 7)), .own 1 .release]

theorem round_path : Path (Down.Step (two both)) (pair (idle .waiting) (idle .waiting) false .listening) roundEvents
    (pair (idle .waiting) (idle .waiting) false .listening) :=
  .cons (pair0 (a' := idle .woken) (.wakeTimer _ rfl rfl) (by simp) rfl (by simp) (by simp)) <|
  .cons (pair1 (b' := idle .woken) (.wakeTimer _ rfl rfl) (by simp) rfl (by simp) (by simp)) <|
  .cons (pair0 (a' := idle .acquiring) (.goOn _ rfl rfl) (by simp) rfl (by simp) (by simp)) <|
  .cons (pair1 (b' := idle .acquiring) (.goOn _ rfl rfl) (by simp) rfl (by simp) (by simp)) <|
  .cons (pair0 (a' := idle .pulling) (.check _ rfl) (by simp) rfl (by simp) (by simp [idle, Down.holdsToken])) <|
  .cons (pair0 (a' := idle (.releasing none)) (.pullSame _ rfl) (by simp) rfl (by simp) (by simp)) <|
  .cons (pair0 (a' := idle .waiting) (.release _ none rfl) (by simp) rfl (by simp) (by simp)) <|
  .cons (pair1 (b' := idle .pulling) (.check _ rfl) (by simp) rfl (by simp) (by simp [idle, Down.holdsToken])) <|
  .cons (pair1 (b' := idle (.releasing none)) (.pullSame _ rfl) (by simp) rfl (by simp) (by simp)) <|
  .cons (pair1 (b' := idle .waiting) (.release _ none rfl) (by simp) rfl (by simp) (by simp)) (.nil _)

theorem no_searches {ev : Nat → Option Down.Ev} {st : Nat → Sr.St} {i : Nat}
    (h : ∀ n k, ev n ≠ some (.own i (.searchStart k)) ∧ ev n ≠ some (.own i (.searchRead k))) : WritersFirst st (atNumber ev i) := by
  refine writers_none fun n k => ⟨fun he => ?_, fun he => ?_⟩
  all_goals
    unfold atNumber at he
    cases hx : ev n with
    | none => simp [hx] at he
    | some e =>
      rw [hx] at he
      simp only [Option.bind_some] at he
      cases e with
      | own j y =>
        simp only [Down.at_] at he
        split at he
        · next hj =>
          subst hj
          rw [Option.some.inj he] at hx
          first | exact (h n k).1 hx | exact (h n k).2 hx
        · simp at he
      | _ => simp_all [Down.at_]

/-- The hypotheses of `nobody_starves` are met by two repositories of which one may be checked at a time. -/
example : ∃ st ev, History (Down.Step (two both)) st ev ∧ st 0 = .init (two both) ∧ FairServer (two both) st ev ∧ LimiterFair (two both) st ev ∧
    (∀ m, ev m ≠ some .signal) ∧ ∀ i < 2, ∃ m, ev m = some (.own i .begin) := by
  obtain ⟨st, ev, h1, h2, h3, h4, h5, h6, h7, h8⟩ := lasso (load_path both (Or.inl rfl)) round_path (by decide)
  have hall : ∀ n e, ev n = some e → e ∈ loadEvents ++ roundEvents := fun n e he => by
    by_cases hn : n < loadEvents.length
    · rw [h3 n hn] at he
      exact List.mem_append_left _ (List.mem_of_getElem? he)
    · exact List.mem_append_right _ (h4 n (Nat.not_lt.1 hn) e he)
  have both_ : ∀ {P : Nat → Prop}, P 0 → P 1 → ∀ i, i < (two both).n → P i := fun {P} a b i hi => by
    have hi : i < 2 := hi
    rcases (show i = 0 ∨ i = 1 by omega) with rfl | rfl
    · exact a
    · exact b
  refine ⟨st, ev, h1, h2, ⟨?_, ?_, ?_, ?_⟩, ?_, ?_, ?_⟩
  · intro n hn
    obtain ⟨m, hm, he⟩ := h6 n
    obtain ⟨e, t, h8, h9⟩ := hn m hm
    rw [he] at h9
    cases h9 <;> simp_all [Down.Ev.ender, pair]
  · exact both_ (moves_often (e := .own 0 .wake) ⟨_, rfl, rfl⟩ fun n => h5 n _ (by simp [roundEvents]))
      (moves_often (e := .own 1 .wake) ⟨_, rfl, rfl⟩ fun n => h5 n _ (by simp [roundEvents]))
  · refine both_ (ends_often (t := idle .waiting) rfl fun n => ?_) (ends_often (t := idle .waiting) rfl fun n => ?_) <;>
      obtain ⟨m, hm, he⟩ := h6 n <;> exact ⟨m, hm, by rw [he]; rfl⟩
  · intro i _
    refine no_searches fun n k => ⟨fun he => ?_, fun he => ?_⟩ <;> have := hall n _ he <;> simp [loadEvents, roundEvents] at this
  · intro i n hi _
    exact both_ (P := fun i => ∃ m, n ≤ m ∧ ev m = some (.own i .check)) (h5 n _ (by simp [roundEvents])) (h5 n _ (by simp [roundEvents])) i hi
  · intro m he
    have := hall m _ he
    simp [loadEvents, roundEvents] at this
  · exact both_ (P := fun i => ∃ m, ev m = some (.own i .begin)) ⟨0, h3 0 (by decide)⟩ ⟨1, h3 1 (by decide)⟩

/-! ### The end -/

theorem send0 {c : Cfg} {a b : Sr.St} {chan : Bool} {todo : List Nat} (h1 : a.begun = true) (h2 : a.shutdownCh = false) :
    Down.Step (two c) (pair a b chan (.stopping (0 :: todo))) (.stopSend 0)
      (pair { a with shutdownCh := true, stopping := a.stopping + 1 } b chan (.inStop 0 todo)) := by
  have := Down.Step.stopSend (w := two c) (pair a b chan (.stopping (0 :: todo))) 0 todo _ rfl (.stopSend a h1 h2)
  rw [set0] at this
  exact this

theorem send1 {c : Cfg} {a b : Sr.St} {chan : Bool} {todo : List Nat} (h1 : b.begun = true) (h2 : b.shutdownCh = false) :
    Down.Step (two c) (pair a b chan (.stopping (1 :: todo))) (.stopSend 1)
      (pair a { b with shutdownCh := true, stopping := b.stopping + 1 } chan (.inStop 1 todo)) := by
  have := Down.Step.stopSend (w := two c) (pair a b chan (.stopping (1 :: todo))) 1 todo _ rfl (.stopSend b h1 h2)
  rw [set1] at this
  exact this

theorem ret0 {c : Cfg} {a b : Sr.St} {chan : Bool} {todo : List Nat} (h1 : 0 < a.stopping) :
    Down.Step (two c) (pair a b chan (.inStop 0 todo)) (.stopReturn 0)
      (pair { a with flag := true, stopping := a.stopping - 1 } b chan (.stopping todo)) := by
  have := Down.Step.stopReturn (w := two c) (pair a b chan (.inStop 0 todo)) 0 todo _ rfl (.stopReturn a h1)
  rw [set0] at this
  exact this

theorem ret1 {c : Cfg} {a b : Sr.St} {chan : Bool} {todo : List Nat} (h1 : 0 < b.stopping) :
    Down.Step (two c) (pair a b chan (.inStop 1 todo)) (.stopReturn 1)
      (pair a { b with flag := true, stopping := b.stopping - 1 } chan (.stopping todo)) := by
  have := Down.Step.stopReturn (w := two c) (pair a b chan (.inStop 1 todo)) 1 todo _ rfl (.stopReturn b h1)
  rw [set1] at this
  exact this

theorem Path.append {σ ε : Type} {Step : σ → ε → σ → Prop} {s t u : σ} {es fs : List ε} (h : Path Step s es t) (h' : Path Step t fs u) :
    Path Step s (es ++ fs) u := by
  induction h with
  | nil => exact h'
  | cons h1 _ ih => exact .cons h1 (ih h')

/-- A searcher that has been told to stop. -/
def told (pc : PC) (token flag : Bool) : Sr.St := { idle pc with shutdownCh := token, flag := flag }

/-- The signal, and `Stop` of both searchers. -/
def endEvents : List Down.Ev :=
  [.signal, .notice, .stopSend 0, .stopReturn 0, .stopSend 1, .stopReturn 1, .stopped, .own 0 .wake, .own 0 .finished, .own 1 .wake, .own 1 .finished,
    .waited 0, .waited 1, .exit]

theorem end_path (c : Cfg) : Path (Down.Step (two c)) (pair (idle .waiting) (idle .waiting) false .listening) endEvents
    (pair (told .done false true) (told .done false true) false .exited) := by
  refine .cons (.signal _ (by simp [pair])) ?_
  refine .cons (.notice _ [0, 1] rfl rfl (List.Perm.refl _)) ?_
  refine .cons (send0 (c := c) (a := idle .waiting) (b := idle .waiting) (chan := false) (todo := [1]) rfl rfl) ?_
  refine .cons (ret0 Nat.one_pos) ?_
  refine .cons (send1 rfl rfl) ?_
  refine .cons (ret1 Nat.one_pos) ?_
  refine .cons (.stopped _ [0, 1] rfl (List.Perm.refl _)) ?_
  refine .cons (pair0 (c := c) (a := told .waiting true true) (b := told .waiting true true) (chan := false) (pc := .waiting [0, 1])
    (a' := told .woken false true) (.wakeStop _ rfl rfl) (by simp) rfl (by simp) (by simp)) ?_
  refine .cons (pair0 (a' := told .done false true) (.finish _ rfl rfl) (by simp) rfl (by simp) (by simp)) ?_
  refine .cons (pair1 (b' := told .woken false true) (.wakeStop _ rfl rfl) (by simp) rfl (by simp) (by simp)) ?_
  refine .cons (pair1 (b' := told .done false true) (.finish _ rfl rfl) (by simp) rfl (by simp) (by simp)) ?_
  refine .cons (.waited _ 0 [1] rfl rfl) ?_
  refine .cons (.waited _ 1 [] rfl rfl) ?_
  exact .cons (.exit _ rfl) (.nil _)

/-- A piece without searches, after which no goroutine of the server can do anything, makes a fair history. -/
theorem fair_server_rest {c : Cfg} {s t : Down.St} {es : List Down.Ev} (h : Path (Down.Step (two c)) s es t) (ht : ∀ i, (t.srs i).searches = [])
    (hno : ∀ e u, e.program = true → ¬ Down.Step (two c) t e u)
    (hs : ∀ i k, Down.Ev.own i (.searchStart k) ∉ es ∧ Down.Ev.own i (.searchRead k) ∉ es) :
    ∃ st, History (Down.Step (two c)) st (fun n => es[n]?) ∧ st 0 = s ∧ FairServer (two c) st (fun n => es[n]?) ∧ ∀ n, es.length ≤ n → st n = t := by
  obtain ⟨st, h1, h2, h3⟩ := rest h
  refine ⟨st, h1, h2, ⟨moves_rest h3 fun e u hp => hno e u (by cases e <;> simp_all [Down.Ev.program, Down.Ev.ender]), fun i _ => ?_, fun i _ => ?_, fun i _ => ?_⟩, h3⟩
  · refine moves_rest h3 fun e u hp => ?_
    obtain ⟨x, rfl, hp⟩ := hp
    exact hno _ u hp
  · refine ends_often (ht i) fun n => ?_
    obtain ⟨m, hm, he⟩ := rest_often h3 n
    exact ⟨m, hm, by rw [he]⟩
  · exact no_searches fun n k => ⟨fun he => (hs i k).1 (List.mem_of_getElem? he), fun he => (hs i k).2 (List.mem_of_getElem? he)⟩

/-- The hypotheses of `server_ends` are met. -/
theorem fair_end_case : ∃ st ev, History (Down.Step (two both)) st ev ∧ st 0 = .init (two both) ∧ FairServer (two both) st ev ∧ 0 < (two both).cap ∧
    (∃ m, ev m = some .signal) ∧ (∃ m, ev m = some .handle) ∧ ∀ i < 2, ((two both).cfg i).timer = true := by
  obtain ⟨st, h1, h2, h3, h4⟩ := fair_server_rest ((load_path both (Or.inl rfl)).append (end_path both))
    (fun i => by simp only [pair]; split; · rfl
                 · split <;> rfl)
    (fun e u hp hst => by cases hst <;> simp_all [pair]) (by simp [loadEvents, endEvents])
  exact ⟨st, _, h1, h2, h3, Nat.one_pos, ⟨7, rfl⟩, ⟨6, rfl⟩, fun _ _ => rfl⟩

/-- **C97** for the end of any server. -/
def ServerEndsFull : Prop :=
  ∀ (w : Down.Site) (st : Nat → Down.St) (ev : Nat → Option Down.Ev), History (Down.Step w) st ev → st 0 = .init w → FairServer w st ev → 0 < w.cap →
    (∃ m, ev m = some .signal) → (∃ m, ev m = some .handle) → ∃ m, (st m).pc = .exited

/-- The goroutine of searcher 0 takes the signal before `Stop` has set the flag. -/
def hangEvents : List Down.Ev :=
  [.signal, .notice, .stopSend 0, .own 0 .wake, .own 0 .goOn, .own 0 .check, .own 0 (.pulled (some 7)), .own 0 .release, .stopReturn 0,
    .stopSend 1, .stopReturn 1, .stopped, .own 1 .wake, .own 1 .finished]

theorem hang_path : Path (Down.Step (two Sr.pushOnly)) (pair (idle .waiting) (idle .waiting) false .listening) hangEvents
    (pair (told .waiting false true) (told .done false true) false (.waiting [0, 1])) := by
  refine .cons (.signal _ (by simp [pair])) ?_
  refine .cons (.notice _ [0, 1] rfl rfl (List.Perm.refl _)) ?_
  refine .cons (send0 (c := Sr.pushOnly) (a := idle .waiting) (b := idle .waiting) (chan := false) (todo := [1]) rfl rfl) ?_
  refine .cons (pair0 (a' := { idle .woken with stopping := 1 }) (.wakeStop _ rfl rfl) (by simp) rfl (by simp) (by simp)) ?_
  refine .cons (pair0 (a' := { idle .acquiring with stopping := 1 }) (.goOn _ rfl rfl) (by simp) rfl (by simp) (by simp)) ?_
  refine .cons (pair0 (a' := { idle .pulling with stopping := 1 }) (.check _ rfl) (by simp) rfl (by simp) (by simp [idle, Down.holdsToken])) ?_
  refine .cons (pair0 (a' := { idle (.releasing none) with stopping := 1 }) (.pullSame _ rfl) (by simp) rfl (by simp) (by simp)) ?_
  refine .cons (pair0 (a' := { idle .waiting with stopping := 1 }) (.release _ none rfl) (by simp) rfl (by simp) (by simp)) ?_
  refine .cons (ret0 Nat.one_pos) ?_
  refine .cons (send1 rfl rfl) ?_
  refine .cons (ret1 Nat.one_pos) ?_
  refine .cons (.stopped _ [0, 1] rfl (List.Perm.refl _)) ?_
  refine .cons (pair1 (c := Sr.pushOnly) (a := told .waiting false true) (b := told .waiting true true) (chan := false) (pc := .waiting [0, 1])
    (b' := told .woken false true) (.wakeStop _ rfl rfl) (by simp) rfl (by simp) (by simp)) ?_
  exact .cons (pair1 (b' := told .done false true) (.finish _ rfl rfl) (by simp) rfl (by simp) (by simp)) (.nil _)

/-- It is false of the program, however fair the scheduler: the server waits for ever. -/
theorem not_serverEndsFull : ¬ ServerEndsFull := by
  intro hf
  have hp := (load_path Sr.pushOnly (Or.inr rfl)).append hang_path
  obtain ⟨st, h1, h2, h3, h4⟩ := fair_server_rest hp
    (fun i => by simp only [pair]; split; · rfl
                 · split <;> rfl)
    (fun e u hp hst => by
      cases hst
      case own i x y a b c d f g =>
        have hi : i < 2 := b
        have hx : x.poller = true := hp
        rcases (show i = 0 ∨ i = 1 by omega) with rfl | rfl <;>
          simp only [pair, if_true, if_false, Nat.one_ne_zero] at g <;> cases g <;>
          simp_all [Sr.Ev.poller, told, idle, Sr.St.init, two, Sr.pushOnly, Cfg.timer]
      all_goals simp_all [pair, told, idle, Down.Ev.program, Down.Ev.ender]) (by simp [loadEvents, hangEvents])
  obtain ⟨m, hm⟩ := hf _ st _ h1 h2 h3 Nat.one_pos ⟨7, rfl⟩ ⟨6, rfl⟩
  have hstay : (st (max m (loadEvents ++ hangEvents).length)).pc = .exited :=
    keepE h1 (P := fun s => s.pc = .exited) (fun _ _ e _ _ _ hst hp => by cases hst <;> simp_all) hm _ (Nat.le_max_left ..)
  rw [h4 _ (Nat.le_max_right ..)] at hstay
  simp [pair] at hstay

end Hound.Fair
