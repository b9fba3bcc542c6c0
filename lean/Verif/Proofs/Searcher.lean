import Verif.Model.Searcher

namespace Hound.Sr

theorem Exec.append {c : Cfg} {s t u : St} {es fs : List Ev} (h : Exec c s es t) (h' : Exec c t fs u) :
    Exec c s (es ++ fs) u := by
  induction h with
  | nil s => exact h'
  | cons hs _ ih => exact .cons hs (ih h')

theorem Exec.snoc {c : Cfg} {s t u : St} {es : List Ev} {e : Ev} (h : Exec c s es t) (h' : Step c t e u) :
    Exec c s (es ++ [e]) u := h.append (.cons h' (.nil _))

/-- A property that every step keeps holds after every execution. -/
theorem Exec.keep {c : Cfg} {P : St → Prop} (hstep : ∀ s e t, Step c s e t → P s → P t) {s t : St} {es : List Ev}
    (h : Exec c s es t) (hs : P s) : P t := by
  induction h with
  | nil => exact hs
  | cons h1 _ ih => exact ih (hstep _ _ _ h1 hs)

/-- The same for steps with certain events only. -/
theorem Exec.keepE {c : Cfg} {P : St → Prop} {Q : Ev → Prop} (hstep : ∀ s e t, Step c s e t → Q e → P s → P t)
    {s t : St} {es : List Ev} (h : Exec c s es t) (hq : ∀ e ∈ es, Q e) (hs : P s) : P t := by
  induction h with
  | nil => exact hs
  | cons h1 _ ih =>
    exact ih (fun e he => hq e (List.mem_cons_of_mem _ he)) (hstep _ _ _ h1 (hq _ (List.mem_cons_self ..)) hs)

/-- What always holds. -/
structure Inv (s : St) : Prop where
  fresh : s.begun = false → s.pc = .hold ∧ s.updateCh = false ∧ s.searches = [] ∧ s.stopping = 0 ∧
    s.shutdownCh = false ∧ s.flag = false
  held : s.begun = true → s.pc = .hold → s.updateCh = true
  live : s.live < s.count
  swapping : ∀ n, s.pc = .swapping n → n < s.count ∧ n ≠ s.live ∧ (s.handles n).Usable
  swapped : ∀ o n, s.pc = .swapped o n → s.live = n ∧ o ≠ n ∧ o < s.count ∧ s.searches = [] ∧
    (s.handles n).Usable
  undo : ∀ n, s.pc = .undo n → s.live = n
  searches : ∀ i h, (i, some h) ∈ s.searches → h = s.live

theorem Inv.init (rev : Nat) : Inv (.init rev) := by
  constructor <;> simp [St.init]

theorem Inv.step {c : Cfg} {s t : St} {e : Ev} (h : Step c s e t) (hi : Inv s) : Inv t := by
  obtain ⟨h1, h2, h3, h4, h5, h6, h7⟩ := hi
  cases h with
  | begin a b =>
    refine ⟨by simp, ?_, h3, h4, h5, h6, h7⟩
    intro _ _; rfl
  | updateAccepted a b =>
    refine ⟨fun hh => absurd a (by simp_all), fun _ _ => rfl, h3, h4, h5, h6, h7⟩
  | updateRefused a b => exact ⟨h1, h2, h3, h4, h5, h6, h7⟩
  | stopSend a b => exact ⟨fun hh => absurd a (by simp_all), h2, h3, h4, h5, h6, h7⟩
  | stopReturn a => exact ⟨fun hh => absurd (h1 hh).2.2.2.1 (by omega), h2, h3, h4, h5, h6, h7⟩
  | stopSkip a b => exact ⟨h1, h2, h3, h4, h5, h6, h7⟩
  | searchStart i a b d =>
    refine ⟨fun hh => absurd a (by simp_all), h2, h3, h4, ?_, h6, ?_⟩
    · intro o n hp
      simp [St.locked, show s.pc = .swapped o n from hp] at b
    · intro j hd hm
      simp only [List.mem_cons, Prod.mk.injEq, reduceCtorEq, and_false, false_or] at hm
      exact h7 j hd hm
  | searchRead i a =>
    refine ⟨?_, h2, h3, h4, ?_, h6, ?_⟩
    · intro hh
      have := (h1 hh).2.2.1
      rw [this] at a; simp at a
    · intro o n hp
      have := (h5 o n hp).2.2.2.1
      rw [this] at a; simp at a
    · intro j hd hm
      simp only [List.mem_map] at hm
      obtain ⟨p, hp, he⟩ := hm
      split at he
      · simp only [Prod.mk.injEq, Option.some.injEq] at he; exact he.2.symm
      · exact h7 j hd (he ▸ hp)
  | searchEnd i hh a =>
    refine ⟨?_, h2, h3, h4, ?_, h6, ?_⟩
    · intro hb
      obtain ⟨x1, x2, x3, x4, x5, x6⟩ := h1 hb
      rw [x3] at a; simp at a
    · intro o n hp
      have := (h5 o n hp).2.2.2.1
      rw [this] at a; simp at a
    · intro j hd hm
      exact h7 j hd (List.mem_filter.1 hm).1
  | gate a b =>
    refine ⟨fun hh => absurd (h1 hh).2.1 (by simp_all), by simp, h3, by simp, by simp, by simp, h7⟩
  | neverUpdates a b d => refine ⟨fun hh => absurd (h1 hh).1 (by simp_all), by simp, h3, by simp, by simp, by simp, h7⟩
  | enter a b => refine ⟨fun hh => absurd (h1 hh).1 (by simp_all), by simp, h3, by simp, by simp, by simp, h7⟩
  | wakeUpdate a b => refine ⟨fun hh => absurd (h1 hh).1 (by simp_all), by simp, h3, by simp, by simp, by simp, h7⟩
  | wakeTimer a b => refine ⟨fun hh => absurd (h1 hh).1 (by simp_all), by simp, h3, by simp, by simp, by simp, h7⟩
  | wakeStop a b => refine ⟨fun hh => absurd (h1 hh).1 (by simp_all), by simp, h3, by simp, by simp, by simp, h7⟩
  | finish a b => refine ⟨fun hh => absurd (h1 hh).1 (by simp_all), by simp, h3, by simp, by simp, by simp, h7⟩
  | goOn a b => refine ⟨fun hh => absurd (h1 hh).1 (by simp_all), by simp, h3, by simp, by simp, by simp, h7⟩
  | check a => refine ⟨fun hh => absurd (h1 hh).1 (by simp_all), by simp, h3, by simp, by simp, by simp, h7⟩
  | pullFails a => refine ⟨fun hh => absurd (h1 hh).1 (by simp_all), by simp, h3, by simp, by simp, by simp, h7⟩
  | pullSame a => refine ⟨fun hh => absurd (h1 hh).1 (by simp_all), by simp, h3, by simp, by simp, by simp, h7⟩
  | pullNew r a b => refine ⟨fun hh => absurd (h1 hh).1 (by simp_all), by simp, h3, by simp, by simp, by simp, h7⟩
  | buildFails r a => refine ⟨fun hh => absurd (h1 hh).1 (by simp_all), by simp, h3, by simp, by simp, by simp, h7⟩
  | buildOk r a =>
    refine ⟨fun hh => absurd (h1 hh).1 (by simp_all), by simp, Nat.lt_succ_of_lt h3, ?_, by simp, by simp, h7⟩
    intro n hn
    simp only [PC.swapping.injEq] at hn
    subst hn
    exact ⟨Nat.lt_succ_self _, by dsimp only; omega, by simp [setHandle, Handle.Usable]⟩
  | swapLock n a b =>
    refine ⟨fun hh => absurd (h1 hh).1 (by simp_all), by simp, (h4 n a).1, by simp, ?_, by simp, ?_⟩
    · intro o m hm
      simp only [PC.swapped.injEq] at hm
      obtain ⟨rfl, rfl⟩ := hm
      exact ⟨rfl, fun hh => (h4 _ a).2.1 hh.symm, h3, b, (h4 _ a).2.2⟩
    · intro i hd hm
      dsimp only at hm
      rw [b] at hm; simp at hm
  | destroyed o n ok hd a d =>
    obtain ⟨k1, k2, k3, k4, k5⟩ := h5 o n a
    refine ⟨fun hh => absurd (h1 hh).1 (by simp_all), ?_, h3, ?_, ?_, ?_, h7⟩
    · intro _; dsimp only; split <;> simp
    · intro m; dsimp only; split <;> simp
    · intro m m'; dsimp only; split <;> simp
    · intro m; dsimp only; split
      · simp
      · intro hm; simp only [PC.undo.injEq] at hm; rw [← hm]; exact k1
  | undo n ok hd a b d => refine ⟨fun hh => absurd (h1 hh).1 (by simp_all), by simp, h3, by simp, by simp, by simp, h7⟩
  | release res a => refine ⟨fun hh => absurd (h1 hh).1 (by simp_all), by simp, h3, by simp, by simp, by simp, h7⟩

theorem Run.inv {c : Cfg} {rev : Nat} {es : List Ev} {s : St} (h : Run c rev es s) : Inv s :=
  Exec.keep (fun _ _ _ hs => Inv.step hs) h (Inv.init rev)

/-! ## Progress of the goroutine -/

/-- How many steps the goroutine can still make before a check starts. -/
def PC.toCheck : PC → Nat
  | .hold => 5 | .gated => 4 | .waiting => 3 | .woken => 2 | .acquiring => 1
  | .pulling => 9 | .building _ => 8 | .swapping _ => 7 | .swapped _ _ => 6 | .undo _ => 5 | .releasing _ => 4
  | .done => 0

/-- How many steps the goroutine can still make once it is to stop. -/
def PC.toDone : PC → Nat
  | .hold => 4 | .gated => 3 | .waiting => 2 | .woken => 1 | .acquiring => 9
  | .pulling => 8 | .building _ => 7 | .swapping _ => 6 | .swapped _ _ => 5 | .undo _ => 4 | .releasing _ => 3
  | .done => 0

theorem poller_toCheck {c : Cfg} {s t : St} {e : Ev} (h : Step c s e t) (hp : e.poller = true) (he : e ≠ .check)
    : t.pc.toCheck < s.pc.toCheck := by
  cases h
  case destroyed o n ok hd a d => cases ok <;> simp_all [PC.toCheck]
  all_goals simp [Ev.poller] at hp
  all_goals simp_all [PC.toCheck]

theorem poller_toDone {c : Cfg} {s t : St} {e : Ev} (h : Step c s e t) (hp : e.poller = true) (hf : s.flag = true)
    : t.pc.toDone < s.pc.toDone := by
  cases h
  case destroyed o n ok hd a d => cases ok <;> simp_all [PC.toDone]
  all_goals simp [Ev.poller] at hp
  all_goals simp_all [PC.toDone]

theorem other_pc {c : Cfg} {s t : St} {e : Ev} (h : Step c s e t) (hp : e.poller = false) : t.pc = s.pc := by
  cases h <;> simp [Ev.poller] at hp <;> rfl

theorem exec_toCheck {c : Cfg} {s t : St} {es : List Ev} (h : Exec c s es t) (hn : Ev.check ∉ es) :
    (es.filter Ev.poller).length + t.pc.toCheck ≤ s.pc.toCheck := by
  induction h with
  | nil => simp
  | @cons s t u e es h1 _ ih =>
    simp only [List.mem_cons, not_or] at hn
    have ih := ih hn.2
    by_cases hp : e.poller = true
    · have := poller_toCheck h1 hp (fun he => hn.1 he.symm)
      rw [List.filter_cons, if_pos hp, List.length_cons]
      omega
    · have := other_pc h1 (by simpa using hp)
      rw [List.filter_cons, if_neg hp, ← this]
      exact ih

theorem step_flag {c : Cfg} {s t : St} {e : Ev} (h : Step c s e t) (hf : s.flag = true) : t.flag = true := by
  cases h <;> first | exact hf | rfl

theorem exec_toDone {c : Cfg} {s t : St} {es : List Ev} (h : Exec c s es t) (hf : s.flag = true) :
    (es.filter Ev.poller).length + t.pc.toDone ≤ s.pc.toDone := by
  induction h with
  | nil => simp
  | @cons s t u e es h1 _ ih =>
    have ih := ih (step_flag h1 hf)
    by_cases hp : e.poller = true
    · have := poller_toDone h1 hp hf
      rw [List.filter_cons, if_pos hp, List.length_cons]
      omega
    · have := other_pc h1 (by simpa using hp)
      rw [List.filter_cons, if_neg hp, ← this]
      exact ih

/-- The goroutine can make a step, or has a search to wait for. -/
def CanGoOn (c : Cfg) (s : St) : Prop := (∃ e t, e.poller = true ∧ Step c s e t) ∨ s.searches ≠ []

/-- Wherever it stands but at its channels, the goroutine can go on. -/
theorem canGoOn {c : Cfg} {s : St} (h1 : s.pc ≠ .done) (h2 : s.pc = .hold → s.updateCh = true)
    (h3 : s.pc = .waiting → s.updateCh = true ∨ c.timer = true ∨ s.shutdownCh = true) : CanGoOn c s := by
  cases hpc : s.pc with
  | hold => exact Or.inl ⟨_, _, rfl, .gate s hpc (h2 hpc)⟩
  | gated =>
    by_cases hc : c.poll = true ∨ c.push = true
    · exact Or.inl ⟨_, _, rfl, .enter s hpc hc⟩
    · simp only [not_or, Bool.not_eq_true] at hc
      exact Or.inl ⟨_, _, rfl, .neverUpdates s hpc hc.1 hc.2⟩
  | waiting =>
    rcases h3 hpc with h | h | h
    · exact Or.inl ⟨_, _, rfl, .wakeUpdate s hpc h⟩
    · exact Or.inl ⟨_, _, rfl, .wakeTimer s hpc h⟩
    · exact Or.inl ⟨_, _, rfl, .wakeStop s hpc h⟩
  | woken =>
    cases hf : s.flag with
    | true => exact Or.inl ⟨_, _, rfl, .finish s hpc hf⟩
    | false => exact Or.inl ⟨_, _, rfl, .goOn s hpc hf⟩
  | acquiring => exact Or.inl ⟨_, _, rfl, .check s hpc⟩
  | pulling => exact Or.inl ⟨_, _, rfl, .pullFails s hpc⟩
  | building r => exact Or.inl ⟨_, _, rfl, .buildFails s r hpc⟩
  | swapping n =>
    by_cases hs : s.searches = []
    · exact Or.inl ⟨_, _, rfl, .swapLock s n hpc hs⟩
    · exact Or.inr hs
  | swapped o n => exact Or.inl ⟨_, _, rfl, .destroyed s o n false _ hpc (.closeFails _)⟩
  | undo n =>
    by_cases hs : s.searches = []
    · exact Or.inl ⟨_, _, rfl, .undo s n false _ hpc (by simp [hs]) (.closeFails _)⟩
    · exact Or.inr hs
  | releasing r => exact Or.inl ⟨_, _, rfl, .release s r hpc⟩
  | done => exact absurd hpc h1

/-- An update was requested (or the timer will do), and nobody stops the searcher. -/
structure Asked (c : Cfg) (s : St) : Prop where
  gate : c.timer = true ∨ (s.pc ≠ .hold ∧ s.pc ≠ .gated)
  hold : s.pc = .hold → s.updateCh = true
  asked : s.updateCh = true ∨ c.timer = true ∨ s.pc = .woken ∨ s.pc = .acquiring
  running : s.flag = false ∧ s.shutdownCh = false ∧ s.stopping = 0
  poll : c.poll = true ∨ c.push = true
  notDone : s.pc ≠ .done

theorem Asked.step {c : Cfg} {s t : St} {e : Ev} (h : Step c s e t) (hq : e.stop = false ∧ e ≠ .check)
    (ha : Asked c s) : Asked c t := by
  obtain ⟨h1, h2, h3, h4, h5, h6⟩ := ha
  cases h
  case destroyed o n ok hd a d => cases ok <;> constructor <;> simp_all
  all_goals simp [Ev.stop] at hq
  all_goals (try exact ⟨h1, h2, h3, h4, h5, h6⟩)
  all_goals (constructor <;> simp_all)

/-- It is to stop, and will notice. -/
structure Told (c : Cfg) (s : St) : Prop where
  flag : s.flag = true
  hold : s.pc = .hold → s.updateCh = true
  told : c.timer = true ∨ s.shutdownCh = true ∨ s.pc = .woken ∨ s.pc = .done

theorem Told.step {c : Cfg} {s t : St} {e : Ev} (h : Step c s e t) (ha : Told c s) : Told c t := by
  obtain ⟨h1, h2, h3⟩ := ha
  cases h
  case destroyed o n ok hd a d => cases ok <;> constructor <;> simp_all
  all_goals (try exact ⟨h1, h2, h3⟩)
  all_goals (constructor <;> simp_all)

end Hound.Sr
