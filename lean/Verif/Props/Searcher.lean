import Verif.Proofs.Searcher

/-!
# C21, C22, C23, C24, C46: updates, shutdown and searches of one searcher

`Run c rev es s`: in state `s` after the events `es`, for a searcher that started with an index of
revision `rev`. All theorems are about every such run: any number of `Update`, `Stop` and `Search` calls at
any moments, any answers of the version control system, any failures.
-/

namespace Hound.Sr

/-! ## C21 -/

/-- A check of the repository is coming, as long as nobody calls `Stop`: until it starts, the polling goroutine
makes at most `k` steps, and it can always make one (unless a search is under way that it has to wait
for). -/
def CheckComes (c : Cfg) (s : St) : Prop :=
  ∃ k, ∀ es t, Exec c s es t → (∀ e ∈ es, e.stop = false) → Ev.check ∉ es →
    (es.filter Ev.poller).length ≤ k ∧ CanGoOn c t

/-- **C21**, the full claim: after an accepted update request a check starts. -/
def UpdateNotLostFull : Prop :=
  ∀ (c : Cfg) (rev : Nat) (es : List Ev) (s t : St), Run c rev es s → (∀ e ∈ es, e.stop = false) →
    Step c s .updateAccepted t → CheckComes c t

theorem Asked.checkComes {c : Cfg} {s : St} (h : Asked c s) : CheckComes c s := by
  refine ⟨s.pc.toCheck, fun es t he hs hn => ?_⟩
  have ha : Asked c t := he.keepE (fun s e t hs hq => Asked.step hs hq)
    (fun e hm => ⟨hs e hm, fun hh => hn (hh ▸ hm)⟩) h
  refine ⟨by have := exec_toCheck he hn; omega, canGoOn ha.notDone ha.hold fun hw => ?_⟩
  rcases ha.asked with h | h | h | h
  · exact Or.inl h
  · exact Or.inr (Or.inl h)
  · rw [hw] at h; simp at h
  · rw [hw] at h; simp at h

/-- Nothing is asked to stop before `Stop` is called, and a goroutine with updates enabled does not end by itself. -/
theorem run_noStop {c : Cfg} {rev : Nat} {es : List Ev} {s : St} (h : Run c rev es s)
    (hs : ∀ e ∈ es, e.stop = false) :
    s.flag = false ∧ s.shutdownCh = false ∧ s.stopping = 0 ∧ (c.push = true → s.pc ≠ .done) := by
  refine Exec.keepE (P := fun s => s.flag = false ∧ s.shutdownCh = false ∧ s.stopping = 0 ∧ (c.push = true → s.pc ≠ .done))
    (Q := fun e => e.stop = false) ?_ h hs (by simp [St.init])
  rintro s e t hstep hq ⟨h1, h2, h3, h4⟩
  cases hstep
  case destroyed o n ok hd a d => cases ok <;> simp_all
  all_goals simp [Ev.stop] at hq
  all_goals simp_all

theorem update_asked {c : Cfg} {rev : Nat} {es : List Ev} {s t : St} (h : Run c rev es s)
    (hs : ∀ e ∈ es, e.stop = false) (hu : Step c s .updateAccepted t) (hg : c.timer = true ∨ Ev.enter ∈ es) :
    Asked c t := by
  have hi := h.inv
  obtain ⟨n1, n2, n3, n4⟩ := run_noStop h hs
  have hent : Ev.enter ∈ es → s.pc ≠ .hold ∧ s.pc ≠ .gated := by
    clear hg hu hi n1 n2 n3 n4 hs
    intro hm
    obtain ⟨as, bs, rfl⟩ := List.append_of_mem hm
    have key : ∀ {a b : St} {fs gs : List Ev}, Exec c a (fs ++ Ev.enter :: gs) b → b.pc ≠ .hold ∧ b.pc ≠ .gated := by
      intro a b fs gs hx
      induction fs generalizing a with
      | nil =>
        cases hx with
        | cons h1 h2 =>
          refine h2.keep (P := fun s => s.pc ≠ .hold ∧ s.pc ≠ .gated) ?_ ?_
          · rintro s e t hstep ⟨p1, p2⟩
            cases hstep
            case destroyed o n ok hd a d => cases ok <;> simp_all
            all_goals simp_all
          · cases h1
            simp
      | cons f fs ih =>
        cases hx with
        | cons h1 h2 => exact ih h2
    exact key h
  cases hu with
  | updateAccepted hb hp =>
    refine ⟨?_, fun _ => rfl, Or.inl rfl, ⟨n1, n2, n3⟩, Or.inr hp, n4 hp⟩
    rcases hg with hg | hg
    · exact Or.inl hg
    · exact Or.inr (hent hg)

/-- A searcher that polls will check. -/
theorem polls_asked {c : Cfg} {rev : Nat} {es : List Ev} {s : St} (h : Run c rev es s)
    (hs : ∀ e ∈ es, e.stop = false) (ht : c.timer = true) (hb : Ev.begin ∈ es) : Asked c s := by
  have hi := h.inv
  have hp : c.poll = true := by unfold Cfg.timer at ht; simp only [Bool.and_eq_true] at ht; exact ht.1
  obtain ⟨n1, n2, n3, _⟩ := run_noStop h hs
  have hbegun : s.begun = true := by
    obtain ⟨as, bs, rfl⟩ := List.append_of_mem hb
    have key : ∀ {a b : St} {fs gs : List Ev}, Exec c a (fs ++ Ev.begin :: gs) b → b.begun = true := by
      intro a b fs gs hx
      induction fs generalizing a with
      | nil =>
        cases hx with
        | cons h1 h2 =>
          refine h2.keep (P := fun s => s.begun = true) ?_ ?_
          · intro s e t hstep p1
            cases hstep <;> first | exact p1 | rfl
          · cases h1; rfl
      | cons f fs ih =>
        cases hx with
        | cons h1 h2 => exact ih h2
    exact key h
  have hdone : s.pc ≠ .done := by
    refine (Exec.keepE (P := fun s => s.flag = false ∧ s.shutdownCh = false ∧ s.stopping = 0 ∧ s.pc ≠ .done)
      (Q := fun e => e.stop = false) ?_ h hs (by simp [St.init])).2.2.2
    rintro s e t hstep hq ⟨h1, h2, h3, h4⟩
    cases hstep
    case destroyed o n ok hd a d => cases ok <;> simp_all
    all_goals simp [Ev.stop] at hq
    all_goals simp_all
  exact ⟨Or.inl ht, hi.held hbegun, Or.inr (Or.inl ht), ⟨n1, n2, n3⟩, Or.inl hp, hdone⟩

/-- C21 when the searcher polls, or its goroutine has already passed its starting gate (it has begun to wait
for updates). Missing: a request to a searcher without polling that arrives between `begin` and the moment
the goroutine passes the gate, see `not_updateNotLostFull`. -/
theorem update_not_lost_partial {c : Cfg} {rev : Nat} {es : List Ev} {s t : St} (h : Run c rev es s)
    (hs : ∀ e ∈ es, e.stop = false) (hu : Step c s .updateAccepted t) (hg : c.timer = true ∨ Ev.enter ∈ es) :
    CheckComes c t :=
  (update_asked h hs hu hg).checkComes

/-- Push updates only. -/
def pushOnly : Cfg := ⟨false, true, true⟩

/-- C21 as stated is false of the program: the request finds the channel still full with the start signal, which the
goroutine then takes for nothing but the start signal. -/
theorem not_updateNotLostFull : ¬ UpdateNotLostFull := by
  intro hf
  let s1 : St := { St.init 7 with begun := true, updateCh := true }
  have r1 : Run pushOnly 7 [.begin] s1 := .cons (.begin (St.init 7) rfl rfl) (.nil _)
  obtain ⟨k, hk⟩ := hf pushOnly 7 [.begin] s1 s1 r1 (by decide) (.updateAccepted s1 rfl rfl)
  have e1 : Exec pushOnly s1 [.gate, .enter] { s1 with updateCh := false, pc := .waiting } :=
    .cons (.gate s1 rfl rfl) (.cons (.enter _ rfl (Or.inr rfl)) (.nil _))
  rcases (hk _ _ e1 (by decide) (by decide)).2 with ⟨e, t, hp, hst⟩ | hs
  · clear hk e1 r1 hf; cases hst <;> simp_all [Ev.poller, s1, St.init, Cfg.timer, pushOnly]
  · exact hs rfl

/-! ## C22 -/

/-- `Wait` will return: before `doneCh` is closed the goroutine makes at most `k` steps, and it can always make one
(unless a search is under way that it has to wait for). -/
def WaitReturns (c : Cfg) (s : St) : Prop :=
  ∃ k, ∀ es t, Exec c s es t → (es.filter Ev.poller).length ≤ k ∧ (t.pc = .done ∨ CanGoOn c t)

/-- **C22**, the full claim: when a call of `Stop` has returned, `Wait` will return. -/
def StopWaitFull : Prop :=
  ∀ (c : Cfg) (rev : Nat) (es : List Ev) (s t : St), Run c rev es s → Step c s .stopReturn t → WaitReturns c t

theorem Told.waitReturns {c : Cfg} {s : St} (h : Told c s) : WaitReturns c s := by
  refine ⟨s.pc.toDone, fun es t he => ?_⟩
  have ha : Told c t := he.keep (fun s e t hs => Told.step hs) h
  refine ⟨by have := exec_toDone he h.flag; omega, ?_⟩
  by_cases hd : t.pc = .done
  · exact Or.inl hd
  refine Or.inr (canGoOn hd ha.hold fun hw => ?_)
  rcases ha.told with h | h | h | h
  · exact Or.inr (Or.inl h)
  · exact Or.inr (Or.inr h)
  · rw [hw] at h; simp at h
  · rw [hw] at h; simp at h

theorem run_stopping {c : Cfg} {rev : Nat} {es : List Ev} {s : St} (h : Run c rev es s) (hs : 0 < s.stopping) :
    s.begun = true := by
  cases hb : s.begun with
  | true => rfl
  | false => exact absurd (h.inv.fresh hb).2.2.2.1 (by omega)

/-- C22 for a searcher that polls. -/
theorem stop_wait_polling {c : Cfg} {rev : Nat} {es : List Ev} {s t : St} (h : Run c rev es s)
    (hst : Step c s .stopReturn t) (hp : c.timer = true) : WaitReturns c t := by
  cases hst with
  | stopReturn hs =>
    exact Told.waitReturns ⟨rfl, fun hh => h.inv.held (run_stopping h hs) hh, Or.inl hp⟩

/-- C22 for every searcher whose goroutine makes no step while `Stop` runs. Missing: the goroutine takes the signal
before `Stop` has set the flag, see `not_stopWaitFull`. -/
theorem stop_wait_partial {c : Cfg} {rev : Nat} {es es' : List Ev} {s s1 s2 t : St} (h : Run c rev es s)
    (h1 : Step c s .stopSend s1) (h2 : Exec c s1 es' s2) (hn : ∀ e ∈ es', e.poller = false)
    (h3 : Step c s2 .stopReturn t) : WaitReturns c t := by
  have hr : Run c rev (es ++ .stopSend :: es') s2 := Exec.append h (.cons h1 h2)
  have hsh : s2.shutdownCh = true := by
    refine h2.keepE (P := fun s => s.shutdownCh = true) (Q := fun e => e.poller = false) ?_ hn ?_
    · intro s e t hstep hq hp
      cases hstep <;> simp [Ev.poller] at hq <;> simp_all
    · cases h1; rfl
  cases h3 with
  | stopReturn hs =>
    exact Told.waitReturns ⟨rfl, fun hh => hr.inv.held (run_stopping hr hs) hh, Or.inr (Or.inl hsh)⟩

/-- C22 as stated is false of the program: the goroutine takes the signal of `Stop`, finds the flag not yet set, makes
a round and then waits for ever. -/
theorem not_stopWaitFull : ¬ StopWaitFull := by
  intro hf
  let s0 := St.init 7
  let s1 : St := { s0 with begun := true, updateCh := true }
  let s2 : St := { s1 with updateCh := false, pc := .waiting }
  let s3 : St := { s2 with shutdownCh := true, stopping := 1 }
  let s4 : St := { s2 with stopping := 1, pc := .woken }
  let s5 : St := { s2 with stopping := 1, pc := .waiting }
  have r : Run pushOnly 7 [.begin, .gate, .enter, .stopSend, .wake, .goOn, .check, .pulled (some 7), .release] s5 :=
    .cons (.begin s0 rfl rfl) <| .cons (.gate s1 rfl rfl) <| .cons (.enter _ rfl (Or.inr rfl)) <|
    .cons (.stopSend s2 rfl rfl) <| .cons (.wakeStop s3 rfl rfl) <| .cons (.goOn s4 rfl rfl) <|
    .cons (.check _ rfl) <| .cons (.pullSame _ rfl) <| .cons (.release _ none rfl) <| .nil _
  obtain ⟨k, hk⟩ := hf pushOnly 7 _ s5 _ r (.stopReturn s5 (by decide))
  rcases (hk _ _ (.nil _)).2 with hd | ⟨e, t, hp, hst⟩ | hs
  · simp [s5] at hd
  · clear hk r hf; cases hst <;> simp_all [Ev.poller, s5, s2, s1, s0, St.init, Cfg.timer, pushOnly]
  · exact hs rfl

/-! ## C23 -/

/-- **C23**, the full claim: the live index is always open and on disk. -/
def LiveUsableFull : Prop :=
  ∀ (c : Cfg) (rev : Nat) (es : List Ev) (s : St), Run c rev es s → (s.handles s.live).Usable

/-- What holds as long as replaced indexes can be destroyed. -/
structure Clean (s : St) : Prop where
  inv : Inv s
  usable : (s.handles s.live).Usable
  noUndo : ∀ n, s.pc ≠ .undo n
  result : ∀ r, s.pc = .releasing (some r) → r = (s.handles s.live).rev
  rev : (∀ o n, s.pc ≠ .swapped o n) → (∀ r, s.pc ≠ .releasing (some r)) → s.rev = (s.handles s.live).rev

theorem Clean.step {c : Cfg} {s t : St} {e : Ev} (h : Step c s e t) (hq : e ≠ .destroyed false) (hc : Clean s) :
    Clean t := by
  have hi := Inv.step h hc.inv
  obtain ⟨h1, h2, h3, h4, h5⟩ := hc
  cases h
  case destroyed o n ok hd a d =>
    obtain ⟨k1, k2, k3, k4, k5⟩ := h1.swapped o n a
    cases ok with
    | false => exact absurd rfl hq
    | true =>
      refine ⟨hi, ?_, by simp, ?_, by simp⟩
      · show (setHandle s o hd s.live).Usable
        rw [k1]
        simpa [setHandle, Ne.symm k2] using k5
      · intro r hr
        simp only [if_true, PC.releasing.injEq, Option.some.injEq] at hr
        rw [← hr]
        show _ = (setHandle s o hd s.live).rev
        rw [k1]
        simp [setHandle, Ne.symm k2]
  case undo n ok hd a b d => exact absurd a (h3 n)
  case buildOk r a =>
    have hne : s.live ≠ s.count := Nat.ne_of_lt h1.live
    refine ⟨hi, ?_, by simp, by simp, ?_⟩
    · show (setHandle s s.count ⟨r, true, true⟩ s.live).Usable
      simpa [setHandle, hne] using h2
    · intro _ _
      show s.rev = (setHandle s s.count ⟨r, true, true⟩ s.live).rev
      simp only [setHandle, hne, if_false]
      exact h5 (by simp [a]) (by simp [a])
  case swapLock n a b => exact ⟨hi, (h1.swapping n a).2.2, by simp, by simp, by simp⟩
  case release res a =>
    refine ⟨hi, h2, by simp, by simp, fun _ _ => ?_⟩
    cases res with
    | none => exact h5 (by simp [a]) (by simp [a])
    | some r => exact h4 r a
  all_goals first
    | exact ⟨hi, h2, h3, h4, h5⟩
    | (refine ⟨hi, h2, by simp, by simp, fun _ _ => h5 ?_ ?_⟩ <;> simp_all)

theorem Run.clean {c : Cfg} {rev : Nat} {es : List Ev} {s : St} (h : Run c rev es s) (hd : Ev.destroyed false ∉ es) :
    Clean s :=
  Exec.keepE (Q := fun e => e ≠ .destroyed false) (fun _ _ _ hs hq => Clean.step hs hq) h
    (fun e he hh => hd (hh ▸ he)) ⟨Inv.init rev, by simp [St.init, Handle.Usable], by simp [St.init],
      by simp [St.init], by simp [St.init]⟩

/-- C23 as long as every replaced index could be destroyed. Missing: after a failure to destroy the replaced index, the
program destroys the new one, which is already live, see `not_liveUsableFull`. -/
theorem live_index_usable_partial {c : Cfg} {rev : Nat} {es : List Ev} {s : St} (h : Run c rev es s)
    (hd : Ev.destroyed false ∉ es) : (s.handles s.live).Usable := (h.clean hd).usable

/-- C23 as stated is false of the program. -/
theorem not_liveUsableFull : ¬ LiveUsableFull := by
  intro hf
  let s0 := St.init 7
  let s1 : St := { s0 with begun := true, updateCh := true }
  let s2 : St := { s1 with updateCh := false, pc := .waiting }
  let c : Cfg := ⟨true, false, true⟩
  have r : ∃ s, Run c 7 [.begin, .gate, .enter, .wake, .goOn, .check, .pulled (some 8), .built true, .swapLock,
      .destroyed false, .undone] s ∧ (s.handles s.live).opened = false := by
    refine ⟨_, .cons (.begin s0 rfl rfl) <| .cons (.gate s1 rfl rfl) <| .cons (.enter _ rfl (Or.inl rfl)) <|
      .cons (.wakeTimer s2 rfl rfl) <| .cons (.goOn _ rfl rfl) <| .cons (.check _ rfl) <|
      .cons (.pullNew _ 8 rfl (by decide)) <| .cons (.buildOk _ 8 rfl) <| .cons (.swapLock _ 1 rfl rfl) <|
      .cons (.destroyed _ 0 1 false _ rfl (.removeFails _ rfl)) <|
      .cons (.undo _ 1 true _ rfl (by simp [s2, s1, s0, St.init]) (.ok _ rfl)) <| .nil _, rfl⟩
  obtain ⟨s, h1, h2⟩ := r
  have := (hf c 7 _ s h1).1
  rw [h2] at this
  simp at this

/-! ## C24 -/

/-- **C24.** A search uses one index, the one that was live when it started; that index stays live while the search
runs, and the revision reported is its revision. -/
theorem search_one_index {c : Cfg} {rev : Nat} {es0 es : List Ev} {s0 s1 s2 s3 : St} {i r h : Nat}
    (h0 : Run c rev es0 s0) (h1 : Step c s0 (.searchStart i) s1) (h2 : Exec c s1 es s2)
    (hn : ∀ r h, Ev.searchEnd i r h ∉ es) (h3 : Step c s2 (.searchEnd i r h) s3) :
    h = s0.live ∧ s2.live = s0.live ∧ r = (s0.handles s0.live).rev ∧ Ev.swapLock ∉ es := by
  have i1 := Inv.step h1 h0.inv
  have start : (∃ x, (i, x) ∈ s1.searches) ∧ s1.live = s0.live ∧
      (s1.handles s0.live).rev = (s0.handles s0.live).rev := by
    cases h1
    exact ⟨⟨none, by simp⟩, rfl, rfl⟩
  have go : ∀ {a b : St} {e : Ev}, Step c a e b → Inv a → (∀ r h, e ≠ Ev.searchEnd i r h) →
      ((∃ x, (i, x) ∈ a.searches) ∧ a.live = s0.live ∧ (a.handles s0.live).rev = (s0.handles s0.live).rev) →
      (((∃ x, (i, x) ∈ b.searches) ∧ b.live = s0.live ∧ (b.handles s0.live).rev = (s0.handles s0.live).rev) ∧
        e ≠ .swapLock) := by
    rintro a b e hst hi hne ⟨⟨x, hx⟩, hl, hr⟩
    cases hst
    case searchStart j _ _ _ => exact ⟨⟨⟨x, by simp [hx]⟩, hl, hr⟩, by simp⟩
    case searchRead j hj =>
      refine ⟨⟨?_, hl, hr⟩, by simp⟩
      by_cases hxj : (i, x) = (j, none)
      · exact ⟨some a.live, List.mem_map.2 ⟨(i, x), hx, by rw [if_pos hxj]; simp at hxj; simp [hxj.1]⟩⟩
      · exact ⟨x, List.mem_map.2 ⟨(i, x), hx, by rw [if_neg hxj]⟩⟩
    case searchEnd j hd hj =>
      refine ⟨⟨⟨x, List.mem_filter.2 ⟨hx, ?_⟩⟩, hl, hr⟩, by simp⟩
      have : i ≠ j := fun hh => hne (a.handles hd).rev hd (by rw [hh])
      simp [this]
    case swapLock n _ hs => rw [hs] at hx; simp at hx
    case destroyed o n ok hd ha _ =>
      have := (hi.swapped o n ha).2.2.2.1
      rw [this] at hx; simp at hx
    case buildOk r _ =>
      refine ⟨⟨⟨x, hx⟩, hl, ?_⟩, by simp⟩
      have : s0.live ≠ a.count := by rw [← hl]; exact Nat.ne_of_lt hi.live
      simpa [setHandle, this] using hr
    case undo n ok hd ha hb hdes =>
      refine ⟨⟨⟨x, hx⟩, hl, ?_⟩, by simp⟩
      show (setHandle a n hd s0.live).rev = _
      unfold setHandle
      split
      · rename_i he
        rw [← hr, he]
        cases hdes <;> rfl
      · exact hr
    all_goals exact ⟨⟨⟨x, hx⟩, hl, hr⟩, by simp⟩
  have key : ∀ {a b : St} {es : List Ev}, Exec c a es b → (∀ r h, Ev.searchEnd i r h ∉ es) → Inv a →
      ((∃ x, (i, x) ∈ a.searches) ∧ a.live = s0.live ∧ (a.handles s0.live).rev = (s0.handles s0.live).rev) →
      (((∃ x, (i, x) ∈ b.searches) ∧ b.live = s0.live ∧ (b.handles s0.live).rev = (s0.handles s0.live).rev) ∧
        Ev.swapLock ∉ es ∧ Inv b) := by
    intro a b es hx hn hi hp
    induction hx with
    | nil => exact ⟨hp, by simp, hi⟩
    | @cons a t b e es hst _ ih =>
      obtain ⟨g1, g2⟩ := go hst hi (fun r h hh => hn r h (by rw [hh]; exact List.mem_cons_self ..)) hp
      obtain ⟨k1, k2, k3⟩ := ih (fun r h hh => hn r h (List.mem_cons_of_mem _ hh)) (Inv.step hst hi) g1
      refine ⟨k1, ?_, k3⟩
      simp only [List.mem_cons, not_or]
      exact ⟨fun hh => g2 hh.symm, k2⟩
  obtain ⟨⟨_, k2, k3⟩, k4, k5⟩ := key h2 hn i1 start
  cases h3 with
  | searchEnd _ _ hm =>
    have hh := k5.searches i h hm
    rw [k2] at hh
    exact ⟨hh, k2, by rw [hh, k3], k4⟩

/-- **C24, continued.** An index that is open when a search begins to use it stays open until that search ends,
whatever fails. -/
theorem search_index_stays_open {c : Cfg} {rev : Nat} {es0 es : List Ev} {s0 s1 s2 : St} {i : Nat}
    (h0 : Run c rev es0 s0) (h1 : Step c s0 (.searchRead i) s1) (ho : (s0.handles s0.live).opened = true)
    (h2 : Exec c s1 es s2) (hn : ∀ r h, Ev.searchEnd i r h ∉ es) : (s2.handles s0.live).opened = true := by
  have i1 := Inv.step h1 h0.inv
  have start : (i, some s0.live) ∈ s1.searches ∧ (s1.handles s0.live).opened = true := by
    cases h1 with
    | searchRead _ hm => exact ⟨List.mem_map.2 ⟨_, hm, by simp⟩, ho⟩
  have go : ∀ {a b : St} {e : Ev}, Step c a e b → Inv a → (∀ r h, e ≠ Ev.searchEnd i r h) →
      ((i, some s0.live) ∈ a.searches ∧ (a.handles s0.live).opened = true) →
      ((i, some s0.live) ∈ b.searches ∧ (b.handles s0.live).opened = true) := by
    rintro a b e hst hi hne ⟨hx, hr⟩
    cases hst
    case searchStart j _ _ _ => exact ⟨by simp [hx], hr⟩
    case searchRead j hj => exact ⟨List.mem_map.2 ⟨_, hx, by simp⟩, hr⟩
    case searchEnd j hd hj =>
      refine ⟨List.mem_filter.2 ⟨hx, ?_⟩, hr⟩
      have : i ≠ j := fun hh => hne (a.handles hd).rev hd (by rw [hh])
      simp [this]
    case swapLock n _ hs => rw [hs] at hx; simp at hx
    case destroyed o n ok hd ha _ =>
      have := (hi.swapped o n ha).2.2.2.1
      rw [this] at hx; simp at hx
    case buildOk r _ =>
      refine ⟨hx, ?_⟩
      show (setHandle a a.count ⟨r, true, true⟩ s0.live).opened = true
      unfold setHandle
      split
      · rfl
      · exact hr
    case undo n ok hd ha hb hdes =>
      refine ⟨hx, ?_⟩
      have : s0.live ≠ n := fun hh => hb i (hh ▸ hx)
      simpa [setHandle, this] using hr
    all_goals exact ⟨hx, hr⟩
  have key : ∀ {a b : St} {es : List Ev}, Exec c a es b → (∀ r h, Ev.searchEnd i r h ∉ es) → Inv a →
      ((i, some s0.live) ∈ a.searches ∧ (a.handles s0.live).opened = true) →
      (b.handles s0.live).opened = true := by
    intro a b es hx hn hi hp
    induction hx with
    | nil => exact hp.2
    | @cons a t b e es hst _ ih =>
      exact ih (fun r h hh => hn r h (List.mem_cons_of_mem _ hh)) (Inv.step hst hi)
        (go hst hi (fun r h hh => hn r h (by rw [hh]; exact List.mem_cons_self ..)) hp)
  exact key h2 hn i1 start

/-! ## C46 -/

/-- **C46, no needless reindex.** When the repository is still at the revision of the live index, nothing is built and
the live index stays, until the repository is asked again. -/
theorem no_needless_reindex {c : Cfg} {rev : Nat} {es es' : List Ev} {s t u : St} (h : Run c rev es s)
    (hd : Ev.destroyed false ∉ es) (h1 : Step c s (.pulled (some (s.handles s.live).rev)) t)
    (h2 : Exec c t es' u) (hn : ∀ x, Ev.pulled x ∉ es') :
    (∀ ok, Ev.built ok ∉ es') ∧ u.live = s.live := by
  have hc := h.clean hd
  have hpc : t.pc = .releasing none ∧ t.live = s.live := by
    generalize hx : Ev.pulled (some (s.handles s.live).rev) = e at h1
    cases h1 <;> simp at hx
    case pullSame _ => exact ⟨rfl, rfl⟩
    case pullNew r hp hne => exact absurd (hx.symm.trans (hc.rev (by simp [hp]) (by simp [hp])).symm) hne
  have key : ∀ {a b : St} {es : List Ev}, Exec c a es b → (∀ x, Ev.pulled x ∉ es) →
      (a.pc = .releasing none ∨ a.pc = .waiting ∨ a.pc = .woken ∨ a.pc = .acquiring ∨ a.pc = .pulling ∨ a.pc = .done) →
      (∀ ok, Ev.built ok ∉ es) ∧ b.live = a.live := by
    intro a b es hx hn hp
    induction hx with
    | nil => exact ⟨by simp, rfl⟩
    | @cons a t b e es hst _ ih =>
      have hne : ∀ x, e ≠ Ev.pulled x := fun x hh => hn x (by rw [hh]; exact List.mem_cons_self ..)
      have : (t.pc = .releasing none ∨ t.pc = .waiting ∨ t.pc = .woken ∨ t.pc = .acquiring ∨ t.pc = .pulling ∨ t.pc = .done) ∧
          (∀ ok, e ≠ Ev.built ok) ∧ t.live = a.live := by
        cases hst <;> simp_all
      obtain ⟨i1, i2⟩ := ih (fun x hh => hn x (List.mem_cons_of_mem _ hh)) this.1
      refine ⟨fun ok hm => ?_, by rw [i2, this.2.2]⟩
      rcases List.mem_cons.1 hm with hm | hm
      · exact this.2.1 ok hm.symm
      · exact i1 ok hm
  obtain ⟨k1, k2⟩ := key h2 hn (Or.inl hpc.1)
  exact ⟨k1, by rw [k2, hpc.2]⟩

/-- **C46, failures.** When fetching or building failed, the live index is unchanged (and usable, as long as replaced
indexes could be destroyed), until the repository is asked again; and if the searcher polls, that will be. -/
theorem failed_update_harmless {c : Cfg} {rev : Nat} {es es' : List Ev} {s t u : St} {e : Ev} (h : Run c rev es s)
    (he : e = .pulled none ∨ e = .built false) (h1 : Step c s e t) (h2 : Exec c t es' u)
    (hn : ∀ x, Ev.pulled x ∉ es') :
    u.live = s.live ∧ (u.handles u.live) = (s.handles s.live) ∧ (∀ ok, Ev.built ok ∉ es') ∧
      (c.timer = true → (∀ e ∈ es, e.stop = false) → CheckComes c t) := by
  have hpc : t.pc = .releasing none ∧ t.live = s.live ∧ t.handles = s.handles := by
    rcases he with rfl | rfl <;> cases h1 <;> exact ⟨rfl, rfl, rfl⟩
  have key : ∀ {a b : St} {es : List Ev}, Exec c a es b → (∀ x, Ev.pulled x ∉ es) →
      (a.pc = .releasing none ∨ a.pc = .waiting ∨ a.pc = .woken ∨ a.pc = .acquiring ∨ a.pc = .pulling ∨ a.pc = .done) →
      (∀ ok, Ev.built ok ∉ es) ∧ b.live = a.live ∧ b.handles = a.handles := by
    intro a b es hx hn hp
    induction hx with
    | nil => exact ⟨by simp, rfl, rfl⟩
    | @cons a t b e es hst _ ih =>
      have hne : ∀ x, e ≠ Ev.pulled x := fun x hh => hn x (by rw [hh]; exact List.mem_cons_self ..)
      have : (t.pc = .releasing none ∨ t.pc = .waiting ∨ t.pc = .woken ∨ t.pc = .acquiring ∨ t.pc = .pulling ∨ t.pc = .done) ∧
          (∀ ok, e ≠ Ev.built ok) ∧ t.live = a.live ∧ t.handles = a.handles := by
        cases hst <;> simp_all
      obtain ⟨i1, i2, i3⟩ := ih (fun x hh => hn x (List.mem_cons_of_mem _ hh)) this.1
      refine ⟨fun ok hm => ?_, by rw [i2, this.2.2.1], by rw [i3, this.2.2.2]⟩
      rcases List.mem_cons.1 hm with hm | hm
      · exact this.2.1 ok hm.symm
      · exact i1 ok hm
  obtain ⟨k1, k2, k3⟩ := key h2 hn (Or.inl hpc.1)
  refine ⟨by rw [k2, hpc.2.1], by rw [k2, k3, hpc.2.1, hpc.2.2], k1, fun ht hs => ?_⟩
  have hs' : ∀ x ∈ es ++ [e], x.stop = false := by
    intro x hx
    rcases List.mem_append.1 hx with hx | hx
    · exact hs x hx
    · rw [List.mem_singleton] at hx; rcases he with rfl | rfl <;> subst hx <;> rfl
  obtain ⟨n1, n2, n3, _⟩ := run_noStop (Exec.snoc h h1) hs'
  refine Asked.checkComes ⟨Or.inl ht, ?_, Or.inr (Or.inl ht), ⟨n1, n2, n3⟩, ?_, ?_⟩
  · rw [hpc.1]; simp
  · unfold Cfg.timer at ht; simp only [Bool.and_eq_true] at ht; exact Or.inl ht.1
  · rw [hpc.1]; simp

/-- **C46, retry.** When the repository reports another revision than that of the live index (also if it reported it
before and fetching or building failed), the next thing the goroutine does is to build an index for it. -/
theorem new_revision_built {c : Cfg} {rev r : Nat} {es es' : List Ev} {s t u : St} (h : Run c rev es s)
    (hd : Ev.destroyed false ∉ es) (hr : r ≠ (s.handles s.live).rev) (h1 : Step c s (.pulled (some r)) t)
    (h2 : Exec c t es' u) (hp : es'.filter Ev.poller ≠ []) :
    ∃ ok rest, es'.filter Ev.poller = .built ok :: rest := by
  have hc := h.clean hd
  have hpc : t.pc = .building r := by
    generalize hx : Ev.pulled (some r) = e at h1
    cases h1 <;> simp at hx
    case pullSame hp =>
      rw [hc.rev (by simp [hp]) (by simp [hp])] at hx
      exact absurd hx hr
    case pullNew r' hp hne => rw [hx]
  have key : ∀ {a b : St} {es : List Ev}, Exec c a es b → a.pc = .building r → es.filter Ev.poller ≠ [] →
      ∃ ok rest, es.filter Ev.poller = .built ok :: rest := by
    intro a b es hx
    induction hx with
    | nil => simp
    | @cons a t b e es hst _ ih =>
      intro hpc hp
      by_cases he : e.poller = true
      · rw [List.filter_cons, if_pos he]
        clear ih
        cases hst <;> simp_all [Ev.poller]
      · have := other_pc hst (by simpa using he)
        rw [List.filter_cons, if_neg he] at hp ⊢
        exact ih (this.trans hpc) hp
  exact key h2 hpc hp

/-! ## Cases -/

/-- A searcher that polls and is pushed, through a whole update. -/
theorem update_run : ∃ s, Run ⟨true, true, true⟩ 7 [.begin, .gate, .enter, .searchStart 0, .updateAccepted, .searchRead 0,
    .wake, .goOn, .check, .pulled (some 8), .built true, .searchEnd 0 7 0, .swapLock, .destroyed true, .release] s ∧
    s.live = 1 ∧ s.rev = 8 ∧ (s.handles 0).opened = false := by
  let s0 := St.init 7
  let s1 : St := { s0 with begun := true, updateCh := true }
  let s2 : St := { s1 with updateCh := false, pc := .waiting }
  exact ⟨_, .cons (.begin s0 rfl rfl) <| .cons (.gate s1 rfl rfl) <| .cons (.enter _ rfl (Or.inl rfl)) <|
    .cons (.searchStart s2 0 rfl rfl (by simp [s2, s1, s0, St.init])) <| .cons (.updateAccepted _ rfl rfl) <|
    .cons (.searchRead _ 0 (by simp)) <|
    .cons (.wakeUpdate _ rfl rfl) <| .cons (.goOn _ rfl rfl) <| .cons (.check _ rfl) <|
    .cons (.pullNew _ 8 rfl (by decide)) <| .cons (.buildOk _ 8 rfl) <|
    .cons (.searchEnd _ 0 0 (by simp [s2, s1, s0, St.init])) <| .cons (.swapLock _ 1 rfl (by simp [s2, s1, s0, St.init])) <|
    .cons (.destroyed _ 0 1 true _ rfl (.ok _ rfl)) <| .cons (.release _ (some 8) rfl) <| .nil _, rfl, rfl, rfl⟩

end Hound.Sr
