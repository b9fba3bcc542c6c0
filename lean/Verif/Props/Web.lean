import Verif.Model.Web

/-!
# C35: requests are served only when the repositories are loaded
-/

namespace Hound.Web

variable {Idx : Type}

theorem run_append (s : Sv Idx) (a b : List (Ev Idx)) :
    run s (a ++ b) = (run s a).bind fun s' => run s' b := by
  induction a generalizing s with
  | nil => rfl
  | cons e es ih =>
    simp only [List.cons_append, run]
    cases step s e with
    | none => rfl
    | some s' => exact ih s'

/-- What is known of a state after the events `t`. -/
structure Inv (t : List (Ev Idx)) (s : Sv Idx) : Prop where
  loading : s.main = .loading → (∀ idx, Ev.loadDone idx ∉ t) ∧ Ev.set ∉ t ∧ s.mux = none
  loaded : ∀ idx, s.main = .loaded idx ∨ s.main = .locked idx → Ev.loadDone idx ∈ t ∧ Ev.set ∉ t ∧ s.mux = none
  ready : s.main = .ready → ∃ idx, Ev.loadDone idx ∈ t ∧ Ev.set ∈ t ∧ s.mux = some idx
  dead : s.main = .dead → Ev.set ∉ t ∧ s.mux = none
  once : ∀ i j, Ev.loadDone i ∈ t → Ev.loadDone j ∈ t → i = j

theorem Inv.mux {t : List (Ev Idx)} {s : Sv Idx} (h : Inv t s) :
    (Ev.set ∈ t → ∃ idx, Ev.loadDone idx ∈ t ∧ s.mux = some idx) ∧ (Ev.set ∉ t → s.mux = none) := by
  cases hm : s.main with
  | loading => have := h.loading hm; exact ⟨fun hs => absurd hs this.2.1, fun _ => this.2.2⟩
  | loaded idx => have := h.loaded idx (.inl hm); exact ⟨fun hs => absurd hs this.2.1, fun _ => this.2.2⟩
  | locked idx => have := h.loaded idx (.inr hm); exact ⟨fun hs => absurd hs this.2.1, fun _ => this.2.2⟩
  | ready =>
    obtain ⟨idx, a, b, c⟩ := h.ready hm
    exact ⟨fun _ => ⟨idx, a, c⟩, fun hs => absurd b hs⟩
  | dead => have := h.dead hm; exact ⟨fun hs => absurd hs this.1, fun _ => this.2⟩

theorem inv_init : Inv [] ({} : Sv Idx) := by
  constructor <;> simp

theorem inv_same {t : List (Ev Idx)} {s s' : Sv Idx} {e : Ev Idx} (h : Inv t s)
    (h1 : s'.main = s.main) (h2 : s'.mux = s.mux) (h3 : e ≠ .set) (h4 : ∀ idx, e ≠ .loadDone idx) :
    Inv (t ++ [e]) s' := by
  have a : Ev.set ∈ t ++ [e] ↔ Ev.set ∈ t := by simp [Ne.symm h3]
  have b : ∀ idx, Ev.loadDone idx ∈ t ++ [e] ↔ Ev.loadDone idx ∈ t := by
    intro idx; simp [Ne.symm (h4 idx)]
  constructor
  · intro hm; simp only [a, b]; rw [h2]; exact h.loading (h1 ▸ hm)
  · intro idx hm; simp only [a, b]; rw [h2]; exact h.loaded idx (h1 ▸ hm)
  · intro hm; simp only [a, b]; rw [h2]; exact h.ready (h1 ▸ hm)
  · intro hm; simp only [a]; rw [h2]; exact h.dead (h1 ▸ hm)
  · intro i j; simp only [b]; exact h.once i j

theorem inv_step {t : List (Ev Idx)} {s s' : Sv Idx} {e : Ev Idx} (h : Inv t s)
    (hs : step s e = some s') : Inv (t ++ [e]) s' := by
  cases e with
  | health id =>
    simp only [step] at hs
    split at hs
    · simp at hs
    · split at hs
      · simp at hs
      · obtain rfl := Option.some.inj hs
        exact inv_same h rfl rfl (by simp) (by simp)
  | enter id =>
    simp only [step] at hs
    split at hs
    · simp at hs
    · simp at hs
    · split at hs
      · simp at hs
      · obtain rfl := Option.some.inj hs
        exact inv_same h rfl rfl (by simp) (by simp)
  | reply id =>
    simp only [step] at hs
    split at hs
    · simp at hs
    · split at hs
      · simp at hs
      · obtain rfl := Option.some.inj hs
        exact inv_same h rfl rfl (by simp) (by simp)
  | loadDone idx =>
    simp only [step] at hs
    split at hs
    · rename_i hm
      obtain rfl := Option.some.inj hs
      obtain ⟨a, b, c⟩ := h.loading hm
      constructor
      · simp
      · intro i hi
        simp only [Main.loaded.injEq, reduceCtorEq, or_false] at hi
        subst hi
        simp [b, c]
      · simp
      · simp
      · intro i j hi hj
        simp only [List.mem_append, List.mem_singleton, Ev.loadDone.injEq, a, false_or] at hi hj
        rw [hi, hj]
    · simp at hs
  | crash =>
    simp only [step] at hs
    have k : s.mux = none ∧ Ev.set ∉ t ∧ s' = { s with main := .dead } := by
      split at hs
      · rename_i hm
        have := h.loading hm
        exact ⟨this.2.2, this.2.1, (Option.some.inj hs).symm⟩
      · rename_i idx hm
        have := h.loaded idx (.inl hm)
        exact ⟨this.2.2, this.2.1, (Option.some.inj hs).symm⟩
      · simp at hs
    obtain ⟨k1, k2, rfl⟩ := k
    constructor
    · simp
    · simp
    · simp
    · intro _; simp [k1, k2]
    · intro i j; simp; exact h.once i j
  | lock =>
    simp only [step] at hs
    split at hs
    · rename_i idx hm
      split at hs
      · obtain rfl := Option.some.inj hs
        have := h.loaded idx (.inl hm)
        constructor
        · simp
        · intro i hi
          simp only [reduceCtorEq, Main.locked.injEq, false_or] at hi
          subst hi
          simpa using this
        · simp
        · simp
        · intro i j; simp; exact h.once i j
      · simp at hs
    · simp at hs
  | set =>
    simp only [step] at hs
    split at hs
    · rename_i idx hm
      obtain rfl := Option.some.inj hs
      have := h.loaded idx (.inr hm)
      constructor
      · simp
      · simp
      · intro _; exact ⟨idx, by simp [this.1], by simp, rfl⟩
      · simp
      · intro i j; simp; exact h.once i j
    · simp at hs

theorem inv_run {t : List (Ev Idx)} : ∀ {u : List (Ev Idx)} {s s' : Sv Idx}, Inv u s →
    run s t = some s' → Inv (u ++ t) s' := by
  induction t with
  | nil => intro u s s' h hr; simp [run] at hr; subst hr; simpa using h
  | cons e es ih =>
    intro u s s' h hr
    simp only [run] at hr
    cases hs : step s e with
    | none => simp [hs] at hr
    | some s1 =>
      simp only [hs] at hr
      have := ih (inv_step h hs) hr
      simpa using this

theorem lookup_filter_ne (l : List (Nat × Option Idx)) {id j : Nat} (h : j ≠ id) :
    (l.filter fun e => !(id == e.1)).lookup j = l.lookup j := by
  induction l with
  | nil => rfl
  | cons e es ih =>
    obtain ⟨k, v⟩ := e
    simp only [List.filter_cons]
    by_cases hk : id = k
    · subst hk
      have : (j == id) = false := by simpa using h
      simp [List.lookup_cons, this, ih]
    · have : (id == k) = false := by simpa using hk
      simp only [this, Bool.not_false, if_true, List.lookup_cons, ih]

/-- A request that has begun keeps the handler it has read until it is answered. -/
theorem keeps {id : Nat} {m : Option Idx} : ∀ {t : List (Ev Idx)} {s s' : Sv Idx},
    s.inside.lookup id = some m → id ∈ s.seen → Ev.reply id ∉ t → run s t = some s' →
    s'.inside.lookup id = some m := by
  intro t
  induction t with
  | nil => intro s s' h _ _ hr; simp [run] at hr; subst hr; exact h
  | cons e es ih =>
    intro s s' h hseen hnot hr
    simp only [run] at hr
    simp only [List.mem_cons, not_or] at hnot
    cases hs : step s e with
    | none => simp [hs] at hr
    | some s1 =>
      simp only [hs] at hr
      refine ih ?_ ?_ hnot.2 hr
      · cases e with
        | health i =>
          simp only [step] at hs
          split at hs
          · simp at hs
          · split at hs
            · simp at hs
            · obtain rfl := Option.some.inj hs; exact h
        | enter i =>
          simp only [step] at hs
          split at hs
          · simp at hs
          · simp at hs
          · split at hs
            · simp at hs
            · rename_i hin
              obtain rfl := Option.some.inj hs
              have : (id == i) = false := by
                rw [beq_eq_false_iff_ne]; rintro rfl; exact hin hseen
              simp only [List.lookup_cons, this]
              exact h
        | reply i =>
          simp only [step] at hs
          split at hs
          · simp at hs
          · split at hs
            · simp at hs
            · obtain rfl := Option.some.inj hs
              have hne : id ≠ i := fun he => hnot.1 (by rw [he])
              simp only
              rw [lookup_filter_ne _ hne]; exact h
        | loadDone idx =>
          simp only [step] at hs
          split at hs
          · obtain rfl := Option.some.inj hs; exact h
          · simp at hs
        | crash =>
          simp only [step] at hs
          split at hs
          · obtain rfl := Option.some.inj hs; exact h
          · obtain rfl := Option.some.inj hs; exact h
          · simp at hs
        | lock =>
          simp only [step] at hs
          split at hs
          · split at hs
            · obtain rfl := Option.some.inj hs; exact h
            · simp at hs
          · simp at hs
        | set =>
          simp only [step] at hs
          split at hs
          · obtain rfl := Option.some.inj hs; exact h
          · simp at hs
      · cases e <;> simp only [step] at hs <;> repeat' split at hs
        all_goals first
          | (simp at hs; done)
          | (obtain rfl := Option.some.inj hs
             first
               | exact hseen
               | exact List.mem_cons_of_mem _ hseen)

/-- **C35**. Take any execution in which a request (not for the health check) begins after the events
`t1` and is answered after `t2` more. If the handler was installed before it began, it is answered by the
handlers for the searchers that loading produced; in particular all repositories were loaded before. If
not, the answer is "not ready". So before loading has finished every such request is answered "not
ready", and once the server is ready it stays ready. -/
theorem ready_gate {t1 t2 : List (Ev Idx)} {id : Nat} {s : Sv Idx}
    (h : run {} (t1 ++ .enter id :: (t2 ++ [.reply id])) = some s) (hfirst : Ev.reply id ∉ t2) :
    ∃ r, s.log.head? = some (id, r) ∧
      (Ev.set ∈ t1 → ∃ idx, Ev.loadDone idx ∈ t1 ∧ (∀ j, Ev.loadDone j ∈ t1 → j = idx) ∧ r = .served idx) ∧
      (Ev.set ∉ t1 → r = .notReady) := by
  rw [run_append] at h
  cases h1 : run {} t1 with
  | none => simp [h1] at h
  | some s1 =>
    simp only [h1, Option.bind_some, run] at h
    have hinv := inv_run inv_init h1
    simp only [List.nil_append] at hinv
    cases h2 : step s1 (.enter id) with
    | none => simp [h2] at h
    | some s2 =>
      simp only [h2] at h
      have hin : s2.inside.lookup id = some s1.mux ∧ id ∈ s2.seen := by
        simp only [step] at h2
        split at h2
        · simp at h2
        · simp at h2
        · split at h2
          · simp at h2
          · obtain rfl := Option.some.inj h2
            simp
      rw [run_append] at h
      cases h3 : run s2 t2 with
      | none => simp [h3] at h
      | some s3 =>
        simp only [h3, Option.bind_some, run] at h
        have hk := keeps hin.1 hin.2 hfirst h3
        have hfin : s.log.head? = some (id, replyOf s1.mux) := by
          cases h4 : step s3 (.reply id) with
          | none => simp [h4] at h
          | some s4 =>
            simp only [h4, Option.some.injEq] at h
            subst h
            simp only [step, hk] at h4
            split at h4
            · simp at h4
            · obtain rfl := Option.some.inj h4
              simp
        refine ⟨_, hfin, ?_, ?_⟩
        · intro hset
          obtain ⟨idx, hl, hm⟩ := hinv.mux.1 hset
          exact ⟨idx, hl, fun j hj => hinv.once j idx hj hl, by rw [hm]; rfl⟩
        · intro hset
          rw [hinv.mux.2 hset]; rfl

/-- **C35**, the order of events: the handler is installed only after loading has finished. -/
theorem set_after_load {t : List (Ev Idx)} {s : Sv Idx} (h : run {} t = some s) (hset : Ev.set ∈ t) :
    ∃ idx, Ev.loadDone idx ∈ t ∧ s.mux = some idx := by
  have hinv := inv_run inv_init h
  simp only [List.nil_append] at hinv
  exact hinv.mux.1 hset

/-- **C35**, the health check is answered at any time while the process runs. -/
theorem health_always {s : Sv Idx} (hd : s.main ≠ .dead) {id : Nat} (hf : id ∉ s.seen) :
    ∃ s', step s (.health id) = some s' ∧ s'.log.head? = some (id, .healthy) := by
  simp only [step]
  split
  · rename_i hm; exact absurd hm hf
  · exact ⟨_, rfl, rfl⟩

/-- Three requests: one begins before and one after the handler is installed, one asks for the health
check while repositories are loading. -/
example : (run (Idx := Nat) {} [.enter 1, .health 2, .reply 1, .loadDone 7, .enter 3, .reply 3, .lock, .set,
    .enter 4, .reply 4]).map (·.log) =
    some [(4, .served 7), (3, .notReady), (1, .notReady), (2, .healthy)] := rfl

/-- The write lock waits for a request that is being served. -/
example : (run (Idx := Nat) {} [.loadDone 7, .enter 3, .lock]).isNone := rfl

end Hound.Web
