import Verif.Spec.Shutdown
import Verif.Props.Searcher

/-!
# C73: a termination request ends the server, between updates
-/

namespace Hound.Sr

/-- Every index but the live one is gone, or about to be swapped in, or just swapped out. -/
structure Tidy (s : St) : Prop where
  clean : Clean s
  gone : ∀ h < s.count, h ≠ s.live → s.pc = .swapping h ∨ (∃ n, s.pc = .swapped h n) ∨
    ((s.handles h).opened = false ∧ (s.handles h).onDisk = false)

theorem Tidy.step {c : Cfg} {s t : St} {e : Ev} (h : Step c s e t) (hq : e ≠ .destroyed false) (hc : Tidy s) :
    Tidy t := by
  have hcl := Clean.step h hq hc.clean
  obtain ⟨h1, h2⟩ := hc
  refine ⟨hcl, ?_⟩
  cases h
  case destroyed o n ok hd a d =>
    cases ok with
    | false => exact absurd rfl hq
    | true =>
      intro k hk hne
      refine Or.inr (Or.inr ?_)
      show (setHandle s o hd k).opened = false ∧ (setHandle s o hd k).onDisk = false
      by_cases hko : k = o
      · cases d
        simp [setHandle, hko]
      · rcases h2 k hk hne with h | ⟨m, h⟩ | h
        · simp [a] at h
        · rw [a] at h
          simp only [PC.swapped.injEq] at h
          exact absurd h.1.symm hko
        · simpa [setHandle, hko] using h
  case undo n ok hd a b d => exact absurd a (h1.noUndo n)
  case buildOk r a =>
    intro k hk hne
    by_cases hkc : k = s.count
    · exact Or.inl (by rw [hkc])
    · have hk' : k < s.count := by
        have : k < s.count + 1 := hk
        omega
      rcases h2 k hk' hne with h | ⟨m, h⟩ | h
      · simp [a] at h
      · simp [a] at h
      · refine Or.inr (Or.inr ?_)
        show (setHandle s s.count _ k).opened = false ∧ (setHandle s s.count _ k).onDisk = false
        simpa [setHandle, hkc] using h
  case swapLock n a b =>
    intro k hk hne
    have hne' : k ≠ n := hne
    by_cases hkl : k = s.live
    · exact Or.inr (Or.inl ⟨n, by rw [hkl]⟩)
    · rcases h2 k hk hkl with h | ⟨m, h⟩ | h
      · rw [a] at h
        simp only [PC.swapping.injEq] at h
        exact absurd h.symm hne'
      · simp [a] at h
      · exact Or.inr (Or.inr h)
  all_goals first
    | exact h2
    | (intro k hk hne
       rcases h2 k hk hne with h | ⟨m, h⟩ | h
       · simp_all
       · simp_all
       · exact Or.inr (Or.inr h))

theorem Run.tidy {c : Cfg} {rev : Nat} {es : List Ev} {s : St} (h : Run c rev es s) (hd : Ev.destroyed false ∉ es) :
    Tidy s :=
  Exec.keepE (Q := fun e => e ≠ .destroyed false) (fun _ _ _ hs hq => Tidy.step hs hq) h
    (fun e he hh => hd (hh ▸ he)) ⟨Run.clean (c := c) (es := []) (.nil _) (by simp), by
      intro k hk hne
      simp only [St.init] at hk hne
      omega⟩

theorem Exec.split {c : Cfg} {s u : St} {es fs : List Ev} (h : Exec c s (es ++ fs) u) :
    ∃ t, Exec c s es t ∧ Exec c t fs u := by
  induction es generalizing s with
  | nil => exact ⟨s, .nil _, h⟩
  | cons e es ih =>
    cases h with
    | cons h1 h2 =>
      obtain ⟨t, h3, h4⟩ := ih h2
      exact ⟨t, .cons h1 h3, h4⟩

/-- A searcher told to stop that will notice, or one that never updates. -/
structure Ready (c : Cfg) (s : St) : Prop where
  flag : s.flag = true
  hold : s.pc = .hold → s.updateCh = true
  told : c.timer = true ∨ s.shutdownCh = true ∨ s.pc = .woken ∨ s.pc = .done ∨
    (c.poll = false ∧ c.push = false ∧ (s.pc = .hold ∨ s.pc = .gated))

theorem Ready.step {c : Cfg} {s t : St} {e : Ev} (h : Step c s e t) (ha : Ready c s) : Ready c t := by
  obtain ⟨h1, h2, h3⟩ := ha
  cases h
  case destroyed o n ok hd a d => cases ok <;> constructor <;> simp_all
  case enter a b =>
    refine ⟨h1, by simp, ?_⟩
    rcases h3 with h | h | h | h | h
    · exact Or.inl h
    · exact Or.inr (Or.inl h)
    · simp [a] at h
    · simp [a] at h
    · simp [h.1, h.2.1] at b
  all_goals (try exact ⟨h1, h2, h3⟩)
  all_goals (constructor <;> simp_all)

end Hound.Sr

namespace Hound.Down

open Hound.Sr (Cfg PC)

theorem setSr_same (s : St) (i : Nat) (t : Sr.St) : setSr s i t i = t := by simp [setSr]

theorem setSr_other {s : St} {i j : Nat} {t : Sr.St} (h : j ≠ i) : setSr s i t j = s.srs j := by simp [setSr, h]

theorem Exec.keep {w : Site} {P : St → Prop} (hstep : ∀ s e t, Step w s e t → P s → P t) {s t : St} {es : List Ev}
    (h : Exec w s es t) (hs : P s) : P t := by
  induction h with
  | nil => exact hs
  | cons h1 _ ih => exact ih (hstep _ _ _ h1 hs)

theorem Exec.append {w : Site} {s t u : St} {es fs : List Ev} (h : Exec w s es t) (h' : Exec w t fs u) :
    Exec w s (es ++ fs) u := by
  induction h with
  | nil s => exact h'
  | cons hs _ ih => exact .cons hs (ih h')

/-- Seen from one searcher, an execution of the server is an execution of that searcher. -/
theorem Exec.project {w : Site} {s t : St} {es : List Ev} (i : Nat) (h : Exec w s es t) :
    Sr.Exec (w.cfg i) (s.srs i) (es.filterMap (at_ i)) (t.srs i) := by
  have key : ∀ {s t : St} {e : Ev} {j : Nat} {x : Sr.Ev} {y : Sr.St} {es : List Ev} {u : St},
      at_ i e = (if j = i then some x else none) → Sr.Step (w.cfg j) (s.srs j) x y → t.srs = setSr s j y →
      Sr.Exec (w.cfg i) (t.srs i) (es.filterMap (at_ i)) (u.srs i) →
      Sr.Exec (w.cfg i) (s.srs i) ((e :: es).filterMap (at_ i)) (u.srs i) := by
    intro s t e j x y es u h1 h2 h3 h4
    by_cases hj : j = i
    · subst hj
      rw [if_pos rfl] at h1
      rw [List.filterMap_cons, h1]
      rw [h3, setSr_same] at h4
      exact .cons h2 h4
    · rw [if_neg hj] at h1
      rw [List.filterMap_cons, h1]
      rw [h3, setSr_other (Ne.symm hj)] at h4
      exact h4
  induction h with
  | nil s => exact .nil _
  | @cons s t u e es h1 h2 ih =>
    cases h1 with
    | own j x y a b c d f g => exact key rfl g rfl ih
    | signal a => exact ih
    | handle a b => exact ih
    | notice o a b c => exact ih
    | stopSend j todo y a b => exact key rfl b rfl ih
    | stopSkip j todo y a b => exact key rfl b rfl ih
    | stopReturn j todo y a b => exact key rfl b rfl ih
    | stopped o a b => exact ih
    | waited j todo a b => exact ih
    | exit a => exact ih

theorem Run.project {w : Site} {es : List Ev} {s : St} (h : Run w es s) (i : Nat) :
    Sr.Run (w.cfg i) (w.rev i) (es.filterMap (at_ i)) (s.srs i) := Exec.project i h

/-! ## The invariant -/

/-- Nobody has called `Stop`. -/
def Calm (s : Sr.St) : Prop := s.flag = false ∧ s.shutdownCh = false ∧ s.stopping = 0

theorem calm_own {c : Cfg} {s t : Sr.St} {e : Sr.Ev} (h : Sr.Step c s e t) (he : e.stop = false) (hc : Calm s) :
    Calm t := by
  obtain ⟨h1, h2, h3⟩ := hc
  cases h <;> simp [Sr.Ev.stop] at he <;> first | exact ⟨h1, h2, h3⟩ | exact ⟨h1, rfl, h3⟩

theorem flag_own {c : Cfg} {s t : Sr.St} {e : Sr.Ev} (h : Sr.Step c s e t) (he : e.stop = false) :
    t.flag = s.flag ∧ t.stopping = s.stopping := by
  cases h <;> simp [Sr.Ev.stop] at he <;> exact ⟨rfl, rfl⟩

theorem done_own {c : Cfg} {s t : Sr.St} {e : Sr.Ev} (h : Sr.Step c s e t) (hd : s.pc = .done) : t.pc = .done := by
  cases h <;> simp_all

theorem begun_own {c : Cfg} {s t : Sr.St} {e : Sr.Ev} (h : Sr.Step c s e t) (hd : s.begun = true) : t.begun = true := by
  cases h <;> simp_all

/-- What holds of the searchers where the ending goroutine stands. -/
def At (n : Nat) (srs : Nat → Sr.St) : DPC → Prop
  | .absent => ∀ i < n, Calm (srs i)
  | .listening => ∀ i < n, Calm (srs i)
  | .stopping todo => todo.Nodup ∧ (∀ i ∈ todo, i < n) ∧ (∀ i ∈ todo, Calm (srs i)) ∧
      ∀ i < n, i ∉ todo → (srs i).flag = true
  | .inStop j todo => (j :: todo).Nodup ∧ (∀ i ∈ j :: todo, i < n) ∧ (∀ i ∈ todo, Calm (srs i)) ∧ 0 < (srs j).stopping ∧
      ∀ i < n, i ∉ j :: todo → (srs i).flag = true
  | .waiting todo => (∀ i ∈ todo, i < n) ∧ (∀ i < n, (srs i).flag = true) ∧ ∀ i < n, i ∉ todo → (srs i).pc = .done
  | .exited => (∀ i < n, (srs i).flag = true) ∧ ∀ i < n, (srs i).pc = .done

structure DInv (w : Site) (s : St) : Prop where
  at_ : At w.n s.srs s.pc
  begun : s.pc ≠ .absent → ∀ i < w.n, (s.srs i).begun = true

theorem DInv.init (w : Site) : DInv w (.init w) := by
  constructor
  · intro i _
    exact ⟨rfl, rfl, rfl⟩
  · intro h
    exact absurd rfl h

/-- A step of one searcher keeps what holds of it. -/
theorem at_own {n i : Nat} {c : Cfg} {s : St} {e : Sr.Ev} {t : Sr.St} (he : e.stop = false)
    (hs : Sr.Step c (s.srs i) e t) {p : DPC} (h : At n s.srs p) : At n (setSr s i t) p := by
  have hcalm : ∀ j, Calm (s.srs j) → Calm (setSr s i t j) := by
    intro j hj
    by_cases hji : j = i
    · subst hji; rw [setSr_same]; exact calm_own hs he hj
    · rw [setSr_other hji]; exact hj
  have hflag : ∀ j, (setSr s i t j).flag = (s.srs j).flag ∧ (setSr s i t j).stopping = (s.srs j).stopping := by
    intro j
    by_cases hji : j = i
    · subst hji; rw [setSr_same]; exact flag_own hs he
    · rw [setSr_other hji]; exact ⟨rfl, rfl⟩
  have hdone : ∀ j, (s.srs j).pc = .done → (setSr s i t j).pc = .done := by
    intro j hj
    by_cases hji : j = i
    · subst hji; rw [setSr_same]; exact done_own hs hj
    · rw [setSr_other hji]; exact hj
  cases p with
  | absent => exact fun j hj => hcalm j (h j hj)
  | listening => exact fun j hj => hcalm j (h j hj)
  | stopping todo =>
    obtain ⟨a, b, c, d⟩ := h
    exact ⟨a, b, fun j hj => hcalm j (c j hj), fun j hj hn => (hflag j).1.trans (d j hj hn)⟩
  | inStop k todo =>
    obtain ⟨a, b, c, d, e⟩ := h
    exact ⟨a, b, fun j hj => hcalm j (c j hj), by rw [(hflag k).2]; exact d,
      fun j hj hn => (hflag j).1.trans (e j hj hn)⟩
  | waiting todo =>
    obtain ⟨a, b, c⟩ := h
    exact ⟨a, fun j hj => (hflag j).1.trans (b j hj), fun j hj hn => hdone j (c j hj hn)⟩
  | exited =>
    obtain ⟨a, b⟩ := h
    exact ⟨fun j hj => (hflag j).1.trans (a j hj), fun j hj => hdone j (b j hj)⟩

theorem begun_set {c : Cfg} {s : St} {i : Nat} {e : Sr.Ev} {t : Sr.St} (hs : Sr.Step c (s.srs i) e t) (j : Nat)
    (h : (s.srs j).begun = true) : (setSr s i t j).begun = true := by
  by_cases hji : j = i
  · subst hji; rw [setSr_same]; exact begun_own hs h
  · rw [setSr_other hji]; exact h

theorem DInv.step {w : Site} {s t : St} {e : Ev} (h : Step w s e t) (hi : DInv w s) : DInv w t := by
  obtain ⟨h1, h2⟩ := hi
  cases h with
  | own i x y a b c d f g => exact ⟨at_own c g h1, fun hp j hj => begun_set g j (h2 hp j hj)⟩
  | signal a => exact ⟨h1, h2⟩
  | handle a b =>
    rw [a] at h1
    exact ⟨h1, fun _ => b⟩
  | notice o a b c =>
    rw [a] at h1
    refine ⟨⟨?_, ?_, ?_, ?_⟩, fun _ => h2 (by rw [a]; simp)⟩
    · exact c.nodup_iff.2 List.nodup_range
    · exact fun i hi => List.mem_range.1 (c.mem_iff.1 hi)
    · exact fun i hi => h1 i (List.mem_range.1 (c.mem_iff.1 hi))
    · exact fun i hi hn => absurd (c.mem_iff.2 (List.mem_range.2 hi)) hn
  | stopSend i todo y a b =>
    rw [a] at h1
    obtain ⟨p, q, r, u⟩ := h1
    refine ⟨⟨p, q, ?_, ?_, ?_⟩, fun _ j hj => begun_set b j (h2 (by rw [a]; simp) j hj)⟩
    · intro j hj
      have hji : j ≠ i := fun hh => (List.nodup_cons.1 p).1 (hh ▸ hj)
      show Calm (setSr s i y j)
      rw [setSr_other hji]
      exact r j (List.mem_cons_of_mem _ hj)
    · show 0 < (setSr s i y i).stopping
      rw [setSr_same]
      cases b
      exact Nat.succ_pos _
    · intro j hj hn
      have hji : j ≠ i := fun hh => hn (hh ▸ List.mem_cons_self)
      show (setSr s i y j).flag = true
      rw [setSr_other hji]
      exact u j hj hn
  | stopSkip i todo y a b =>
    rw [a] at h1
    obtain ⟨p, q, r, u⟩ := h1
    have hc := r i List.mem_cons_self
    cases b with
    | stopSkip hb hsh => exact absurd hsh (by rw [hc.2.1]; simp)
  | stopReturn i todo y a b =>
    rw [a] at h1
    obtain ⟨p, q, r, v, u⟩ := h1
    refine ⟨⟨(List.nodup_cons.1 p).2, fun j hj => q j (List.mem_cons_of_mem _ hj), ?_, ?_⟩,
      fun _ j hj => begun_set b j (h2 (by rw [a]; simp) j hj)⟩
    · intro j hj
      have hji : j ≠ i := fun hh => (List.nodup_cons.1 p).1 (hh ▸ hj)
      show Calm (setSr s i y j)
      rw [setSr_other hji]
      exact r j hj
    · intro j hj hn
      show (setSr s i y j).flag = true
      by_cases hji : j = i
      · subst hji
        rw [setSr_same]
        cases b
        rfl
      · rw [setSr_other hji]
        exact u j hj (by simp [hji, hn])
  | stopped o a b =>
    rw [a] at h1
    obtain ⟨p, q, r, u⟩ := h1
    exact ⟨⟨fun i hi => List.mem_range.1 (b.mem_iff.1 hi), fun i hi => u i hi (by simp),
      fun i hi hn => absurd (b.mem_iff.2 (List.mem_range.2 hi)) hn⟩, fun _ => h2 (by rw [a]; simp)⟩
  | waited i todo a b =>
    rw [a] at h1
    obtain ⟨p, q, r⟩ := h1
    refine ⟨⟨fun j hj => p j (List.mem_cons_of_mem _ hj), q, fun j hj hn => ?_⟩, fun _ => h2 (by rw [a]; simp)⟩
    by_cases hji : j = i
    · rw [hji]; exact b
    · exact r j hj (by simp [hji, hn])
  | exit a =>
    rw [a] at h1
    obtain ⟨p, q, r⟩ := h1
    exact ⟨⟨q, fun i hi => r i hi (by simp)⟩, fun _ => h2 (by rw [a]; simp)⟩

theorem Run.dinv {w : Site} {es : List Ev} {s : St} (h : Run w es s) : DInv w s :=
  Exec.keep (fun _ _ _ hs => DInv.step hs) h (DInv.init w)

/-! ## The end comes between updates -/

/-- **C73.** When the server has ended, no repository was being fetched, indexed or swapped: every updating goroutine
had ended. -/
theorem exit_between_updates {w : Site} {es : List Ev} {s : St} (h : Run w es s) (he : s.pc = .exited) :
    ∀ i < w.n, (s.srs i).pc = .done := by
  have := h.dinv.at_
  rw [he] at this
  exact this.2

/-- **C73.** What a graceful end leaves behind for a repository, if every replaced index could be destroyed: the index it
was serving, complete and on disk, of the revision the goroutine last knew, and no other that it ever opened. -/
theorem exit_leaves_one_index {w : Site} {es : List Ev} {s : St} (h : Run w es s) (he : s.pc = .exited) {i : Nat}
    (hi : i < w.n) (hd : Ev.own i (.destroyed false) ∉ es) :
    ((s.srs i).handles (s.srs i).live).Usable ∧
    ((s.srs i).handles (s.srs i).live).rev = (s.srs i).rev ∧
    ∀ k < (s.srs i).count, k ≠ (s.srs i).live →
      ((s.srs i).handles k).opened = false ∧ ((s.srs i).handles k).onDisk = false := by
  have hdone := exit_between_updates h he i hi
  have ht : Sr.Tidy (s.srs i) := (h.project i).tidy (by
    intro hm
    obtain ⟨e, hme, hx⟩ := List.mem_filterMap.1 hm
    cases e with
    | own j x =>
      simp only [at_] at hx
      split at hx
      · simp only [Option.some.injEq] at hx
        subst hx
        rename_i hji
        subst hji
        exact hd hme
      · simp at hx
    | stopSend j => simp only [at_] at hx; split at hx <;> simp at hx
    | stopSkip j => simp only [at_] at hx; split at hx <;> simp at hx
    | stopReturn j => simp only [at_] at hx; split at hx <;> simp at hx
    | _ => simp [at_] at hx)
  refine ⟨ht.clean.usable, (ht.clean.rev (by simp [hdone]) (by simp [hdone])).symm, fun k hk hne => ?_⟩
  rcases ht.gone k hk hne with h | ⟨m, h⟩ | h
  · simp [hdone] at h
  · simp [hdone] at h
  · exact h

/-- **C73.** The server does not end unless asked to. -/
theorem exit_only_if_asked {w : Site} {es : List Ev} {s : St} (h : Run w es s) (he : s.pc = .exited) :
    Ev.signal ∈ es := by
  have key : ∀ {s t : St} {es : List Ev}, Exec w s es t → Ev.signal ∉ es →
      (s.chan = false ∧ (s.pc = .absent ∨ s.pc = .listening)) → t.chan = false ∧ (t.pc = .absent ∨ t.pc = .listening) := by
    intro s t es h
    induction h with
    | nil => exact fun _ h => h
    | cons h1 h2 ih =>
      rintro hn ⟨c1, c2⟩
      simp only [List.mem_cons, not_or] at hn
      refine ih hn.2 ?_
      cases h1 <;> simp_all
  by_cases hm : Ev.signal ∈ es
  · exact hm
  · have := (key h hm ⟨rfl, Or.inl rfl⟩).2
    simp [he] at this

/-- **C73.** A request to end is not lost, not even one that arrives while the repositories are being loaded: it waits in
the channel, or it is being acted on. -/
theorem request_kept {w : Site} {s t u : St} {es : List Ev} (h1 : Step w s .signal t) (h2 : Exec w t es u) :
    u.chan = true ∨ (u.pc ≠ .absent ∧ u.pc ≠ .listening) := by
  refine h2.keep (P := fun u => u.chan = true ∨ (u.pc ≠ .absent ∧ u.pc ≠ .listening)) ?_ ?_
  · intro s e t h hp
    cases h <;> simp_all
  · cases h1
    exact Or.inl rfl

/-- **C73.** While the repositories are being loaded the server does not end, and nothing is stopped. -/
theorem loading_not_stopped {w : Site} {es : List Ev} {s : St} (h : Run w es s) (hh : Ev.handle ∉ es) :
    s.pc = .absent ∧ ∀ i < w.n, (s.srs i).flag = false ∧ (s.srs i).shutdownCh = false := by
  have key : ∀ {s t : St} {es : List Ev}, Exec w s es t → Ev.handle ∉ es → s.pc = .absent → t.pc = .absent := by
    intro s t es h
    induction h with
    | nil => exact fun _ h => h
    | cons h1 h2 ih =>
      intro hn hp
      simp only [List.mem_cons, not_or] at hn
      refine ih hn.2 ?_
      cases h1 <;> simp_all
  have hp := key h hh rfl
  refine ⟨hp, fun i hi => ?_⟩
  have := h.dinv.at_
  rw [hp] at this
  exact ⟨(this i hi).1, (this i hi).2.1⟩

/-! ## All are told -/

/-- Steps the ending goroutine can still make until all are told. -/
def toTell (n : Nat) : DPC → Nat
  | .absent => 2 * n + 2
  | .listening => 2 * n + 2
  | .stopping todo => 2 * todo.length + 1
  | .inStop _ todo => 2 * todo.length + 2
  | .waiting _ => 0
  | .exited => 0

theorem ender_toTell {w : Site} {s t : St} {e : Ev} (h : Step w s e t) (he : e.ender = true) (hn : ¬ AllTold t) :
    toTell w.n t.pc < toTell w.n s.pc := by
  cases h with
  | own => simp [Ev.ender] at he
  | signal => simp [Ev.ender] at he
  | handle => simp [Ev.ender] at he
  | notice o a b c =>
    have := c.length_eq
    simp only [List.length_range] at this
    simp [toTell, a, this]
  | stopSend i todo y a b => simp [toTell, a]; omega
  | stopSkip i todo y a b => simp [toTell, a]
  | stopReturn i todo y a b => simp [toTell, a]
  | stopped o a b => exact absurd (Or.inr ⟨o, rfl⟩) hn
  | waited i todo a b => exact absurd (Or.inr ⟨todo, rfl⟩) hn
  | exit a => exact absurd (Or.inl rfl) hn

theorem other_toTell {w : Site} {s t : St} {e : Ev} (h : Step w s e t) (he : e.ender = false) :
    toTell w.n t.pc = toTell w.n s.pc := by
  cases h <;> simp_all [Ev.ender, toTell]

theorem allTold_step {w : Site} {s t : St} {e : Ev} (h : Step w s e t) (hs : AllTold s) : AllTold t := by
  rcases hs with hs | ⟨todo, hs⟩
  · cases h <;> simp_all
  · cases h <;> simp_all [AllTold]

theorem exec_toTell {w : Site} {s t : St} {es : List Ev} (h : Exec w s es t) (hn : ¬ AllTold t) :
    (es.filter Ev.ender).length + toTell w.n t.pc ≤ toTell w.n s.pc := by
  induction h with
  | nil => simp
  | @cons s t u e es h1 h2 ih =>
    have ih := ih hn
    have hnt : ¬ AllTold t := fun hh => hn (h2.keep (fun _ _ _ => allTold_step) hh)
    by_cases he : e.ender = true
    · have := ender_toTell h1 he hnt
      rw [List.filter_cons, if_pos he, List.length_cons]
      omega
    · have := other_toTell h1 (by simpa using he)
      rw [List.filter_cons, if_neg he, ← this]
      exact ih

/-- **C73.** Once the server is loaded, a request to end is acted on without delay: the ending goroutine tells every searcher
to stop and never has to wait in doing so, whatever the searchers, the searches and further requests do. -/
theorem request_tells_all {w : Site} {es : List Ev} {s : St} (h : Run w es s) (hs : Ev.signal ∈ es)
    (hl : Ev.handle ∈ es) : WillTell w s := by
  have hsig : s.chan = true ∨ (s.pc ≠ .absent ∧ s.pc ≠ .listening) := by
    clear hl
    have key : ∀ {a b : St} {es : List Ev}, Exec w a es b → Ev.signal ∈ es →
        b.chan = true ∨ (b.pc ≠ .absent ∧ b.pc ≠ .listening) := by
      intro a b es h
      induction h with
      | nil => simp
      | @cons a b c e es h1 h2 ih =>
        intro hm
        rcases List.mem_cons.1 hm with he | he
        · exact request_kept (he ▸ h1) h2
        · exact ih he
    exact key h hs
  have hload : s.pc ≠ .absent := by
    have key : ∀ {a b : St} {es : List Ev}, Exec w a es b → Ev.handle ∈ es → b.pc ≠ .absent := by
      intro a b es h
      induction h with
      | nil => simp
      | @cons a b c e es h1 h2 ih =>
        intro hm
        rcases List.mem_cons.1 hm with he | he
        · subst he
          refine h2.keep (P := fun s => s.pc ≠ .absent) ?_ (by cases h1; simp)
          intro s e t h hp
          cases h <;> simp_all
        · exact ih he
    exact key h hl
  refine ⟨toTell w.n s.pc, fun fs t hx hn => ⟨by have := exec_toTell hx hn; omega, ?_⟩⟩
  have hdi : DInv w t := Exec.keep (fun _ _ _ => DInv.step) hx h.dinv
  have hp : (t.chan = true ∨ (t.pc ≠ .absent ∧ t.pc ≠ .listening)) ∧ t.pc ≠ .absent := by
    refine hx.keep (P := fun t => (t.chan = true ∨ (t.pc ≠ .absent ∧ t.pc ≠ .listening)) ∧ t.pc ≠ .absent) ?_ ⟨hsig, hload⟩
    clear hsig hload
    rintro s e t h ⟨hp1, hp2⟩
    cases h
    case own => exact ⟨hp1, hp2⟩
    all_goals simp_all
  cases hpc : t.pc with
  | absent => exact absurd hpc hp.2
  | listening =>
    have hc : t.chan = true := by
      rcases hp.1 with h | h
      · exact h
      · exact absurd hpc h.2
    exact ⟨_, _, rfl, .notice t _ hpc hc (List.Perm.refl _)⟩
  | stopping todo =>
    cases todo with
    | nil => exact ⟨_, _, rfl, .stopped t _ hpc (List.Perm.refl _)⟩
    | cons i todo =>
      have hat := hdi.at_
      rw [hpc] at hat
      have hb := hdi.begun hp.2 i (hat.2.1 i List.mem_cons_self)
      exact ⟨_, _, rfl, .stopSend t i todo _ hpc (.stopSend _ hb (hat.2.2.1 i List.mem_cons_self).2.1)⟩
  | inStop i todo =>
    have hat := hdi.at_
    rw [hpc] at hat
    exact ⟨_, _, rfl, .stopReturn t i todo _ hpc (.stopReturn _ hat.2.2.2.1)⟩
  | waiting todo => exact absurd (Or.inr ⟨todo, hpc⟩) hn
  | exited => exact absurd (Or.inl hpc) hn

/-! ## The end comes -/

/-- Steps all updating goroutines can still make. -/
def left (n : Nat) (srs : Nat → Sr.St) : Nat := ((List.range n).map fun i => (srs i).pc.toDone).sum

theorem sum_le {l : List Nat} {f g : Nat → Nat} (h : ∀ i ∈ l, g i ≤ f i) : (l.map g).sum ≤ (l.map f).sum := by
  induction l with
  | nil => simp
  | cons a l ih =>
    simp only [List.map_cons, List.sum_cons]
    have := ih (fun i hi => h i (List.mem_cons_of_mem _ hi))
    have := h a List.mem_cons_self
    omega

theorem sum_lt {l : List Nat} {f g : Nat → Nat} (h : ∀ i ∈ l, g i ≤ f i) {k : Nat} (hk : k ∈ l) (hlt : g k < f k) :
    (l.map g).sum < (l.map f).sum := by
  induction l with
  | nil => simp at hk
  | cons a l ih =>
    simp only [List.map_cons, List.sum_cons]
    have ha := h a List.mem_cons_self
    rcases List.mem_cons.1 hk with he | he
    · subst he
      have := sum_le (l := l) (fun i hi => h i (List.mem_cons_of_mem _ hi))
      omega
    · have := ih (fun i hi => h i (List.mem_cons_of_mem _ hi)) he
      omega

/-- All searchers are told and will notice. -/
structure Ending (w : Site) (s : St) : Prop where
  inv : DInv w s
  told : AllTold s
  ready : ∀ i < w.n, Sr.Ready (w.cfg i) (s.srs i)

theorem Ending.step {w : Site} {s t : St} {e : Ev} (h : Step w s e t) (ha : Ending w s) : Ending w t := by
  refine ⟨DInv.step h ha.inv, allTold_step h ha.told, ?_⟩
  intro i hi
  have := Exec.project i (.cons h (.nil t))
  exact this.keep (fun _ _ _ => Sr.Ready.step) (ha.ready i hi)

/-- Steps the goroutines can still make. -/
def todoLeft (w : Site) (s : St) : Nat :=
  left w.n s.srs + match s.pc with
    | .waiting todo => todo.length + 1
    | _ => 0

theorem left_own {w : Site} {s : St} {i : Nat} {e : Sr.Ev} {t : Sr.St} (hi : i < w.n)
    (hs : Sr.Step (w.cfg i) (s.srs i) e t) (hf : (s.srs i).flag = true) :
    (e.poller = true → left w.n (setSr s i t) < left w.n s.srs) ∧
    (e.poller = false → left w.n (setSr s i t) = left w.n s.srs) := by
  constructor
  · intro hp
    refine sum_lt (k := i) ?_ (List.mem_range.2 hi) ?_
    · intro j _
      by_cases hji : j = i
      · subst hji
        rw [setSr_same]
        exact Nat.le_of_lt (Sr.poller_toDone hs hp hf)
      · rw [setSr_other hji]
        exact Nat.le_refl _
    · rw [setSr_same]
      exact Sr.poller_toDone hs hp hf
  · intro hp
    show ((List.range w.n).map _).sum = ((List.range w.n).map _).sum
    congr 1
    refine List.map_congr_left fun j _ => ?_
    by_cases hji : j = i
    · subst hji
      rw [setSr_same, Sr.other_pc hs hp]
    · rw [setSr_other hji]

theorem program_todoLeft {w : Site} {s t : St} {e : Ev} (h : Step w s e t) (ha : Ending w s) :
    (e.program = true → todoLeft w t < todoLeft w s) ∧ (e.program = false → todoLeft w t = todoLeft w s) := by
  have hflag : ∀ i < w.n, (s.srs i).flag = true := fun i hi => (ha.ready i hi).flag
  rcases ha.told with hp | ⟨todo, hp⟩
  · cases h <;> simp_all
  · cases h with
    | own i x y a b c d f g =>
      obtain ⟨l1, l2⟩ := left_own b g (hflag i b)
      constructor
      · intro he
        have := l1 he
        simp only [todoLeft, hp]
        omega
      · intro he
        have := l2 he
        simp only [todoLeft, hp]
        omega
    | signal a => simp [Ev.program, Ev.ender, todoLeft]
    | handle a b => simp [hp] at a
    | notice o a b c => simp [hp] at a
    | stopSend i todo y a b => simp [hp] at a
    | stopSkip i todo y a b => simp [hp] at a
    | stopReturn i todo y a b => simp [hp] at a
    | stopped o a b => simp [hp] at a
    | waited i todo a b => simp [Ev.program, Ev.ender, todoLeft, a]
    | exit a => simp [Ev.program, Ev.ender, todoLeft, a]

theorem exec_todoLeft {w : Site} {s t : St} {es : List Ev} (h : Exec w s es t) (ha : Ending w s) :
    (es.filter Ev.program).length + todoLeft w t ≤ todoLeft w s := by
  induction h with
  | nil => simp
  | @cons s t u e es h1 h2 ih =>
    have ih := ih (Ending.step h1 ha)
    obtain ⟨p1, p2⟩ := program_todoLeft h1 ha
    by_cases he : e.program = true
    · have := p1 he
      rw [List.filter_cons, if_pos he, List.length_cons]
      omega
    · have := p2 (by simpa using he)
      rw [List.filter_cons, if_neg he, ← this]
      exact ih

/-- A goroutine that holds a token can go on, or waits for a search. -/
theorem holder_goes {c : Cfg} {s : Sr.St} (h : holdsToken s.pc = true) :
    (∃ e t, e.poller = true ∧ e.stop = false ∧ e ≠ .begin ∧ e ≠ .check ∧ Sr.Step c s e t) ∨ s.searches ≠ [] := by
  cases hpc : s.pc with
  | pulling => exact Or.inl ⟨_, _, rfl, rfl, by simp, by simp, .pullFails s hpc⟩
  | building r => exact Or.inl ⟨_, _, rfl, rfl, by simp, by simp, .buildFails s r hpc⟩
  | swapping n =>
    by_cases hs : s.searches = []
    · exact Or.inl ⟨_, _, rfl, rfl, by simp, by simp, .swapLock s n hpc hs⟩
    · exact Or.inr hs
  | swapped o n => exact Or.inl ⟨_, _, rfl, rfl, by simp, by simp, .destroyed s o n false _ hpc (.closeFails _)⟩
  | undo n =>
    by_cases hs : s.searches = []
    · exact Or.inl ⟨_, _, rfl, rfl, by simp, by simp, .undo s n false _ hpc (by simp [hs]) (.closeFails _)⟩
    · exact Or.inr hs
  | releasing r => exact Or.inl ⟨_, _, rfl, rfl, by simp, by simp, .release s r hpc⟩
  | _ => simp [holdsToken, hpc] at h

theorem exists_holder {n : Nat} {s : St} (h : 0 < s.used n) : ∃ i < n, holdsToken (s.srs i).pc = true := by
  unfold St.used at h
  obtain ⟨i, hi⟩ := List.exists_mem_of_length_pos h
  have := List.mem_filter.1 hi
  exact ⟨i, List.mem_range.1 this.1, this.2⟩

/-- All told: until the end somebody can make a step. -/
theorem Ending.goes {w : Site} {s : St} (ha : Ending w s) (hcap : 0 < w.cap) :
    s.pc = .exited ∨ (∃ e u, e.program = true ∧ Step w s e u) ∨ ∃ i < w.n, (s.srs i).searches ≠ [] := by
  rcases ha.told with hp | ⟨todo, hp⟩
  · exact Or.inl hp
  refine Or.inr ?_
  have hne : s.pc ≠ .exited := by simp [hp]
  cases todo with
  | nil => exact Or.inl ⟨_, _, rfl, .exit s hp⟩
  | cons i todo =>
    have hi : i < w.n := by
      have := ha.inv.at_
      rw [hp] at this
      exact this.1 i List.mem_cons_self
    have hr := ha.ready i hi
    have go : ∀ {j : Nat}, j < w.n →
        ((∃ e t, e.poller = true ∧ e.stop = false ∧ e ≠ .begin ∧ e ≠ .check ∧ Sr.Step (w.cfg j) (s.srs j) e t) ∨
          (s.srs j).searches ≠ []) →
        (∃ e u, e.program = true ∧ Step w s e u) ∨ ∃ i < w.n, (s.srs i).searches ≠ [] := by
      intro j hj h
      rcases h with ⟨e, t, h1, h2, h3, h4, h5⟩ | h
      · exact Or.inl ⟨.own j e, _, h1, .own s j e t hne hj h2 (fun h => absurd h h3) (fun h => absurd h h4) h5⟩
      · exact Or.inr ⟨j, hj, h⟩
    cases hpc : (s.srs i).pc with
    | hold => exact go hi (Or.inl ⟨_, _, rfl, rfl, by simp, by simp, .gate _ hpc (hr.hold hpc)⟩)
    | gated =>
      by_cases hc : (w.cfg i).poll = true ∨ (w.cfg i).push = true
      · exact go hi (Or.inl ⟨_, _, rfl, rfl, by simp, by simp, .enter _ hpc hc⟩)
      · simp only [not_or, Bool.not_eq_true] at hc
        exact go hi (Or.inl ⟨_, _, rfl, rfl, by simp, by simp, .neverUpdates _ hpc hc.1 hc.2⟩)
    | waiting =>
      rcases hr.told with h | h | h | h | h
      · exact go hi (Or.inl ⟨_, _, rfl, rfl, by simp, by simp, .wakeTimer _ hpc h⟩)
      · exact go hi (Or.inl ⟨_, _, rfl, rfl, by simp, by simp, .wakeStop _ hpc h⟩)
      · simp [hpc] at h
      · simp [hpc] at h
      · simp [hpc] at h
    | woken => exact go hi (Or.inl ⟨_, _, rfl, rfl, by simp, by simp, .finish _ hpc hr.flag⟩)
    | acquiring =>
      by_cases hu : s.used w.n < w.cap
      · exact Or.inl ⟨.own i .check, _, rfl, .own s i .check _ hne hi rfl (fun h => by cases h) (fun _ => hu) (.check _ hpc)⟩
      · obtain ⟨j, hj, hh⟩ := exists_holder (n := w.n) (s := s) (by omega)
        exact go hj (holder_goes hh)
    | done => exact Or.inl ⟨_, _, rfl, .waited s i todo hp hpc⟩
    | pulling => exact go hi (holder_goes (by simp [holdsToken, hpc]))
    | building r => exact go hi (holder_goes (by simp [holdsToken, hpc]))
    | swapping n => exact go hi (holder_goes (by simp [holdsToken, hpc]))
    | swapped o n => exact go hi (holder_goes (by simp [holdsToken, hpc]))
    | undo n => exact go hi (holder_goes (by simp [holdsToken, hpc]))
    | releasing r => exact go hi (holder_goes (by simp [holdsToken, hpc]))

theorem Ending.willEnd {w : Site} {s : St} (ha : Ending w s) (hcap : 0 < w.cap) : WillEnd w s := by
  refine ⟨todoLeft w s, fun es t h => ⟨?_, ?_⟩⟩
  · have := exec_todoLeft h ha
    omega
  · exact (Exec.keep (fun _ _ _ => Ending.step) h ha).goes hcap

/-- **C73**, the full claim: when all searchers have been told to stop, the server ends. -/
def EndsFull : Prop :=
  ∀ (w : Site) (es : List Ev) (s : St), Run w es s → 0 < w.cap → AllTold s → WillEnd w s

/-- A searcher without updates stays at its gate. -/
theorem idle_pc {c : Cfg} {rev : Nat} {es : List Sr.Ev} {s : Sr.St} (h : Sr.Run c rev es s) (h1 : c.poll = false)
    (h2 : c.push = false) : s.pc = .hold ∨ s.pc = .gated ∨ s.pc = .done := by
  refine Sr.Exec.keep (P := fun s => s.pc = .hold ∨ s.pc = .gated ∨ s.pc = .done) ?_ h (Or.inl rfl)
  intro s e t hs hp
  cases hs <;> simp_all

theorem ending_of_told {w : Site} {es : List Ev} {s : St} (h : Run w es s) (ht : AllTold s)
    (hc : ∀ i < w.n, (w.cfg i).timer = true ∨ ((w.cfg i).poll = false ∧ (w.cfg i).push = false) ∨ Undisturbed i es) :
    Ending w s := by
  refine ⟨h.dinv, ht, fun i hi => ?_⟩
  have hr := h.project i
  have hne : s.pc ≠ .absent := by
    rcases ht with h | ⟨todo, h⟩ <;> simp [h]
  have hhold := hr.inv.held (h.dinv.begun hne i hi)
  have hflag : (s.srs i).flag = true := by
    have := h.dinv.at_
    rcases ht with hp | ⟨todo, hp⟩
    · rw [hp] at this; exact this.1 i hi
    · rw [hp] at this; exact this.2.1 i hi
  rcases hc i hi with ht | ⟨h1, h2⟩ | ⟨a, b, c, he, hb⟩
  · exact ⟨hflag, hhold, Or.inl ht⟩
  · refine ⟨hflag, hhold, ?_⟩
    rcases idle_pc hr h1 h2 with h | h | h
    · exact Or.inr (Or.inr (Or.inr (Or.inr ⟨h1, h2, Or.inl h⟩)))
    · exact Or.inr (Or.inr (Or.inr (Or.inr ⟨h1, h2, Or.inr h⟩)))
    · exact Or.inr (Or.inr (Or.inr (Or.inl h)))
  · rw [he] at hr
    obtain ⟨s2, x1, x2⟩ := Sr.Exec.split hr
    obtain ⟨s0, y1, y2⟩ := Sr.Exec.split x1
    cases y2 with
    | @cons _ s1 _ _ _ z1 z2 =>
    cases x2 with
    | @cons _ s3 _ _ _ z3 z4 =>
    have hsh : s2.shutdownCh = true := by
      refine z2.keepE (P := fun s => s.shutdownCh = true) (Q := fun e => e.poller = false) ?_ hb ?_
      · intro s e t hstep hq hp
        cases hstep <;> simp [Sr.Ev.poller] at hq <;> simp_all
      · cases z1; rfl
    have hr2 : Sr.Run (w.cfg i) (w.rev i) (a ++ .stopSend :: b) s2 := x1
    refine z4.keep (P := Sr.Ready (w.cfg i)) (fun _ _ _ => Sr.Ready.step) ?_
    cases z3 with
    | stopReturn hs =>
      exact ⟨rfl, fun hh => hr2.inv.held (Sr.run_stopping hr2 hs) hh, Or.inr (Or.inl hsh)⟩

/-- C73's end, for a server each of whose searchers polls, or never updates, or made no step while `Stop` ran on it. Missing:
a searcher without polling whose goroutine takes the signal before `Stop` has set the flag, see `not_endsFull`. -/
theorem server_ends_partial {w : Site} {es : List Ev} {s : St} (h : Run w es s) (hcap : 0 < w.cap) (ht : AllTold s)
    (hc : ∀ i < w.n, (w.cfg i).timer = true ∨ ((w.cfg i).poll = false ∧ (w.cfg i).push = false) ∨ Undisturbed i es) :
    WillEnd w s := Ending.willEnd (ending_of_told h ht hc) hcap

/-- One repository with push updates only. -/
def onePush : Site := ⟨1, fun _ => Sr.pushOnly, fun _ => 7, 2⟩

/-- C73's end as stated is false of the program: with push updates only, the goroutine may take the signal of `Stop` before
the flag is set, make a round and then wait for ever; and the server waits for it. -/
theorem not_endsFull : ¬ EndsFull := by
  intro hf
  let a0 : Sr.St := Sr.St.init 7
  let a1 : Sr.St := { a0 with begun := true, updateCh := true }
  let a2 : Sr.St := { a1 with updateCh := false, pc := .gated }
  let a3 : Sr.St := { a2 with pc := .waiting }
  let a4 : Sr.St := { a3 with shutdownCh := true, stopping := 1 }
  let a5 : Sr.St := { a4 with shutdownCh := false, pc := .woken }
  let a6 : Sr.St := { a5 with pc := .acquiring }
  let a7 : Sr.St := { a6 with pc := .pulling }
  let a8 : Sr.St := { a7 with pc := .releasing none }
  let a9 : Sr.St := { a8 with pc := .waiting, rev := 7 }
  let aX : Sr.St := { a9 with flag := true, stopping := 0 }
  let s0 : St := St.init onePush
  let mk (prev : St) (a : Sr.St) : St := { prev with srs := setSr prev 0 a }
  let t1 := mk s0 a1
  let t2 : St := { t1 with pc := .listening }
  let t3 := mk t2 a2
  let t4 := mk t3 a3
  let t5 : St := { t4 with chan := true }
  let t6 : St := { t5 with chan := false, pc := .stopping [0] }
  let t7 : St := { t6 with srs := setSr t6 0 a4, pc := .inStop 0 [] }
  let t8 := mk t7 a5
  let t9 := mk t8 a6
  let t10 := mk t9 a7
  let t11 := mk t10 a8
  let t12 := mk t11 a9
  let t13 : St := { t12 with srs := setSr t12 0 aX, pc := .stopping [] }
  let t14 : St := { t13 with pc := .waiting [0] }
  have own : ∀ {s : St} {e : Sr.Ev} {a : Sr.St}, s.pc ≠ .exited → e.stop = false → e ≠ .begin →
      (e = .check → s.used 1 < 2) → Sr.Step Sr.pushOnly (s.srs 0) e a → Step onePush s (.own 0 e) (mk s a) := by
    intro s e a h1 h2 h3 h4 h5
    exact .own s 0 e a h1 (Nat.one_pos) h2 (fun h => absurd h h3) h4 h5
  have r : Run onePush [.own 0 .begin, .handle, .own 0 .gate, .own 0 .enter, .signal, .notice, .stopSend 0, .own 0 .wake,
      .own 0 .goOn, .own 0 .check, .own 0 (.pulled (some 7)), .own 0 .release, .stopReturn 0, .stopped] t14 := by
    refine .cons (t := t1) (.own s0 0 .begin a1 (by simp [s0, St.init]) Nat.one_pos rfl (fun _ => rfl) (fun h => by cases h)
      (.begin a0 rfl rfl)) ?_
    refine .cons (t := t2) (.handle t1 rfl (by
      intro i hi
      have : i = 0 := by
        have : i < 1 := hi
        omega
      subst this
      rfl)) ?_
    refine .cons (t := t3) (own (by simp [t2]) rfl (by simp) (fun h => by cases h) (.gate a1 rfl rfl)) ?_
    refine .cons (t := t4) (own (by simp [t3, mk, t2]) rfl (by simp) (fun h => by cases h) (.enter a2 rfl (Or.inr rfl))) ?_
    refine .cons (t := t5) (.signal t4 (by simp [t4, t3, mk, t2])) ?_
    refine .cons (t := t6) (.notice t5 [0] rfl rfl (List.Perm.refl _)) ?_
    refine .cons (t := t7) (.stopSend t6 0 [] a4 rfl (.stopSend a3 rfl rfl)) ?_
    refine .cons (t := t8) (own (by simp [t7]) rfl (by simp) (fun h => by cases h) (.wakeStop a4 rfl rfl)) ?_
    refine .cons (t := t9) (own (by simp [t8, mk, t7]) rfl (by simp) (fun h => by cases h) (.goOn a5 rfl rfl)) ?_
    refine .cons (t := t10) (own (by simp [t9, t8, mk, t7]) rfl (by simp) (fun _ => by decide) (.check a6 rfl)) ?_
    refine .cons (t := t11) (own (by simp [t10, t9, t8, mk, t7]) rfl (by simp) (fun h => by cases h) (.pullSame a7 rfl)) ?_
    refine .cons (t := t12) (own (by simp [t11, t10, t9, t8, mk, t7]) rfl (by simp) (fun h => by cases h)
      (.release a8 none rfl)) ?_
    refine .cons (t := t13) (.stopReturn t12 0 [] aX rfl (.stopReturn a9 (by decide))) ?_
    exact .cons (t := t14) (.stopped t13 [0] rfl (List.Perm.refl _)) (.nil _)
  obtain ⟨k, hk⟩ := hf onePush _ t14 r (by decide) (Or.inr ⟨[0], rfl⟩)
  rcases (hk _ _ (.nil _)).2 with hd | ⟨e, u, hp, hst⟩ | ⟨i, hi, hs⟩
  · simp [t14] at hd
  · have hsr : t14.srs 0 = aX := rfl
    cases hst with
    | own i x y a b c d f g =>
      have hi : i = 0 := by
        have : i < 1 := b
        omega
      subst hi
      rw [hsr] at g
      clear hk r hf own
      have hp' : x.poller = true := hp
      cases g <;> simp [Sr.Ev.poller] at hp' <;>
        simp_all [aX, a9, a8, a7, a6, a5, a4, a3, a2, a1, a0, Sr.St.init, Sr.Cfg.timer, Sr.pushOnly, onePush]
    | signal a => simp [Ev.program, Ev.ender] at hp
    | handle a b => simp [Ev.program, Ev.ender] at hp
    | notice o a b c => simp [t14] at a
    | stopSend i todo y a b => simp [t14] at a
    | stopSkip i todo y a b => simp [t14] at a
    | stopReturn i todo y a b => simp [t14] at a
    | stopped o a b => simp [t14] at a
    | waited i todo a b =>
      simp only [t14, DPC.waiting.injEq, List.cons.injEq] at a
      rw [← a.1, hsr] at b
      simp [aX, a9] at b
    | exit a => simp [t14] at a
  · have hi : i = 0 := by
      have : i < 1 := hi
      omega
    subst hi
    exact hs rfl

/-! ## A server that ends, and the search it cuts off -/

/-- One repository that is never updated. -/
def oneIdle : Site := ⟨1, fun _ => ⟨false, false, true⟩, fun _ => 7, 2⟩

/-- The history of a server with one repository that is asked to end while it is loading, and again later. -/
def exHistory : List Ev :=
  [.signal, .own 0 .begin, .handle, .own 0 .gate, .notice, .own 0 .finished, .stopSend 0, .signal, .own 0 (.searchStart 3),
    .stopReturn 0, .stopped, .waited 0, .exit]

theorem ex_run : ∃ s, Run oneIdle exHistory s ∧ s.pc = .exited ∧ (s.srs 0).searches ≠ [] := by
  let a0 : Sr.St := Sr.St.init 7
  let a1 : Sr.St := { a0 with begun := true, updateCh := true }
  let a2 : Sr.St := { a1 with updateCh := false, pc := .gated }
  let a3 : Sr.St := { a2 with pc := .done }
  let a4 : Sr.St := { a3 with shutdownCh := true, stopping := 1 }
  let a5 : Sr.St := { a4 with searches := [(3, none)] }
  let a6 : Sr.St := { a5 with flag := true, stopping := 0 }
  let s0 : St := { St.init oneIdle with chan := true }
  let mk (prev : St) (a : Sr.St) : St := { prev with srs := setSr prev 0 a }
  let t1 := mk s0 a1
  let t2 : St := { t1 with pc := .listening }
  let t3 := mk t2 a2
  let t4 : St := { t3 with chan := false, pc := .stopping [0] }
  let t5 := mk t4 a3
  let t6 : St := { t5 with srs := setSr t5 0 a4, pc := .inStop 0 [] }
  let t7 : St := { t6 with chan := true }
  let t8 := mk t7 a5
  let t9 : St := { t8 with srs := setSr t8 0 a6, pc := .stopping [] }
  let t10 : St := { t9 with pc := .waiting [0] }
  let t11 : St := { t10 with pc := .waiting [] }
  let t12 : St := { t11 with pc := .exited }
  refine ⟨t12, ?_, rfl, by simp [t12, t11, t10, t9, setSr, a6, a5]⟩
  refine .cons (t := s0) (.signal (St.init oneIdle) (by simp [St.init])) ?_
  refine .cons (t := t1) (.own s0 0 .begin a1 (by simp [s0, St.init]) Nat.one_pos rfl (fun _ => rfl) (fun h => by cases h)
    (.begin a0 rfl rfl)) ?_
  refine .cons (t := t2) (.handle t1 rfl (by
    intro i hi
    have : i = 0 := by
      have : i < 1 := hi
      omega
    subst this
    rfl)) ?_
  refine .cons (t := t3) (.own t2 0 .gate a2 (by simp [t2]) Nat.one_pos rfl (fun h => by cases h) (fun h => by cases h)
    (.gate a1 rfl rfl)) ?_
  refine .cons (t := t4) (.notice t3 [0] rfl rfl (List.Perm.refl _)) ?_
  refine .cons (t := t5) (.own t4 0 .finished a3 (by simp [t4]) Nat.one_pos rfl (fun h => by cases h) (fun h => by cases h)
    (.neverUpdates a2 rfl rfl rfl)) ?_
  refine .cons (t := t6) (.stopSend t5 0 [] a4 rfl (.stopSend a3 rfl rfl)) ?_
  refine .cons (t := t7) (.signal t6 (by simp [t6])) ?_
  refine .cons (t := t8) (.own t7 0 (.searchStart 3) a5 (by simp [t7, t6]) Nat.one_pos rfl (fun h => by cases h)
    (fun h => by cases h) (.searchStart a4 3 rfl rfl (by simp [a4, a3, a2, a1, a0, Sr.St.init]))) ?_
  refine .cons (t := t9) (.stopReturn t8 0 [] a6 rfl (.stopReturn a5 (by decide))) ?_
  refine .cons (t := t10) (.stopped t9 [0] rfl (List.Perm.refl _)) ?_
  refine .cons (t := t11) (.waited t10 0 [] rfl rfl) ?_
  exact .cons (t := t12) (.exit t11 rfl) (.nil _)

/-- **C73**, the claim that the server first answers the searches it has accepted. -/
def SearchesAnsweredFull : Prop :=
  ∀ (w : Site) (es : List Ev) (s : St), Run w es s → s.pc = .exited → ∀ i < w.n, (s.srs i).searches = []

/-- It is false of the program: the server waits for the updates only. -/
theorem not_searchesAnsweredFull : ¬ SearchesAnsweredFull := by
  intro hf
  obtain ⟨s, h, he, hs⟩ := ex_run
  exact hs (hf oneIdle _ s h he 0 Nat.one_pos)

/-- The hypotheses of the theorems above are met by that server. -/
example : ∃ s, Run oneIdle exHistory s ∧ AllTold s ∧ Ev.signal ∈ exHistory ∧ Ev.handle ∈ exHistory ∧
    Ev.own 0 (.destroyed false) ∉ exHistory ∧ WillEnd oneIdle s ∧ (s.srs 0).pc = .done := by
  obtain ⟨s, h, he, _⟩ := ex_run
  exact ⟨s, h, Or.inl he, by decide, by decide, by decide,
    server_ends_partial h (by decide) (Or.inl he) (fun i _ => Or.inr (Or.inl ⟨rfl, rfl⟩)),
    exit_between_updates h he 0 Nat.one_pos⟩

/-- In that history the goroutine of the searcher made no step while `Stop` ran. -/
example : Undisturbed 0 exHistory :=
  ⟨[.begin, .gate, .finished], [.searchStart 3], [], by decide, by decide⟩

end Hound.Down
