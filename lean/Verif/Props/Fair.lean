import Verif.Proofs.Fair

/-!
# C97: what is promised is done, if no goroutine is passed over for ever
-/

namespace Hound.Fair
open Spec
open Sr (Cfg PC)

/-! ## One searcher -/

section Searcher
variable {c : Cfg} {rev : Nat} {st : Nat → Sr.St} {ev : Nat → Option Sr.Ev}

theorem no_stop_seg (hs : ∀ m e, ev m = some e → e.stop = false) (n k : Nat) : ∀ e ∈ seg ev n k, e.stop = false := by
  intro e he
  obtain ⟨m, _, _, h⟩ := mem_seg.1 he
  exact hs m e h

/-- **C97, polling.** A repository with polling is checked again and again, for ever, as long as nobody stops the searcher. -/
theorem checked_forever (h : History (Sr.Step c) st ev) (h0 : st 0 = .init rev) (hf : FairSearcher c st ev) (ht : c.timer = true)
    (hb : ∃ m, ev m = some .begin) (hs : ∀ m e, ev m = some e → e.stop = false) : ∀ n, ∃ m, n ≤ m ∧ ev m = some .check := by
  intro n
  obtain ⟨b, hb⟩ := hb
  have hr := sr_run h h0 (max n (b + 1))
  obtain ⟨m, hm, he⟩ := asked_check h hf (fun m => (sr_run h h0 m).inv)
    (Sr.polls_asked hr (no_stop_seg hs _ _) ht (mem_seg.2 ⟨b, by omega, by omega, hb⟩)) (fun m _ e he => hs m e he)
  exact ⟨m, by omega, he⟩

/-- **C97, requests.** After an accepted request for an update a check starts (if the searcher polls or had begun to wait for updates, and
nobody stops it). -/
theorem request_served (h : History (Sr.Step c) st ev) (h0 : st 0 = .init rev) (hf : FairSearcher c st ev) {n : Nat}
    (hu : ev n = some .updateAccepted) (hg : c.timer = true ∨ ∃ m, m < n ∧ ev m = some .enter)
    (hs : ∀ m e, ev m = some e → e.stop = false) : ∃ m, n < m ∧ ev m = some .check := by
  have hr := sr_run h h0 n
  have hg' : c.timer = true ∨ Sr.Ev.enter ∈ seg ev 0 n := hg.imp_right fun ⟨m, a, b⟩ => mem_seg.2 ⟨m, by omega, by omega, b⟩
  obtain ⟨m, hm, he⟩ := asked_check h hf (fun m => (sr_run h h0 m).inv) (Sr.update_asked hr (no_stop_seg hs _ _) (step_of h hu) hg')
    (fun m _ e he => hs m e he)
  exact ⟨m, by omega, he⟩

/-- **C97, stopping.** When `Stop` has returned, the goroutine of a searcher that polls ends, and with it `Wait`. -/
theorem stop_ends (h : History (Sr.Step c) st ev) (h0 : st 0 = .init rev) (hf : FairSearcher c st ev) (ht : c.timer = true) {n : Nat}
    (hst : ev n = some .stopReturn) : ∃ m, n ≤ m ∧ (st m).pc = .done := by
  have hr := sr_run h h0 n
  have h1 := step_of h hst
  have htold : Sr.Told c (st (n + 1)) := by
    generalize st (n + 1) = t at h1
    cases h1 with
    | stopReturn hs => exact ⟨rfl, fun hh => hr.inv.held (Sr.run_stopping hr hs) hh, Or.inl ht⟩
  obtain ⟨m, hm, he⟩ := told_done h hf (fun m => (sr_run h h0 m).inv) htold
  exact ⟨m, by omega, he⟩

end Searcher

/-! ## A repository that changes -/

section Repo
variable {F : Type} {c : Cfg} {tree : Nat → F} {rev : Nat} {st : Nat → Cur.St F} {ev : Nat → Option Cur.Ev}

theorem cur_exec (h : History (Cur.Step c tree) st ev) (n : Nat) : ∀ k, Cur.Exec c tree (st n) (seg ev n k) (st (n + k))
  | 0 => .nil _
  | k + 1 => by
    have ih := cur_exec h n k
    cases he : ev (n + k) with
    | none => rw [seg, he, ← Nat.add_assoc, same_of h he]; simpa using ih
    | some e => rw [seg, he]; exact ih.append (.cons (step_of h he) (.nil _))

theorem cur_run (h : History (Cur.Step c tree) st ev) (h0 : Cur.Start tree rev (st 0)) (n : Nat) : Cur.Run c tree rev (seg ev 0 n) (st n) := by
  have := cur_exec h 0 n
  rw [Nat.zero_add] at this
  exact ⟨_, h0, this⟩

theorem sr_history (h : History (Cur.Step c tree) st ev) : History (Sr.Step c) (fun n => (st n).sr) (atSearcher ev) := by
  intro n
  unfold atSearcher
  cases he : ev n with
  | none => exact congrArg Cur.St.sr (same_of h he)
  | some e =>
    cases e with
    | sr e => exact (step_of h he).sr_eq
    | changed r => exact (step_of h he).other_eq (by simp)
    | fetched r => exact (step_of h he).other_eq (by simp)

theorem poller_possible {s : Cur.St F} (h : ∃ e t, e.poller = true ∧ Sr.Step c s.sr e t) : ∃ e t, ownStep e = true ∧ Cur.Step c tree s e t := by
  obtain ⟨e, t, hp, hs⟩ := h
  by_cases h1 : e = .check
  · subst h1; exact ⟨_, _, rfl, .check s t hs⟩
  by_cases h2 : ∃ x, e = .pulled x
  · obtain ⟨x, rfl⟩ := h2
    have hpc : s.sr.pc = .pulling := by cases hs <;> assumption
    exact ⟨_, _, rfl, .pullFails s _ s.copy (.pullFails s.sr hpc)⟩
  by_cases h3 : e = .built true
  · subst h3; exact ⟨_, _, rfl, .built s t hs⟩
  exact ⟨.sr e, _, hp, .other s e t hs h1 (fun x hx => h2 ⟨x, hx⟩) h3⟩

theorem ahead_chan {r b : Nat} {s : Cur.St F} (ha : Cur.Ahead c r b s) : s.sr.pc ≠ .done ∧ (s.sr.pc = .hold → s.sr.updateCh = true) ∧
    (s.sr.pc = .waiting → s.sr.updateCh = true ∨ c.timer = true ∨ s.sr.shutdownCh = true) := by
  cases ha with
  | asked a b =>
    refine ⟨a.notDone, a.hold, fun hw => ?_⟩
    rcases a.asked with h | h | h | h
    · exact Or.inl h
    · exact Or.inr (Or.inl h)
    · rw [hw] at h; simp at h
    · rw [hw] at h; simp at h
  | checking a b => simp [a]
  | read a b => simp [a]
  | building a b => simp [a]
  | swapping n a b => simp [a]

theorem bound_quiet {ε : Type} {ev : Nat → Option ε} {own : ε → Bool} {n b : Nat} (h : ∀ k, ((seg ev n k).filter own).length ≤ b) :
    ∃ N, n ≤ N ∧ ∀ m, N ≤ m → ∀ e, ev m = some e → ¬ own e = true := by
  have hseg : ∀ m, n ≤ m → seg ev n (m + 1 - n) = seg ev n (m - n) ++ (ev m).toList := by
    intro m hm
    rw [Nat.succ_sub hm, seg]
    congr 3
    omega
  refine quiet (fun m => b - ((seg ev n (m - n)).filter own).length) (fun m hm e he ho => ?_) (fun m hm => ?_)
  · have h1 := h (m + 1 - n)
    show b - ((seg ev n (m + 1 - n)).filter own).length < _
    rw [hseg m hm, he] at *
    simp only [Option.toList_some, List.filter_append, List.filter_cons, ho, if_true, List.filter_nil, List.length_append, List.length_singleton] at *
    omega
  · show b - ((seg ev n (m + 1 - n)).filter own).length ≤ _
    rw [hseg m hm]
    simp only [List.filter_append, List.length_append]
    omega

/-- Nobody changes the repository or stops the searcher from moment `n` on, and nothing fails. -/
def CalmFrom (ev : Nat → Option Cur.Ev) (n : Nat) : Prop := ∀ m, n ≤ m → ∀ e, ev m = some e → Undisturbed [e]

theorem comes_to_show (h : History (Cur.Step c tree) st ev) (hf : FairRepo c tree st ev) (h0 : Cur.Start tree rev (st 0)) {n : Nat}
    (hq : CalmFrom ev n) (hd : ∀ m, ev m ≠ some (.sr (.destroyed false))) (ha : Sr.Asked c (st n).sr) :
    ∃ m, n ≤ m ∧ ∀ k, m ≤ k → Cur.Only (· = (st n).upstream) (st k) := by
  have hrun := cur_run h h0
  have hnd : ∀ k, Cur.Ev.sr (.destroyed false) ∉ seg ev 0 k := fun k hm => by
    obtain ⟨m, _, _, he⟩ := mem_seg.1 hm
    exact hd m he
  have hcalm : ∀ m, n ≤ m → Cur.Calm (st n).upstream (st m) := keepE h
    (fun m hm e he _ _ hs hp => Cur.Calm.step hs (hq m hm e he) hp) (Cur.calm_run (hrun n) (hnd n))
  have stay : ∀ m k, n ≤ m → Cur.Only (· = (st n).upstream) (st m) → Cur.Only (· = (st n).upstream) (st (m + k)) := by
    intro m k hm
    refine Cur.Only.exec (cur_exec h m k) (hcalm m hm).clean.inv fun x hx => ?_
    rw [(Cur.fetched_upstream (cur_exec h m k) (fun r hr => ?_)).2 x hx, (hcalm m hm).upstream]
    obtain ⟨j, h1, _, he⟩ := mem_seg.1 hr
    exact (hq j (by omega) _ he _ (List.mem_singleton.2 rfl)).1 r rfl
  by_cases hx : ∃ m, n ≤ m ∧ Cur.Only (· = (st n).upstream) (st m)
  · obtain ⟨m, hm, ho⟩ := hx
    refine ⟨m, hm, fun k hk => ?_⟩
    obtain ⟨j, rfl⟩ := Nat.exists_eq_add_of_le hk
    exact stay m j hm ho
  exfalso
  have hno : ∀ m, n ≤ m → ¬ Cur.Only (· = (st n).upstream) (st m) := fun m hm ho => hx ⟨m, hm, ho⟩
  let b0 := (st n).sr.pc.toCheck + 7
  have hah : ∀ k, ∃ b, Cur.Ahead c (st n).upstream b (st (n + k)) ∧ b + ((seg ev n k).filter ownStep).length ≤ b0 := by
    intro k
    induction k with
    | zero => exact ⟨b0, .asked ha (by show (st n).sr.pc.toCheck + _ + 6 ≤ (st n).sr.pc.toCheck + 7; split <;> omega), by simp [seg]⟩
    | succ k ih =>
      obtain ⟨b, ih1, ih2⟩ := ih
      cases he : ev (n + k) with
      | none =>
        refine ⟨b, ?_, ?_⟩
        · rw [← Nat.add_assoc, same_of h he]; exact ih1
        · simpa [seg, he] using ih2
      | some e =>
        obtain ⟨s1, s2⟩ := Cur.ahead_step (step_of h he) (hq _ (by omega) e he) (hcalm (n + k) (by omega)) ih1
        by_cases ho : ownStep e = true
        · rcases s2 ho with s2 | ⟨s2, s3⟩
          · exact absurd s2 (hno _ (by omega))
          · exact ⟨b - 1, s3, by simp [seg, he, ho]; omega⟩
        · exact ⟨b, s1 (by simpa using ho), by simpa [seg, he, ho] using ih2⟩
  obtain ⟨N, hN, hqq⟩ := bound_quiet (ev := ev) (own := ownStep) (n := n) (b := b0) (fun k => by obtain ⟨b, _, h2⟩ := hah k; omega)
  have hch : ∀ m, n ≤ m → (st m).sr.pc ≠ .done ∧ ((st m).sr.pc = .hold → (st m).sr.updateCh = true) ∧
      ((st m).sr.pc = .waiting → (st m).sr.updateCh = true ∨ c.timer = true ∨ (st m).sr.shutdownCh = true) := fun m hm => by
    obtain ⟨k, hk⟩ := Nat.exists_eq_add_of_le hm
    obtain ⟨b, h1, _⟩ := hah k
    rw [← hk] at h1
    exact ahead_chan h1
  obtain ⟨M, hM, hc⟩ := stuck' (sr_history h) (fun m => (hrun m).sr_eq.inv) hf.ends hf.writers (n := N) (fun m hm e he => by
    have : ev m = some (.sr e) := by
      unfold atSearcher at he
      split at he
      · next x hx => rw [hx, Option.some.inj he]
      · simp at he
    exact hqq m hm _ this) (hch N hN).1 (fun m hm => (hch m (by omega)).2.1) (fun m hm => (hch m (by omega)).2.2)
  obtain ⟨m, hm, e, he, ho⟩ := hf.moves M (fun m hm => poller_possible (hc m hm))
  exact hqq m (by omega) e he ho

theorem shows_from (h : History (Cur.Step c tree) st ev) (h0 : Cur.Start tree rev (st 0)) {n r : Nat}
    (ho : ∀ k, n ≤ k → Cur.Only (· = r) (st k)) : ShowsFrom tree st ev n r := by
  intro a b i r' hh ha hab e1 e2 hno
  have := Cur.answersFrom_live (cur_run h h0 a)
  rw [(ho a ha).live] at this
  have hx := cur_exec h (a + 1) (b - (a + 1))
  rw [show a + 1 + (b - (a + 1)) = b by omega] at hx
  refine this i _ _ _ r' hh _ (step_of h e1) hx (fun r h hm => ?_) (step_of h e2)
  obtain ⟨m, h1, h2, h3⟩ := mem_seg.1 hm
  exact hno m (by omega) (by omega) r h h3

theorem stop_at {ev : Nat → Option Cur.Ev} (hs : ∀ m e, ev m = some (.sr e) → e.stop = false) (n : Nat) :
    ∀ e ∈ Cur.srOf (seg ev 0 n), e.stop = false := by
  intro e he
  obtain ⟨m, _, _, h⟩ := mem_seg.1 (Cur.mem_srOf.1 he)
  exact hs m e h

/-- **C97, the last revision.** When a repository with polling is not changed any more, there comes a moment from which on every search is
answered from the files of its last revision (if nothing fails any more and nobody stops the searcher). -/
theorem last_revision_shown (h : History (Cur.Step c tree) st ev) (h0 : Cur.Start tree rev (st 0)) (hf : FairRepo c tree st ev)
    (ht : c.timer = true) (hb : ∃ m, ev m = some (.sr .begin)) (hs : ∀ m e, ev m = some (.sr e) → e.stop = false)
    (hd : ∀ m, ev m ≠ some (.sr (.destroyed false))) {n : Nat} (hq : CalmFrom ev n) :
    ∃ m, n ≤ m ∧ ShowsFrom tree st ev m (st n).upstream := by
  obtain ⟨b, hb⟩ := hb
  let n' := max n (b + 1)
  have hq' : CalmFrom ev n' := fun m hm => hq m (by omega)
  have hu : (st n').upstream = (st n).upstream := by
    obtain ⟨k, hk⟩ := Nat.exists_eq_add_of_le (show n ≤ n' by omega)
    have := (Cur.fetched_upstream (cur_exec h n k) (fun r hr => by
      obtain ⟨j, h1, _, he⟩ := mem_seg.1 hr
      exact (hq j h1 _ he _ (List.mem_singleton.2 rfl)).1 r rfl)).1
    rw [← hk] at this
    exact this
  obtain ⟨m, hm, ho⟩ := comes_to_show h hf h0 hq' hd (Sr.polls_asked (cur_run h h0 n').sr_eq (stop_at hs n') ht
    (Cur.mem_srOf.2 (mem_seg.2 ⟨b, by omega, by omega, hb⟩)))
  rw [hu] at ho
  exact ⟨m, by omega, shows_from h h0 ho⟩

/-- **C97, on request.** The same without polling, after a request that was accepted when the searcher had begun to wait for updates. -/
theorem requested_revision_shown (h : History (Cur.Step c tree) st ev) (h0 : Cur.Start tree rev (st 0)) (hf : FairRepo c tree st ev)
    (hs : ∀ m e, ev m = some (.sr e) → e.stop = false) (hd : ∀ m, ev m ≠ some (.sr (.destroyed false))) {n : Nat}
    (hu : ev n = some (.sr .updateAccepted)) (hg : ∃ m, m < n ∧ ev m = some (.sr .enter)) (hq : CalmFrom ev n) :
    ∃ m, n ≤ m ∧ ShowsFrom tree st ev m (st n).upstream := by
  obtain ⟨g, hg1, hg2⟩ := hg
  have h1 := step_of h hu
  have heq : (st (n + 1)).upstream = (st n).upstream := by
    generalize st (n + 1) = t at h1
    cases h1; rfl
  have hq' : CalmFrom ev (n + 1) := fun m hm => hq m (by omega)
  obtain ⟨m, hm, ho⟩ := comes_to_show h hf h0 hq' hd (Sr.update_asked (cur_run h h0 n).sr_eq (stop_at hs n) h1.sr_eq
    (Or.inr (Cur.mem_srOf.2 (mem_seg.2 ⟨g, by omega, by omega, hg2⟩))))
  rw [heq] at ho
  exact ⟨m, by omega, shows_from h h0 ho⟩

end Repo

/-! ## The server -/

section Server
variable {w : Down.Site} {st : Nat → Down.St} {ev : Nat → Option Down.Ev}

theorem down_exec (h : History (Down.Step w) st ev) (n : Nat) : ∀ k, Down.Exec w (st n) (seg ev n k) (st (n + k))
  | 0 => .nil _
  | k + 1 => by
    have ih := down_exec h n k
    cases he : ev (n + k) with
    | none => rw [seg, he, ← Nat.add_assoc, same_of h he]; simpa using ih
    | some e => rw [seg, he]; exact ih.append (.cons (step_of h he) (.nil _))

theorem down_run (h : History (Down.Step w) st ev) (h0 : st 0 = .init w) (n : Nat) : Down.Run w (seg ev 0 n) (st n) := by
  have := down_exec h 0 n
  rw [h0, Nat.zero_add] at this
  exact this

theorem down_view (h : History (Down.Step w) st ev) (i : Nat) : History (Sr.Step (w.cfg i)) (fun n => (st n).srs i) (atNumber ev i) := by
  intro n
  unfold atNumber
  cases he : ev n with
  | none => exact congrArg (fun s => s.srs i) (same_of h he)
  | some e =>
    have := Down.Exec.project i (.cons (step_of h he) (.nil _))
    simp only [Option.bind_some]
    cases ha : Down.at_ i e with
    | none =>
      simp only [List.filterMap_cons, ha, List.filterMap_nil] at this
      generalize (st (n + 1)).srs i = t at this ⊢
      cases this
      rfl
    | some x =>
      simp only [List.filterMap_cons, ha, List.filterMap_nil] at this
      cases this with
      | cons h1 h2 =>
        cases h2
        exact h1

theorem view_event {i n : Nat} {x : Sr.Ev} (h : atNumber ev i n = some x) (hp : x.poller = true) : ev n = some (.own i x) := by
  unfold atNumber at h
  cases he : ev n with
  | none => simp [he] at h
  | some e =>
    rw [he] at h
    simp only [Option.bind_some] at h
    cases e with
    | own j y =>
      simp only [Down.at_] at h
      split at h
      · next hj => rw [hj, Option.some.inj h]
      · simp at h
    | stopSend j => simp only [Down.at_] at h; split at h <;> simp at h; subst h; simp [Sr.Ev.poller] at hp
    | stopSkip j => simp only [Down.at_] at h; split at h <;> simp at h; subst h; simp [Sr.Ev.poller] at hp
    | stopReturn j => simp only [Down.at_] at h; split at h <;> simp at h; subst h; simp [Sr.Ev.poller] at hp
    | _ => simp [Down.at_] at h

theorem all_told (h : History (Down.Step w) st ev) (h0 : st 0 = .init w) (hf : FairServer w st ev)
    (hsig : ∃ m, ev m = some .signal) (hh : ∃ m, ev m = some .handle) : ∃ m, Down.AllTold (st m) := by
  obtain ⟨a, ha⟩ := hsig
  obtain ⟨b, hb⟩ := hh
  by_cases hx : ∃ m, Down.AllTold (st m)
  · exact hx
  exfalso
  let n := max a b + 1
  obtain ⟨k, hk⟩ := Down.request_tells_all (down_run h h0 n) (mem_seg.2 ⟨a, by omega, by omega, ha⟩) (mem_seg.2 ⟨b, by omega, by omega, hb⟩)
  have hk' : ∀ j, _ := fun j => hk _ _ (down_exec h n j) fun hh => hx ⟨_, hh⟩
  obtain ⟨N, hN, hq⟩ := bound_quiet (ev := ev) (own := Down.Ev.ender) (n := n) (b := k) fun j => (hk' j).1
  obtain ⟨m, hm, e, he, ho⟩ := hf.ending N fun m hm => by
    obtain ⟨j, rfl⟩ := Nat.exists_eq_add_of_le (show n ≤ m by omega)
    obtain ⟨e, u, h1, h2⟩ := (hk' j).2
    exact ⟨e, u, h1, h2⟩
  exact hq m hm e he ho

theorem ready_chan {c : Cfg} {s : Sr.St} (hr : Sr.Ready c s) (hw : s.pc = .waiting) :
    s.updateCh = true ∨ c.timer = true ∨ s.shutdownCh = true := by
  rcases hr.told with h | h | h | h | h
  · exact Or.inr (Or.inl h)
  · exact Or.inr (Or.inr h)
  · rw [hw] at h; simp at h
  · rw [hw] at h; simp at h
  · rw [hw] at h; simp at h

/-- A step of the updating goroutine `i` is possible at the server. -/
theorem own_possible {s : Down.St} {i : Nat} (hi : i < w.n) (hne : s.pc ≠ .exited)
    (h : ∃ e t, e.poller = true ∧ e.stop = false ∧ e ≠ .begin ∧ e ≠ .check ∧ Sr.Step (w.cfg i) (s.srs i) e t) :
    ∃ e t, (∃ x, e = Down.Ev.own i x ∧ x.poller = true) ∧ Down.Step w s e t := by
  obtain ⟨e, t, h1, h2, h3, h4, h5⟩ := h
  exact ⟨_, _, ⟨e, rfl, h1⟩, .own s i e t hne hi h2 (fun h => absurd h h3) (fun h => absurd h h4) h5⟩

theorem ending_exits (h : History (Down.Step w) st ev) (h0 : st 0 = .init w) (hf : FairServer w st ev) (hcap : 0 < w.cap) {n : Nat}
    (ha : Down.Ending w (st n)) : ∃ m, (st m).pc = .exited := by
  by_cases hx : ∃ m, (st m).pc = .exited
  · exact hx
  exfalso
  have hne : ∀ m, (st m).pc ≠ .exited := fun m hm => hx ⟨m, hm⟩
  have hall : ∀ m, n ≤ m → Down.Ending w (st m) := keepE h (fun m hm e he _ _ hst hp => Down.Ending.step hst hp) ha
  obtain ⟨N, hN, hq⟩ := quiet (ev := ev) (own := fun e => e.program = true) (fun m => Down.todoLeft w (st m)) (n := n)
    (fun m hm e he ho => (Down.program_todoLeft (step_of h he) (hall m hm)).1 ho) (fun m hm => by
      cases he : ev m with
      | none => show Down.todoLeft w (st (m + 1)) ≤ _; rw [same_of h he]; exact Nat.le_refl _
      | some e =>
        by_cases ho : e.program = true
        · exact Nat.le_of_lt ((Down.program_todoLeft (step_of h he) (hall m hm)).1 ho)
        · exact Nat.le_of_eq ((Down.program_todoLeft (step_of h he) (hall m hm)).2 (by simpa using ho)))
  have hview : ∀ i m, N ≤ m → ∀ x, atNumber ev i m = some x → ¬ x.poller = true := fun i m hm x hx hp =>
    hq m hm _ (view_event hx hp) hp
  have hpcs : ∀ i m, N ≤ m → ((st m).srs i).pc = ((st N).srs i).pc := fun i => quiet_pc (down_view h i) (hview i)
  have hused : ∀ m, N ≤ m → (st m).used w.n = (st N).used w.n := fun m hm => by
    unfold Down.St.used
    congr 1
    exact List.filter_congr fun i _ => by rw [hpcs i m hm]
  have hpc : ∀ m, N ≤ m → (st m).pc = (st N).pc := keepE h (P := fun s => s.pc = (st N).pc) (fun m hm e he s t hst hp => by
    have := hq m hm e he
    cases hst <;> simp_all [Down.Ev.program, Down.Ev.ender]
    have hh := (hall N hN).told
    rcases hh with hh | ⟨o, hh⟩ <;> simp_all) rfl
  -- a goroutine that is not at its end and not at the limiter makes a step
  have goesOn : ∀ i, i < w.n → ((st N).srs i).pc ≠ .done → ((st N).srs i).pc ≠ .acquiring → False := by
    intro i hi hd hacq
    have hready := fun m (hm : N ≤ m) => (hall m (by omega)).ready i hi
    obtain ⟨M, hM, hs⟩ := stuck (down_view h i) (fun m => ((down_run h h0 m).project i).inv)
      (fun m j x hj => by
        obtain ⟨m', h1, h2⟩ := hf.ends i hi m j x hj
        exact ⟨m', h1, Or.inl (h2.resolve_right (hne m'))⟩) (hf.writers i hi) (hview i) hd (fun m hm => (hready m hm).hold)
      (fun m hm hw => ready_chan (hready m hm) hw) hacq
    obtain ⟨m, hm, e, he, x, rfl, hp⟩ := hf.updating i hi M fun m hm => own_possible hi (hne m) (hs m hm)
    exact hq m (by omega) _ he hp
  rcases (hall N hN).told with hp | ⟨todo, hp⟩
  · exact hne N hp
  cases todo with
  | nil =>
    obtain ⟨m, hm, e, he, ho⟩ := hf.ending N fun m hm => ⟨_, _, rfl, .exit _ ((hpc m hm).trans hp)⟩
    exact hq m hm e he (by cases e <;> simp_all [Down.Ev.program, Down.Ev.ender])
  | cons i todo =>
    have hi : i < w.n := by
      have := (hall N hN).inv.at_
      rw [hp] at this
      exact this.1 i List.mem_cons_self
    by_cases hd : ((st N).srs i).pc = .done
    · obtain ⟨m, hm, e, he, ho⟩ := hf.ending N fun m hm =>
        ⟨_, _, rfl, .waited _ i todo ((hpc m hm).trans hp) ((hpcs i m hm).trans hd)⟩
      exact hq m hm e he (by cases e <;> simp_all [Down.Ev.program, Down.Ev.ender])
    by_cases hacq : ((st N).srs i).pc = .acquiring
    · by_cases hu : (st N).used w.n < w.cap
      · obtain ⟨m, hm, e, he, x, rfl, ho⟩ := hf.updating i hi N fun m hm =>
          ⟨_, _, ⟨.check, rfl, rfl⟩, .own _ i .check _ (hne m) hi rfl (fun h => by cases h) (fun _ => by rw [hused m hm]; exact hu)
            (.check _ ((hpcs i m hm).trans hacq))⟩
        exact hq m hm _ he ho
      · obtain ⟨j, hj, hh⟩ := Down.exists_holder (n := w.n) (s := st N) (by omega)
        refine goesOn j hj ?_ ?_ <;> intro hx <;> simp [hx, Down.holdsToken] at hh
    · exact goesOn i hi hd hacq

/-- **C97, the end.** A server that is loaded and asked to end does end, if each of its searchers polls or never updates. -/
theorem server_ends (h : History (Down.Step w) st ev) (h0 : st 0 = .init w) (hf : FairServer w st ev) (hcap : 0 < w.cap)
    (hsig : ∃ m, ev m = some .signal) (hh : ∃ m, ev m = some .handle)
    (hc : ∀ i < w.n, (w.cfg i).timer = true ∨ ((w.cfg i).poll = false ∧ (w.cfg i).push = false)) : ∃ m, (st m).pc = .exited := by
  obtain ⟨n, hn⟩ := all_told h h0 hf hsig hh
  exact ending_exits h h0 hf hcap (Down.ending_of_told (down_run h h0 n) hn fun i hi => (hc i hi).imp_right Or.inl)

/-! ### The limiter -/

theorem filter_le {l : List Nat} {p q : Nat → Bool} (h : ∀ i ∈ l, p i = true → q i = true) : (l.filter p).length ≤ (l.filter q).length := by
  induction l with
  | nil => simp
  | cons a l ih =>
    have ih := ih fun i hi => h i (List.mem_cons_of_mem _ hi)
    have ha := h a List.mem_cons_self
    cases hp : p a <;> cases hq : q a <;> simp_all <;> omega

theorem filter_lt {l : List Nat} {p q : Nat → Bool} (h : ∀ i ∈ l, p i = true → q i = true) {k : Nat} (hk : k ∈ l) (h1 : p k = false) (h2 : q k = true) :
    (l.filter p).length < (l.filter q).length := by
  induction l with
  | nil => simp at hk
  | cons a l ih =>
    have hle := filter_le fun i hi => h i (List.mem_cons_of_mem _ hi)
    have ha := h a List.mem_cons_self
    rcases List.mem_cons.1 hk with he | he
    · subst he
      simp [h1, h2]
      omega
    · have ih := ih (fun i hi => h i (List.mem_cons_of_mem _ hi)) he
      cases hp : p a <;> cases hq : q a <;> simp_all <;> omega

theorem holds_step {c : Cfg} {s t : Sr.St} {e : Sr.Ev} (h : Sr.Step c s e t) (he : e ≠ .check) :
    (Down.holdsToken t.pc = true → Down.holdsToken s.pc = true) ∧
    (e ≠ .release → Down.holdsToken s.pc = true → Down.holdsToken t.pc = true) ∧
    (e = .release → Down.holdsToken s.pc = true ∧ Down.holdsToken t.pc = false) := by
  cases h
  case check => exact absurd rfl he
  case destroyed o n ok hd a d => cases ok <;> simp_all [Down.holdsToken]
  all_goals simp_all [Down.holdsToken]

/-- Nobody has asked the server to end. -/
theorem calm_server (h : History (Down.Step w) st ev) (h0 : st 0 = .init w) (hs : ∀ m, ev m ≠ some .signal) :
    ∀ m, (st m).chan = false ∧ ((st m).pc = .absent ∨ (st m).pc = .listening) := by
  intro m
  refine keepE h (P := fun s => s.chan = false ∧ (s.pc = .absent ∨ s.pc = .listening)) (n := 0) (fun m hm e he s t hst hp => ?_)
    (by rw [h0]; simp [Down.St.init]) m (Nat.zero_le _)
  have := hs m
  cases hst <;> simp_all

theorem view_no_stop (h : History (Down.Step w) st ev) (h0 : st 0 = .init w) (hs : ∀ m, ev m ≠ some .signal) (i m : Nat) (x : Sr.Ev)
    (hx : atNumber ev i m = some x) : x.stop = false := by
  unfold atNumber at hx
  cases he : ev m with
  | none => simp [he] at hx
  | some e =>
    rw [he] at hx
    simp only [Option.bind_some] at hx
    have hst := step_of h he
    have hc := calm_server h h0 hs m
    generalize st (m + 1) = t at hst
    cases hst <;> simp_all [Down.at_]

/-- **C97, no starvation.** However many repositories there are, and however few may be checked at once: each repository with polling is checked
again and again, for ever, as long as nobody ends the server. -/
theorem nobody_starves (h : History (Down.Step w) st ev) (h0 : st 0 = .init w) (hf : FairServer w st ev) (hl : LimiterFair w st ev)
    (hcap : 0 < w.cap) (hs : ∀ m, ev m ≠ some .signal) {i : Nat} (hi : i < w.n) (ht : (w.cfg i).timer = true)
    (hb : ∃ m, ev m = some (.own i .begin)) : ∀ n, ∃ m, n ≤ m ∧ ev m = some (.own i .check) := by
  have hne : ∀ m, (st m).pc ≠ .exited := fun m hm => by
    rcases (calm_server h h0 hs m).2 with h | h <;> simp [hm] at h
  have hends : ∀ j, j < w.n → SearchesEnd (fun _ => False) fun n => (st n).srs j := fun j hj m k x hk => by
    obtain ⟨m', h1, h2⟩ := hf.ends j hj m k x hk
    exact ⟨m', h1, Or.inl (h2.resolve_right (hne m'))⟩
  have hinv : ∀ j m, Sr.Inv ((st m).srs j) := fun j m => ((down_run h h0 m).project j).inv
  have hmono : ∀ j n, (∀ m, n ≤ m → ev m ≠ some (.own j .check)) →
      ∃ N, n ≤ N ∧ ∀ m, N ≤ m → ∀ x, atNumber ev j m = some x → ¬ x.poller = true := by
    intro j n hno
    have hv := down_view h j
    have hno' : ∀ m, n ≤ m → ∀ e, atNumber ev j m = some e → e ≠ .check := fun m hm e he hh => by
      subst hh
      exact hno m hm (view_event he rfl)
    refine quiet (own := fun e => e.poller = true) (fun m => ((st m).srs j).pc.toCheck)
      (fun m hm e he ho => Sr.poller_toCheck (step_of hv he) ho (hno' m hm e he)) (fun m hm => ?_)
    cases he : atNumber ev j m with
    | none =>
      have := same_of hv he
      show ((st (m + 1)).srs j).pc.toCheck ≤ _
      rw [this]; exact Nat.le_refl _
    | some e =>
      by_cases ho : e.poller = true
      · exact Nat.le_of_lt (Sr.poller_toCheck (step_of hv he) ho (hno' m hm e he))
      · have := Sr.other_pc (step_of hv he) (by simpa using ho)
        show ((st (m + 1)).srs j).pc.toCheck ≤ _
        rw [this]; exact Nat.le_refl _
  intro n
  by_cases hx : ∃ m, n ≤ m ∧ ev m = some (.own i .check)
  · exact hx
  exfalso
  obtain ⟨b, hb⟩ := hb
  have hno : ∀ m, max n (b + 1) ≤ m → ev m ≠ some (.own i .check) := fun m hm he => hx ⟨m, by omega, he⟩
  have hv := down_view h i
  have hask : ∀ m, max n (b + 1) ≤ m → Sr.Asked (w.cfg i) ((st m).srs i) := by
    refine keepE hv (P := Sr.Asked (w.cfg i)) (fun m hm e he _ _ hst hp => Sr.Asked.step hst ⟨view_no_stop h h0 hs i m e he, fun hh => ?_⟩ hp) ?_
    · subst hh
      exact hno m hm (view_event he rfl)
    · have hr := (down_run h h0 (max n (b + 1))).project i
      refine Sr.polls_asked hr ?_ ht ?_
      · intro e he
        obtain ⟨x, hx, hxe⟩ := List.mem_filterMap.1 he
        obtain ⟨m, _, _, hm⟩ := mem_seg.1 hx
        exact view_no_stop h h0 hs i m e (by unfold atNumber; rw [hm]; exact hxe)
      · exact List.mem_filterMap.2 ⟨.own i .begin, mem_seg.2 ⟨b, by omega, by omega, hb⟩, by simp [Down.at_]⟩
  obtain ⟨N, hN, hq⟩ := hmono i _ hno
  have hpc := quiet_pc hv hq
  have hchan : ∀ m, N ≤ m → ((st m).srs i).pc = .waiting →
      ((st m).srs i).updateCh = true ∨ (w.cfg i).timer = true ∨ ((st m).srs i).shutdownCh = true := fun m hm hw => Or.inr (Or.inl ht)
  by_cases hacq : ((st N).srs i).pc = .acquiring
  · -- it waits at the limiter: then there is a free place again and again
    obtain ⟨m, hm, he⟩ := hl i N hi fun m hm => by
      by_cases hfree : ∃ k, m ≤ k ∧ (st k).used w.n < w.cap
      · obtain ⟨k, hk, hu⟩ := hfree
        exact ⟨k, hk, _, .own _ i .check _ (hne k) hi rfl (fun h => by cases h) (fun _ => hu) (.check _ ((hpc k (by omega)).trans hacq))⟩
      exfalso
      have hfull : ∀ k, m ≤ k → ¬ (st k).used w.n < w.cap := fun k hk hu => hfree ⟨k, hk, hu⟩
      have hnc : ∀ j k, m ≤ k → ev k ≠ some (.own j .check) := fun j k hk he => by
        have hst := step_of h he
        generalize hx : Down.Ev.own j Sr.Ev.check = e at hst
        generalize st (k + 1) = t at hst
        cases hst <;> simp at hx
        case own j' e' t' a b c d f g => exact hfull k hk (f hx.2.symm)
      have hstep : ∀ k, m ≤ k → ∀ e, ev k = some e → ((st (k + 1)).used w.n ≤ (st k).used w.n) ∧
          ((∃ j, j < w.n ∧ e = .own j .release) → (st (k + 1)).used w.n < (st k).used w.n) := by
        intro k hk e he
        have hmon : ∀ j, Down.holdsToken ((st (k + 1)).srs j).pc = true → Down.holdsToken ((st k).srs j).pc = true := by
          intro j hj
          cases hx : atNumber ev j k with
          | none =>
            have := same_of (down_view h j) hx
            rw [← this]; exact hj
          | some x =>
            refine (holds_step (step_of (down_view h j) hx) fun hh => ?_).1 hj
            subst hh
            exact hnc j k hk (view_event hx rfl)
        refine ⟨filter_le fun j _ => hmon j, ?_⟩
        rintro ⟨j, hj, rfl⟩
        have hx : atNumber ev j k = some .release := by simp [atNumber, he, Down.at_]
        obtain ⟨a, b⟩ := (holds_step (step_of (down_view h j) hx) (by simp)).2.2 rfl
        exact filter_lt (fun j _ => hmon j) (List.mem_range.2 hj) b a
      obtain ⟨M, hM, hnr⟩ := quiet (ev := ev) (own := fun e => ∃ j, j < w.n ∧ e = .own j .release) (fun k => (st k).used w.n) (n := m)
        (fun k hk e he ho => (hstep k hk e he).2 ho) (fun k hk => by
          cases he : ev k with
          | none => show (st (k + 1)).used w.n ≤ _; rw [same_of h he]; exact Nat.le_refl _
          | some e => exact (hstep k hk e he).1)
      obtain ⟨j, hj, hh⟩ := Down.exists_holder (n := w.n) (s := st M) (by have := hfull M hM; omega)
      have hstay : ∀ k, M ≤ k → Down.holdsToken ((st k).srs j).pc = true := by
        refine keepE (down_view h j) (P := fun s => Down.holdsToken s.pc = true) (fun k hk e he s t hst hp => ?_) hh
        refine (holds_step hst fun hx => ?_).2.1 (fun hx => ?_) hp
        · subst hx; exact hnc j k (by omega) (view_event he rfl)
        · subst hx; exact hnr k hk _ (view_event he rfl) ⟨j, hj, rfl⟩
      obtain ⟨K, hK, hqj⟩ := hmono j M fun k hk => hnc j k (by omega)
      have hpj := hstay K hK
      have hno3 : ∀ k, K ≤ k → ((st k).srs j).pc ≠ .hold ∧ ((st k).srs j).pc ≠ .waiting := fun k hk => by
        have := hstay k (by omega)
        constructor <;> intro hx <;> simp [hx, Down.holdsToken] at this
      obtain ⟨L, hL, hcan⟩ := stuck (down_view h j) (hinv j) (hends j hj) (hf.writers j hj) hqj
        (fun hx => by simp [hx, Down.holdsToken] at hpj) (fun k hk hx => absurd hx (hno3 k hk).1)
        (fun k hk hx => absurd hx (hno3 k hk).2) (fun hx => by simp [hx, Down.holdsToken] at hpj)
      obtain ⟨k, hk, e, he, x, rfl, hp⟩ := hf.updating j hj L fun k hk => own_possible hj (hne k) (hcan k hk)
      exact hqj k (by omega) x (by simp [atNumber, he, Down.at_]) hp
    exact hno m (by omega) he
  · obtain ⟨M, hM, hcan⟩ := stuck hv (hinv i) (hends i hi) (hf.writers i hi) hq (hask N hN).notDone
      (fun m hm => (hask m (by omega)).hold) hchan hacq
    obtain ⟨m, hm, e, he, x, rfl, hp⟩ := hf.updating i hi M fun m hm => own_possible hi (hne m) (hcan m hm)
    exact hq m (by omega) x (by simp [atNumber, he, Down.at_]) hp

end Server

end Hound.Fair
