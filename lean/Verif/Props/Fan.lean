import Verif.Proofs.Fan
/-!
C102: a request that searches several repositories is answered and leaves nothing behind.
-/

namespace Hound
namespace Fan
open Spec

section
variable {st : Nat → St} {ev : Nat → Option Ev}

/-- The request comes to wait for results. -/
private theorem spawning_goes (h : History Step st ev) (hi : ∀ n, Inv (st n)) (hf : Fan.Fair st ev) {r N : Nat} : ∀ (d m j : Nat), N - j = d →
    r < (st m).made → ((st m).reqs r).repos.length = N → ((st m).reqs r).main = .spawning j →
    ∃ k, m ≤ k ∧ r < (st k).made ∧ ((st k).reqs r).main = .waiting 0 := by
  intro d
  induction d with
  | zero =>
    intro m j hd hr hN hm
    obtain ⟨k, hk, ⟨p1, p2, p3⟩, e, he, ho, hs⟩ := leads h hi (hf.main r)
      (fun s => r < s.made ∧ (s.reqs r).repos.length = N ∧ (s.reqs r).main = .spawning j)
      (fun s hI hp => ⟨_, _, rfl, .spawned s r j hp.1 hp.2.2 (by omega)⟩)
      (fun s e t hI hs hp ho => by
        have := req_kept hs hp.1
        exact ⟨this.2.1, by rw [this.1]; exact hp.2.1, (this.2.2 ho).trans hp.2.2⟩) ⟨hr, hN, hm⟩
    cases ho
    refine ⟨k + 1, by omega, (req_kept hs p1).2.1, ?_⟩
    generalize st (k + 1) = t at hs
    generalize st k = s at hs p1 p2 p3
    cases hs with
    | spawn _ j' _ hm' hj' => rw [p3] at hm'; injection hm' with hm'; omega
    | spawned => simp [upd]
    | receive _ _ _ _ _ _ hm' => rw [p3] at hm'; cases hm'
    | answer _ _ _ hm' => rw [p3] at hm'; cases hm'
  | succ d ih =>
    intro m j hd hr hN hm
    obtain ⟨k, hk, ⟨p1, p2, p3⟩, e, he, ho, hs⟩ := leads h hi (hf.main r)
      (fun s => r < s.made ∧ (s.reqs r).repos.length = N ∧ (s.reqs r).main = .spawning j)
      (fun s hI hp => ⟨_, _, rfl, .spawn s r j hp.1 hp.2.2 (by omega)⟩)
      (fun s e t hI hs hp ho => by
        have := req_kept hs hp.1
        exact ⟨this.2.1, by rw [this.1]; exact hp.2.1, (this.2.2 ho).trans hp.2.2⟩) ⟨hr, hN, hm⟩
    cases ho
    have hrk := req_kept hs p1
    have hnext : ((st (k + 1)).reqs r).main = .spawning (j + 1) := by
      generalize st (k + 1) = t at hs
      generalize st k = s at hs p1 p2 p3
      cases hs with
      | spawn _ j' _ hm' hj' => rw [p3] at hm'; injection hm' with hm'; subst hm'; simp [upd]
      | spawned _ j' _ hm' hj' => rw [p3] at hm'; injection hm' with hm'; omega
      | receive _ _ _ _ _ _ hm' => rw [p3] at hm'; cases hm'
      | answer _ _ _ hm' => rw [p3] at hm'; cases hm'
    obtain ⟨k', hk', h1⟩ := ih (k + 1) (j + 1) (by omega) hrk.2.1 (by rw [hrk.1]; exact p2) hnext
    exact ⟨k', by omega, h1⟩

/-- Every goroutine of the request has ended at some moment. -/
private theorem all_end (h : History Step st ev) (h0 : st 0 = start) (hf : Fan.Fair st ev) {r m : Nat} (hr : r < (st m).made)
    (hw : ∀ j, ((st m).reqs r).main ≠ .spawning j) : ∀ b, b ≤ ((st m).reqs r).repos.length →
    ∃ k, m ≤ k ∧ ∀ j, j < b → ∃ e, ((st k).reqs r).gos j = .gone e := by
  have hi := inv h h0
  intro b
  induction b with
  | zero => intro _; exact ⟨m, Nat.le_refl _, fun j hj => absurd hj (Nat.not_lt_zero _)⟩
  | succ b ih =>
    intro hb
    obtain ⟨k, hk, h1⟩ := ih (by omega)
    obtain ⟨k', hk', e, h2⟩ := started_ends h h0 hf hr (((hi m).req r hr).all hw b (by omega))
    have keep : ∀ x y j e, m ≤ x → x ≤ y → ((st x).reqs r).gos j = .gone e → ((st y).reqs r).gos j = .gone e := by
      intro x y j e hmx hxy hg
      have hrx : r < (st x).made := stays h hi (fun s => r < s.made) (fun s e t _ hs hp => (req_kept hs hp).2.1) hmx hr
      exact (stays h hi (fun s => r < s.made ∧ (s.reqs r).gos j = .gone e)
        (fun s e t hI hs hp => ⟨(req_kept hs hp.1).2.1, gone_kept hs hI hp.1 hp.2⟩) hxy ⟨hrx, hg⟩).2
    refine ⟨max k k', by omega, fun j hj => ?_⟩
    by_cases hjb : j = b
    · subst hjb; exact ⟨e, keep k' _ j e hk' (by omega) h2⟩
    · obtain ⟨e', he'⟩ := h1 j (by omega)
      exact ⟨e', keep k _ j e' hk (by omega) he'⟩

/-- When all have sent, the request is answered. -/
private theorem waiting_goes (h : History Step st ev) (hi : ∀ n, Inv (st n)) (hf : Fan.Fair st ev) {r N : Nat} : ∀ (d m i : Nat), N + 1 - i = d →
    r < (st m).made → ((st m).reqs r).repos.length = N → (∀ j, j < N → ∃ e, ((st m).reqs r).gos j = .gone e) →
    ((st m).reqs r).main = .waiting i → ∃ k, m ≤ k ∧ ∃ ok, ((st k).reqs r).main = .answered ok := by
  intro d
  induction d with
  | zero =>
    intro m i hd hr hN hg hm
    have := (((hi m).req r hr).waiting i hm).2.1
    omega
  | succ d ih =>
    intro m i hd hr hN hg hm
    obtain ⟨k, hk, ⟨p1, p2, p3, p4⟩, e, he, ho, hs⟩ := leads h hi (hf.main r)
      (fun s => r < s.made ∧ (s.reqs r).repos.length = N ∧ (∀ j, j < N → ∃ e, (s.reqs r).gos j = .gone e) ∧ (s.reqs r).main = .waiting i)
      (fun s hI hp => by
        obtain ⟨q1, q2, q3, q4⟩ := hp
        have hq := hI.req r q1
        by_cases hiN : i < N
        · have hfull := hq.full (by rw [q2]; exact q3)
          have := (hq.waiting i q4).1
          cases hb : (s.reqs r).buf with
          | nil => rw [hb, List.length_nil] at hfull; omega
          | cons x rest => exact ⟨_, _, rfl, .receive s r i x.1 x.2 rest q1 q4 (by omega) hb⟩
        · exact ⟨_, _, rfl, .answer s r i q1 q4 (by omega)⟩)
      (fun s e t hI hs hp ho => by
        have := req_kept hs hp.1
        refine ⟨this.2.1, by rw [this.1]; exact hp.2.1, fun j hj => ?_, (this.2.2 ho).trans hp.2.2.2⟩
        obtain ⟨e', he'⟩ := hp.2.2.1 j hj
        exact ⟨e', gone_kept hs hI hp.1 he'⟩) ⟨hr, hN, hg, hm⟩
    cases ho
    have hrk := req_kept hs p1
    have hgk : ∀ j, j < N → ∃ e, ((st (k + 1)).reqs r).gos j = .gone e := fun j hj => by
      obtain ⟨e', he'⟩ := p3 j hj
      exact ⟨e', gone_kept hs (hi k) p1 he'⟩
    have key : ((st (k + 1)).reqs r).main = .waiting (i + 1) ∨ ∃ ok, ((st (k + 1)).reqs r).main = .answered ok := by
      generalize st (k + 1) = t at hs
      generalize st k = s at hs p1 p2 p3 p4
      cases hs with
      | spawn _ j' _ hm' hj' => rw [p4] at hm'; cases hm'
      | spawned _ j' _ hm' hj' => rw [p4] at hm'; cases hm'
      | receive _ i' j' err rest _ hm' =>
        rw [p4] at hm'; injection hm' with hm'; subst hm'
        simp only [upd, if_true, Req.receive]
        cases err <;> simp
      | answer _ _ _ hm' => exact .inr ⟨true, by simp [upd]⟩
    rcases key with key | ⟨ok, key⟩
    · obtain ⟨k', hk', h1⟩ := ih (k + 1) (i + 1) (by omega) hrk.2.1 (by rw [hrk.1]; exact p2) hgk key
      exact ⟨k', by omega, h1⟩
    · exact ⟨k + 1, by omega, ok, key⟩

/-- C102: every request is answered, and from some moment on all its goroutines have ended, whichever of its searches fail, whatever other
requests there are and however often the repositories are updated. -/
theorem request_over (h : History Step st ev) (h0 : st 0 = start) (hf : Fan.Fair st ev) (m r : Nat) (hr : r < (st m).made) :
    ∃ k, m ≤ k ∧ ∀ k', k ≤ k' → ((st k').reqs r).repos = ((st m).reqs r).repos ∧ ((st k').reqs r).over := by
  have hi := inv h h0
  have later : ∀ k, m ≤ k → r < (st k).made ∧ ((st k).reqs r).repos = ((st m).reqs r).repos := fun k hk =>
    stays h hi (fun s => r < s.made ∧ (s.reqs r).repos = ((st m).reqs r).repos)
      (fun s e t _ hs hp => ⟨(req_kept hs hp.1).2.1, (req_kept hs hp.1).1.trans hp.2⟩) hk ⟨hr, rfl⟩
  -- the goroutines have been started
  have h1 : ∃ k, m ≤ k ∧ ∀ j, ((st k).reqs r).main ≠ .spawning j := by
    cases hm : ((st m).reqs r).main with
    | spawning j =>
      obtain ⟨k, hk, _, hw⟩ := spawning_goes h hi hf _ m j rfl hr rfl hm
      exact ⟨k, hk, fun j => by rw [hw]; simp⟩
    | waiting i => exact ⟨m, Nat.le_refl _, fun j => by rw [hm]; simp⟩
    | answered ok => exact ⟨m, Nat.le_refl _, fun j => by rw [hm]; simp⟩
  obtain ⟨a, ha, hns⟩ := h1
  obtain ⟨b, hb, hall⟩ := all_end h h0 hf (later a ha).1 hns _ (Nat.le_refl _)
  rw [(later a ha).2] at hall
  have hrb := later b (by omega)
  have hans : ∃ k, b ≤ k ∧ ∃ ok, ((st k).reqs r).main = .answered ok := by
    cases hm : ((st b).reqs r).main with
    | spawning j =>
      exfalso
      have keep : ∀ d, ∀ j, ((st (a + d)).reqs r).main ≠ .spawning j := by
        intro d
        induction d with
        | zero => exact hns
        | succ d ih =>
          cases he : ev (a + d) with
          | none => rw [← Nat.add_assoc, Fair.same_of h he]; exact ih
          | some e =>
            have hs := Fair.step_of h he
            have hra := (later (a + d) (by omega)).1
            rw [← Nat.add_assoc]
            by_cases ho : isMain r e
            · cases ho
              generalize st (a + d + 1) = t at hs
              generalize st (a + d) = s at hs ih
              cases hs with
              | spawn _ j' _ hm' => exact absurd hm' (ih j')
              | spawned _ j' _ hm' => exact absurd hm' (ih j')
              | receive => intro j; simp only [upd, if_true, Req.receive]; split <;> simp
              | answer => intro j; simp [upd]
            · intro j; rw [(req_kept hs hra).2.2 ho]; exact ih j
      obtain ⟨d, rfl⟩ := Nat.exists_eq_add_of_le hb
      exact keep d j hm
    | waiting i => exact waiting_goes h hi hf _ b i rfl hrb.1 (by rw [hrb.2]) hall hm
    | answered ok => exact ⟨b, Nat.le_refl _, ok, hm⟩
  obtain ⟨k, hk, ok, hok⟩ := hans
  refine ⟨k, by omega, fun k' hk' => ⟨(later k' (by omega)).2, ⟨ok, ?_⟩, ?_⟩⟩
  · exact (stays h hi (fun s => r < s.made ∧ (s.reqs r).main = .answered ok)
      (fun s e t _ hs hp => ⟨(req_kept hs hp.1).2.1, answered_kept hs hp.1 hp.2⟩) hk' ⟨(later k (by omega)).1, hok⟩).2
  · rw [(later k' (by omega)).2]
    intro j hj
    obtain ⟨e, he⟩ := hall j hj
    exact ⟨e, (stays h hi (fun s => r < s.made ∧ (s.reqs r).gos j = .gone e)
      (fun s e t hI hs hp => ⟨(req_kept hs hp.1).2.1, gone_kept hs hI hp.1 hp.2⟩) (show b ≤ k' by omega) ⟨hrb.1, he⟩).2⟩

/-- C102: a request is answered with results exactly if every search has ended without an error. -/
theorem answer_right (h : History Step st ev) (h0 : st 0 = start) (m r : Nat) (hr : r < (st m).made) (ok : Bool)
    (ha : ((st m).reqs r).main = .answered ok) :
    ok = true ↔ ∀ j, j < ((st m).reqs r).repos.length → ((st m).reqs r).gos j = .gone false := by
  have hq := (inv h h0 m).req r hr
  generalize (st m).reqs r = q at hq ha
  have lt : ∀ k, q.gos k ≠ .none → k < q.repos.length := fun k hk => Nat.not_le.1 fun hh => hk (hq.none k hh)
  cases ok with
  | true =>
    obtain ⟨g1, g2⟩ := hq.good ha
    refine ⟨fun _ j hj => ?_, fun _ => rfl⟩
    apply Classical.byContradiction
    intro hno
    have hnot : j ∉ q.got := fun hh => hno (g2 j hh)
    have := SSet.length_le_of_nodup_bound q.repos.length (j :: q.got) (List.nodup_cons.2 ⟨hnot, (List.nodup_append.1 hq.once).1⟩) (by
      intro x hx
      rcases List.mem_cons.1 hx with hx | hx
      · subst hx; exact hj
      · exact lt x (by rw [g2 x hx]; simp))
    simp only [List.length_cons] at this
    omega
  | false =>
    obtain ⟨j, hj⟩ := hq.bad ha
    refine ⟨fun hh => by simp at hh, fun hall => ?_⟩
    have := hall j (lt j (by rw [hj]; simp))
    rw [hj] at this; cases this
end

/-! ### A case

A request for two repositories is answered with an error when the first search has failed. The other goroutine searches and sends
afterwards. -/

/-- What happens. -/
def caseEvents : List Ev :=
  [.request [3, 5], .main 0, .main 0, .main 0, .lock 0 0 3 (.call 0), .lock 0 0 3 (.search 0), .lock 0 0 3 (.search 0), .found 0 0 true, .send 0 0,
    .main 0, .lock 0 1 5 (.call 0), .lock 0 1 5 (.search 0), .lock 0 1 5 (.search 0), .found 0 1 false, .send 0 1]

theorem case_path : ∃ s t, Fair.Path Step start (caseEvents.take 10) s ∧ Fair.Path Step s (caseEvents.drop 10) t ∧
    s.made = 1 ∧ (s.reqs 0).main = .answered false ∧ (s.reqs 0).gos 1 = .started ∧
    t.made = 1 ∧ (t.reqs 0).main = .answered false ∧ (∀ j, (t.reqs 0).gos j = .none ∨ ∃ e, (t.reqs 0).gos j = .gone e) ∧
    ∀ i, (t.locks i).poller = .idle := by
  refine ⟨_, _, .cons (.request _ _) <| .cons (.spawn _ 0 0 (by decide) rfl (by decide)) <| .cons (.spawn _ 0 1 (by decide) rfl (by decide)) <|
    .cons (.spawned _ 0 2 (by decide) rfl (by decide)) <| .cons (.call _ 0 0 3 0 _ (by decide) rfl rfl (.call _)) <|
    .cons (.run _ 0 0 3 0 _ (by decide) rfl rfl (.enter _ 0 rfl)) <| .cons (.run _ 0 0 3 0 _ (by decide) rfl rfl (.ends _ 0 rfl)) <|
    .cons (.found _ 0 0 3 0 true (by decide) rfl rfl rfl) <| .cons (.send _ 0 0 true (by decide) rfl (by decide)) <|
    .cons (.receive _ 0 0 0 true [] (by decide) rfl (by decide) rfl) <| .nil _,
    .cons (.call _ 0 1 5 0 _ (by decide) rfl rfl (.call _)) <|
    .cons (.run _ 0 1 5 0 _ (by decide) rfl rfl (.enter _ 0 rfl)) <| .cons (.run _ 0 1 5 0 _ (by decide) rfl rfl (.ends _ 0 rfl)) <|
    .cons (.found _ 0 1 5 0 false (by decide) rfl rfl rfl) <| .cons (.send _ 0 1 false (by decide) rfl (by decide)) <| .nil _,
    rfl, rfl, rfl, rfl, rfl, ?_, ?_⟩
  · intro j
    match j with
    | 0 => exact .inr ⟨true, rfl⟩
    | 1 => exact .inr ⟨false, rfl⟩
    | _ + 2 => exact .inl rfl
  · intro i
    match i with
    | 0 | 1 | 2 | 3 | 4 | 5 => rfl
    | _ + 6 => rfl

/-- A finite piece before a history. -/
private theorem before {s t : St} {es : List Ev} (h : Fair.Path Step s es t) : ∀ {st : Nat → St} {ev : Nat → Option Ev}, History Step st ev →
    st 0 = t → ∃ st' ev', History Step st' ev' ∧ st' 0 = s ∧ (∀ n, st' (es.length + n) = st n) := by
  induction h with
  | nil s => intro st ev h1 h2; exact ⟨st, ev, h1, h2, fun n => by simp⟩
  | @cons s t u e es h1 h2 ih =>
    intro st ev h3 h4
    obtain ⟨st', ev', a, b, c⟩ := ih h3 h4
    refine ⟨fun n => match n with | 0 => s | n + 1 => st' n, fun n => match n with | 0 => some e | n + 1 => ev' n, ?_, rfl, ?_⟩
    · intro n
      cases n with
      | zero => simpa [b] using h1
      | succ n => simpa using a n
    · intro n
      rw [show (e :: es).length + n = (es.length + n) + 1 by simp only [List.length_cons]; omega]
      exact c n

/-- The hypotheses of the theorems are met by a history in which a request is answered with an error before the goroutine for the second
repository has begun to search. -/
theorem case_fair : ∃ st ev, History Step st ev ∧ st 0 = start ∧ Fan.Fair st ev ∧ (st 10).made = 1 ∧ ((st 10).reqs 0).main = .answered false ∧
    ((st 10).reqs 0).gos 1 = .started := by
  obtain ⟨s, t, p1, p2, s1, s2, s3, t1, t2, t3, t4⟩ := case_path
  obtain ⟨sb, b1, b2, b3⟩ := Fair.rest p2
  obtain ⟨st, ev, a1, a2, a3⟩ := before p1 b1 b2
  have h10 : st 10 = s := by rw [← b2]; exact a3 0
  have fin : ∀ n, 15 ≤ n → st n = t := fun n hn => by
    obtain ⟨d, rfl⟩ := Nat.exists_eq_add_of_le hn
    rw [← b3 (5 + d) (Nat.le_add_right 5 d), ← a3 (5 + d)]
    congr 1
    simp [caseEvents]; omega
  have none : ∀ own : Ev → Prop, (∀ e u, own e → ¬ Step t e u) → Moves Step own st ev := fun own hno n hn => by
    obtain ⟨e, u, h1, h2⟩ := hn (max n 15) (by omega)
    rw [fin _ (by omega)] at h2
    exact absurd h2 (hno e u h1)
  refine ⟨st, ev, a1, a2, ⟨fun r => none _ fun e u ho hs => ?_, fun r j => none _ fun e u ho hs => ?_, fun i => none _ fun e u ho hs => ?_⟩,
    by rw [h10]; exact s1, by rw [h10]; exact s2, by rw [h10]; exact s3⟩
  · cases ho
    have : r < t.made → r = 0 := by omega
    cases hs <;> simp_all
  · have h0 : r < t.made → r = 0 := by omega
    have hj := t3 j
    rcases ho with ⟨i', x, rfl⟩ | ⟨b, rfl⟩ | rfl
    · cases hs with
      | call _ _ _ _ _ hr hg => rw [h0 hr] at hg; rcases hj with hj | ⟨e, hj⟩ <;> rw [hj] at hg <;> cases hg
      | run _ _ _ _ _ hr hg => rw [h0 hr] at hg; rcases hj with hj | ⟨e, hj⟩ <;> rw [hj] at hg <;> cases hg
    · cases hs with
      | found _ _ _ _ _ hr hg => rw [h0 hr] at hg; rcases hj with hj | ⟨e, hj⟩ <;> rw [hj] at hg <;> cases hg
    · cases hs with
      | send _ _ _ hr hg => rw [h0 hr] at hg; rcases hj with hj | ⟨e, hj⟩ <;> rw [hj] at hg <;> cases hg
  · cases ho
    have := t4 i
    cases hs with
    | own _ _ l _ hl =>
      generalize t.locks i = l0 at hl this
      cases hl <;> simp_all

example : ∃ st ev, History Step st ev ∧ st 0 = start ∧ ((st 10).reqs 0).main = .answered false ∧ ((st 10).reqs 0).gos 1 = .started ∧
    ∃ k, 10 ≤ k ∧ ((st k).reqs 0).over := by
  obtain ⟨st, ev, h1, h2, h3, h4, h5, h6⟩ := case_fair
  obtain ⟨k, hk, hov⟩ := request_over h1 h2 h3 10 0 (by omega)
  exact ⟨st, ev, h1, h2, h5, h6, k, hk, (hov k (Nat.le_refl _)).2⟩

end Fan
end Hound
