import Verif.Proofs.Gate
/-!
C105: the server begins to serve, and answers.
-/

namespace Hound
namespace Gate
open Spec

section
variable {uri : Bytes} {content : Bool} {st : Nat → St} {ev : Nat → Option Ev}

/-- A request that has the lock is answered and leaves, if the process does not end. -/
private theorem inside_ends (h : Runs uri content st ev) {m n : Nat} (hal : ∀ k, m ≤ k → (st k).alive = true)
    (hr : (st m).reader n = true) : ∃ k, m ≤ k ∧ ∃ r, (st k).place n = .answered r := by
  have reads : ∀ m, (∀ k, m ≤ k → (st k).alive = true) → ∀ b, (st m).place n = .reads b →
      ∃ k, m ≤ k ∧ ∃ r, (st k).place n = .answered r := by
    intro m hal b hb
    obtain ⟨k, hk, h1, he, hs⟩ := leads h (h.request n) (fun s => s.place n = .reads b) (m := m)
      (fun k hk hp => ⟨_, .reply _ n b (hal k hk) hp⟩)
      (fun k hk hp e _ hs ho => by rw [place_kept hs ho (by rw [hp]; simp) (by rw [hp]; simp) (inv h k)]; exact hp) hb
    refine ⟨k + 1, by omega, ?_⟩
    generalize st (k + 1) = t at hs
    cases hs with
    | reply _ b' _ _ => exact ⟨if b' then .served else .notReady, by simp [put]⟩
    | _ => simp_all
  rcases (reader_iff _ _).1 hr with hi | ⟨b, hb⟩
  · obtain ⟨k, hk, h1, he, hs⟩ := leads h (h.request n) (fun s => s.place n = .inside) (m := m)
      (fun k hk hp => ⟨_, .read _ n (hal k hk) hp⟩)
      (fun k hk hp e _ hs ho => by rw [place_kept hs ho (by rw [hp]; simp) (by rw [hp]; simp) (inv h k)]; exact hp) hi
    have : ∃ b, (st (k + 1)).place n = .reads b := by
      generalize st (k + 1) = t at hs
      cases hs with
      | read _ _ _ => exact ⟨(st k).mux, by simp [put]⟩
      | _ => simp_all
    obtain ⟨b, hb⟩ := this
    obtain ⟨k', hk', hr⟩ := reads (k + 1) (fun j hj => hal j (by omega)) b hb
    exact ⟨k', by omega, hr⟩
  · exact reads m hal b hb

/-- `main` gets the lock, if the process does not end. -/
private theorem waits_goes (h : Runs uri content st ev) {m : Nat} (hal : ∀ k, m ≤ k → (st k).alive = true)
    (hm : (st m).main = .waits) : ∃ k, m ≤ k ∧ (st k).main = .has := by
  apply Classical.byContradiction
  intro hc
  -- it waits for ever
  have w : ∀ k, m ≤ k → (st k).main = .waits := stays h (fun s => s.main = .waits) (m := m) (fun k hk hp e he hs => by
    have ha := hal (k + 1) (by omega)
    have hn : (st (k + 1)).main ≠ .has := fun hh => hc ⟨k + 1, by omega, hh⟩
    generalize st (k + 1) = t at hs ha hn
    cases hs <;> simp_all [St.alive]) hm
  -- nobody comes in
  have out : ∀ n a, m ≤ a → (st a).reader n = false → ∀ k, a ≤ k → (st k).reader n = false := fun n a ha hr =>
    stays h (fun s => s.reader n = false) (m := a) (fun k hk hp e he hs => by
      have hw := w k (by omega)
      have hw' := w (k + 1) (by omega)
      have wr := writer_iff (st k)
      rw [reader_false] at hp ⊢
      generalize st (k + 1) = t at hs hw'
      cases hs with
      | call p => grind [put]
      | health j => grind [put]
      | lock j => grind [put]
      | read j => grind [put]
      | reply j => grind [put]
      | set hh => rw [hw] at hh; cases hh
      | _ => exact hp) hr
  -- those inside leave
  have empty : ∀ j, ∃ a, m ≤ a ∧ ∀ n, n < j → (st a).reader n = false := by
    intro j
    induction j with
    | zero => exact ⟨m, Nat.le_refl _, fun n hn => absurd hn (Nat.not_lt_zero _)⟩
    | succ j ih =>
      obtain ⟨a, ha, hn⟩ := ih
      have : ∃ b, a ≤ b ∧ (st b).reader j = false := by
        by_cases hr : (st a).reader j = true
        · obtain ⟨b, hb, r, hp⟩ := inside_ends h (fun k hk => hal k (by omega)) hr
          exact ⟨b, hb, by simp [St.reader, hp]⟩
        · exact ⟨a, Nat.le_refl _, by simpa using hr⟩
      obtain ⟨b, hb, hj⟩ := this
      refine ⟨b, by omega, fun n hlt => ?_⟩
      by_cases hnj : n = j
      · subst hnj; exact hj
      · exact out n a ha (hn n (by omega)) b hb
  obtain ⟨a, ha, hn⟩ := empty (st m).made
  have none : ∀ k, a ≤ k → ∀ n, (st k).reader n = false := by
    intro k hk n
    by_cases hlt : n < (st m).made
    · exact out n a ha (hn n hlt) k hk
    · exact out n m (Nat.le_refl _) (by simp [St.reader, (inv h m).made n (by omega)]) k (by omega)
  obtain ⟨k, hk, h1, he, hs⟩ := leads h h.main (fun s => s.main = .waits) (m := a)
    (fun k hk hp => ⟨_, .get _ hp (none k hk)⟩) (fun k hk _ _ _ _ _ => w (k + 1) (by omega)) (w a ha)
  have := w (k + 1) (by omega)
  generalize st (k + 1) = t at hs this
  cases hs <;> simp_all

/-- `main` gets from `loaded` on to `receives`, if the process does not end. -/
private theorem reaches (h : Runs uri content st ev) {m : Nat} (hal : ∀ k, m ≤ k → (st k).alive = true)
    (hm : (st m).main ≠ .loading) : ∃ k, m ≤ k ∧ (st k).main = .receives := by
  have fromHas : ∀ a, m ≤ a → (st a).main = .has → ∃ k, a ≤ k ∧ (st k).main = .receives := by
    intro a ha hh
    obtain ⟨k, hk, h1, he, hs⟩ := leads h h.main (fun s => s.main = .has) (m := a)
      (fun k hk hp => ⟨_, .set _ hp⟩)
      (fun k hk hp e _ hs ho => by
        have := hal (k + 1) (by omega)
        generalize st (k + 1) = t at hs this
        cases hs <;> simp_all [St.alive]) hh
    refine ⟨k + 1, by omega, ?_⟩
    generalize st (k + 1) = t at hs
    cases hs <;> simp_all
  have fromWaits : ∀ a, m ≤ a → (st a).main = .waits → ∃ k, a ≤ k ∧ (st k).main = .receives := by
    intro a ha hh
    obtain ⟨k, hk, h1⟩ := waits_goes h (fun j hj => hal j (by omega)) hh
    obtain ⟨k', hk', h2⟩ := fromHas k (by omega) h1
    exact ⟨k', by omega, h2⟩
  cases hp : (st m).main with
  | loading => exact absurd hp hm
  | loaded =>
    obtain ⟨k, hk, h1, he, hs⟩ := leads h h.main (fun s => s.main = .loaded) (m := m)
      (fun k hk hp => by
        cases hct : (st k).content with
        | true => exact ⟨_, .build _ hp hct⟩
        | false => exact ⟨_, .noContent _ hp hct⟩)
      (fun k hk hp e _ hs ho => by
        have := hal (k + 1) (by omega)
        generalize st (k + 1) = t at hs this
        cases hs <;> simp_all [St.alive]) hp
    have hw : (st (k + 1)).main = .waits := by
      have := hal (k + 1) (by omega)
      generalize st (k + 1) = t at hs this
      cases hs <;> simp_all [St.alive]
    obtain ⟨k', hk', h2⟩ := fromWaits (k + 1) (by omega) hw
    exact ⟨k', by omega, h2⟩
  | waits => exact fromWaits m (Nat.le_refl _) hp
  | has => exact fromHas m (Nat.le_refl _) hp
  | receives => exact ⟨m, Nat.le_refl _, hp⟩
  | gone why => have := (alive_iff _).1 (hal m (Nat.le_refl _)); exact absurd ⟨why, hp⟩ this

/-- **C105.** Once the searchers are made, the server begins to serve (there are handlers, and `main` waits for the end of the server),
whatever requests come and however many of them are under way, unless the process ends. -/
theorem becomes_ready (h : Runs uri content st ev) (m : Nat) (hm : (st m).main ≠ .loading) :
    ∃ k, m ≤ k ∧ (((st k).main = .receives ∧ (st k).mux = true) ∨ Gone (st k)) := by
  by_cases hg : ∃ k, m ≤ k ∧ Gone (st k)
  · obtain ⟨k, hk, hg⟩ := hg; exact ⟨k, hk, .inr hg⟩
  · obtain ⟨k, hk, h1⟩ := reaches h (fun k hk => (alive_iff _).2 fun hgk => hg ⟨k, hk, hgk⟩) hm
    exact ⟨k, hk, .inl ⟨h1, (inv h k).mux h1⟩⟩

/-- `main` goes on only when the searchers are made. -/
private theorem loaded_by_load (h : Runs uri content st ev) (k : Nat) (hk : (st k).main ≠ .loading) (hg : ¬ Gone (st k)) :
    ∃ i, i < k ∧ ev i = some (.load true) := by
  induction k with
  | zero => rw [h.start] at hk; exact absurd rfl hk
  | succ k ih =>
    cases he : ev k with
    | none =>
      rw [Fair.same_of h.steps he] at hk hg
      obtain ⟨i, hi, h1⟩ := ih hk hg
      exact ⟨i, by omega, h1⟩
    | some e =>
      by_cases hl : (st k).main = .loading
      · have hs := Fair.step_of h.steps he
        generalize st (k + 1) = t at hs hk hg
        cases hs with
        | load => exact ⟨k, by omega, he⟩
        | loadFails => exact absurd ⟨_, rfl⟩ hg
        | signal => exact absurd ⟨_, rfl⟩ hg
        | _ => simp_all
      · have hg' : ¬ Gone (st k) := by
          have hs := Fair.step_of h.steps he
          rw [← alive_iff]
          generalize st (k + 1) = t at hs
          cases hs <;> simp_all [St.alive]
        obtain ⟨i, hi, h1⟩ := ih hl hg'
        exact ⟨i, by omega, h1⟩

/-- **C105.** The process ends for one of four reasons only: the searchers could not be made, the pages could not be made, listening
failed, or there was a signal after the searchers were made (it is not safe to be killed before). -/
theorem ends_for_a_reason (h : Runs uri content st ev) (k : Nat) (why : End) (hk : (st k).main = .gone why) :
    (why = .load ∧ ∃ j, j < k ∧ ev j = some (.load false)) ∨ (why = .content ∧ content = false) ∨
    (why = .listen ∧ (st k).failed = true ∧ (st k).mux = true) ∨
    (why = .signal ∧ ∃ i j, i < j ∧ j < k ∧ ev i = some (.load true) ∧ ev j = some .signal) := by
  induction k with
  | zero => rw [h.start] at hk; cases hk
  | succ k ih =>
    have hI := inv h k
    cases he : ev k with
    | none =>
      rw [Fair.same_of h.steps he] at hk ⊢
      rcases ih hk with ⟨h1, j, hj, h2⟩ | h1 | h1 | ⟨h1, i, j, hij, hj, h2⟩
      · exact .inl ⟨h1, j, by omega, h2⟩
      · exact .inr (.inl h1)
      · exact .inr (.inr (.inl h1))
      · exact .inr (.inr (.inr ⟨h1, i, j, hij, by omega, h2⟩))
    | some e =>
      have hs := Fair.step_of h.steps he
      have hmux := hI.mux
      have hcon := hI.content
      have hld := loaded_by_load h k
      generalize st (k + 1) = t at hs hk ⊢
      cases hs with
      | loadFails => cases hk; exact .inl ⟨rfl, k, by omega, he⟩
      | signal ha hl =>
        cases hk
        obtain ⟨i, hi, h1⟩ := hld hl ((alive_iff _).1 ha)
        exact .inr (.inr (.inr ⟨rfl, i, k, hi, by omega, h1, he⟩))
      | noContent _ h2 => cases hk; exact .inr (.inl ⟨rfl, hcon.symm.trans h2⟩)
      | receive h1 h2 => cases hk; exact .inr (.inr (.inl ⟨rfl, h2, hmux h1⟩))
      | _ => simp_all [St.alive]

/-- **C105.** Every request is answered, unless the process ends: also those that come while the server waits for the lock, and whether
or not the searchers are ever made. -/
theorem answered (h : Runs uri content st ev) (m n : Nat) (hn : n < (st m).made) :
    ∃ k, m ≤ k ∧ ((∃ r, (st k).place n = .answered r) ∨ Gone (st k)) := by
  by_cases hg : ∃ k, m ≤ k ∧ Gone (st k)
  · obtain ⟨k, hk, hg⟩ := hg; exact ⟨k, hk, .inr hg⟩
  · have hal : ∀ k, m ≤ k → (st k).alive = true := fun k hk => (alive_iff _).2 fun hgk => hg ⟨k, hk, hgk⟩
    have fromInside : ∀ a, m ≤ a → (st a).reader n = true → ∃ k, m ≤ k ∧ ((∃ r, (st k).place n = .answered r) ∨ Gone (st k)) := by
      intro a ha hr
      obtain ⟨k, hk, h1⟩ := inside_ends h (fun k hk => hal k (by omega)) hr
      exact ⟨k, by omega, .inl h1⟩
    have fromQueue : ∀ a, m ≤ a → (st a).place n = .queued → ∃ k, m ≤ k ∧ ((∃ r, (st k).place n = .answered r) ∨ Gone (st k)) := by
      intro a ha hq
      apply Classical.byContradiction
      intro hc
      -- if it were never let in, it would be in the queue for ever
      have all : ∀ k, a ≤ k → (st k).place n = .queued := stays h (fun s => s.place n = .queued) (m := a)
        (fun k hk hp e he hs => by
          have hI := inv h k
          have hr : (st (k + 1)).reader n = false := by
            cases hb : (st (k + 1)).reader n with
            | false => rfl
            | true => exact absurd (fromInside (k + 1) (by omega) hb) hc
          rw [reader_false] at hr
          have h4 := hI.made
          generalize st (k + 1) = t at hs hr
          cases hs with
          | call p => grind [put]
          | health j => grind [put]
          | lock j => grind [put]
          | read j => grind [put]
          | reply j => grind [put]
          | set => grind [admit]
          | _ => exact hp) hq
      have hld : (st a).main ≠ .loading := by
        have := (inv h a).queued (hal a ha) n hq
        intro h'; rw [h'] at this; simp at this
      obtain ⟨k, hk, h1⟩ := reaches h (fun k hk => hal k (by omega)) hld
      have := (inv h k).queued (hal k (by omega)) n (all k hk)
      rw [h1] at this; simp at this
    cases hp : (st m).place n with
    | none => exact absurd hp ((inv h m).called n hn)
    | begun =>
      obtain ⟨k, hk, h1, he, hs⟩ := leads h (h.request n) (fun s => s.place n = .begun) (m := m)
        (fun k hk hp => by
          by_cases hu : (st k).path n = (st k).uri
          · exact ⟨_, .health _ n (hal k hk) hp hu⟩
          · exact ⟨_, .lock _ n (hal k hk) hp hu⟩)
        (fun k hk hp e _ hs ho => by rw [place_kept hs ho (by rw [hp]; simp) (by rw [hp]; simp) (inv h k)]; exact hp) hp
      have : (∃ r, (st (k + 1)).place n = .answered r) ∨ (st (k + 1)).place n = .queued ∨ (st (k + 1)).place n = .inside := by
        generalize st (k + 1) = t at hs
        cases hs with
        | health _ _ _ _ => exact .inl ⟨.healthy, by simp [put]⟩
        | lock _ _ _ _ => right; simp only [put, if_true]; split <;> simp
        | read _ _ h' => rw [h1] at h'; cases h'
        | reply _ _ _ h' => rw [h1] at h'; cases h'
      rcases this with h2 | h2 | h2
      · exact ⟨k + 1, by omega, .inl h2⟩
      · exact fromQueue (k + 1) (by omega) h2
      · exact fromInside (k + 1) (by omega) ((reader_iff _ _).2 (.inl h2))
    | queued => exact fromQueue m (Nat.le_refl _) hp
    | inside => exact fromInside m (Nat.le_refl _) ((reader_iff _ _).2 (.inl hp))
    | reads b => exact fromInside m (Nat.le_refl _) ((reader_iff _ _).2 (.inr ⟨b, hp⟩))
    | answered r => exact ⟨m, Nat.le_refl _, .inl ⟨r, hp⟩⟩

/-- **C105.** The answer of the health check is given at its address and nowhere else. -/
theorem health_exact (h : Runs uri content st ev) (k n : Nat) (r : Reply) (hr : (st k).place n = .answered r) :
    r = .healthy ↔ (st k).path n = uri := by
  have hI := inv h k
  have h1 := hI.healthy n
  have h2 := hI.other n
  rw [hI.uri] at h1 h2
  cases r <;> simp_all

/-- **C105.** The health check waits for nobody: from the moment the request is there its goroutine can answer at once, whatever `main`
does and whoever has the lock. -/
theorem health_at_once (h : Runs uri content st ev) (k n : Nat) (hk : ¬ Gone (st k)) (hp : (st k).place n = .begun)
    (hu : (st k).path n = uri) : ∃ t, Step (st k) (.request n) t ∧ t.place n = .answered .healthy :=
  ⟨_, .health _ n ((alive_iff _).2 hk) hp (hu.trans (inv h k).uri.symm), by simp [put]⟩

/-- **C105.** A request that comes when the searchers are made and the handlers are built, that is from the moment `main` asks for the
lock, is not refused: it is not answered "Hound is not ready". -/
theorem not_refused (h : Runs uri content st ev) (m k n : Nat) (hmk : m ≤ k) (hm : (st m).main ≠ .loading)
    (hm' : (st m).main ≠ .loaded) (hn : (st m).made ≤ n) : (st k).place n ≠ .answered .notReady := by
  have := stays h (fun s => (s.main ≠ .loading ∧ s.main ≠ .loaded) ∧
    (s.place n = .none ∨ s.place n = .begun ∨ s.place n = .queued ∨ (s.place n = .inside ∧ s.mux = true) ∨ s.place n = .reads true ∨
      s.place n = .answered .healthy ∨ s.place n = .answered .served)) (m := m) (fun k hk hp e he hs => by
      have hI := inv h k
      obtain ⟨⟨p1, p2⟩, p3⟩ := hp
      have hmx := hI.mux
      have wr := writer_iff (st k)
      have hmain : (st k).alive = true → (st k).main = .waits ∨ (st k).main = .has ∨ (st k).main = .receives := by
        unfold St.alive; cases hx : (st k).main <;> simp_all
      generalize st (k + 1) = t at hs
      cases hs with
      | call p ha => exact ⟨⟨p1, p2⟩, by grind [put]⟩
      | health j ha => exact ⟨⟨p1, p2⟩, by grind [put]⟩
      | lock j ha => refine ⟨⟨p1, p2⟩, ?_⟩; have := hmain ha; grind [put]
      | read j ha => exact ⟨⟨p1, p2⟩, by grind [put]⟩
      | reply j b ha => exact ⟨⟨p1, p2⟩, by grind [put]⟩
      | set hh => exact ⟨by simp, by grind [admit]⟩
      | load hh => exact absurd hh p1
      | loadFails hh => exact absurd hh p1
      | build hh => exact absurd hh p2
      | noContent hh => exact absurd hh p2
      | get => exact ⟨by simp, p3⟩
      | receive => exact ⟨by simp, p3⟩
      | listen => exact ⟨⟨p1, p2⟩, p3⟩
      | signal => exact ⟨by simp, p3⟩)
    ⟨⟨hm, hm'⟩, .inl ((inv h m).made n hn)⟩ k hmk
  obtain ⟨_, h2⟩ := this
  intro hc
  simp [hc] at h2

/-- **C105.** Before `main` has set the handlers, with the lock, no request is served. -/
theorem refused_before (h : Runs uri content st ev) (k n : Nat) (hk : (st k).main ≠ .receives) (hg : ¬ Gone (st k)) :
    (st k).place n ≠ .answered .served := by
  have : ∀ k, (st k).main ≠ .receives → ¬ Gone (st k) → (st k).mux = false ∧ ∀ n, (st k).place n ≠ .reads true ∧
      (st k).place n ≠ .answered .served := by
    intro k
    induction k with
    | zero => intro _ _; rw [h.start]; simp [start]
    | succ k ih =>
      intro hk hg
      cases he : ev k with
      | none => rw [Fair.same_of h.steps he] at hk hg ⊢; exact ih hk hg
      | some e =>
        have hs := Fair.step_of h.steps he
        generalize st (k + 1) = t at hs hk hg
        cases hs with
        | call => have := ih hk hg; grind [put]
        | health => have := ih hk hg; grind [put]
        | lock => have := ih hk hg; grind [put]
        | read => have := ih hk hg; grind [put]
        | reply => have := ih hk hg; grind [put]
        | load h1 => exact ih (by simp [h1]) (by simp [Gone, h1])
        | listen => exact ih hk hg
        | build h1 => exact ih (by simp [h1]) (by simp [Gone, h1])
        | get h1 => exact ih (by simp [h1]) (by simp [Gone, h1])
        | set => exact absurd rfl hk
        | _ => exact absurd ⟨_, rfl⟩ hg
  exact ((this k hk hg).2 n).2

/-- **C105 (partial).** If listening failed, the program ends, provided that the searchers are made some time. Missing from
`FailureReportedFull`: that it ends also if that takes for ever. -/
theorem failure_reported_partial (h : Runs uri content st ev) (m : Nat) (hf : (st m).failed = true) (hm : (st m).main ≠ .loading) :
    ∃ k, m ≤ k ∧ Gone (st k) := by
  apply Classical.byContradiction
  intro hc
  have hal : ∀ k, m ≤ k → (st k).alive = true := fun k hk => (alive_iff _).2 fun hgk => hc ⟨k, hk, hgk⟩
  obtain ⟨k, hk, h1⟩ := reaches h hal hm
  have hf' : ∀ k, m ≤ k → (st k).failed = true := stays h (fun s => s.failed = true) (m := m) (fun k hk hp e he hs => by
    generalize st (k + 1) = t at hs
    cases hs <;> simp_all) hf
  obtain ⟨k', hk', h2, he, hs⟩ := leads h h.main (fun s => s.main = .receives) (m := k)
    (fun j hj hp => ⟨_, .receive _ hp (hf' j (by omega))⟩)
    (fun j hj hp e _ hs ho => by
      have := hal (j + 1) (by omega)
      generalize st (j + 1) = t at hs this
      cases hs <;> simp_all [St.alive]) h1
  refine hc ⟨k' + 1, by omega, ?_⟩
  generalize st (k' + 1) = t at hs
  cases hs with
  | receive => exact ⟨.listen, rfl⟩
  | _ => simp_all
end

/-! ### Cases -/

private def idleSt : Nat → St
  | 0 => start b!"/healthz" true
  | _ + 1 => { start b!"/healthz" true with failed := true }
private def idleEv : Nat → Option Ev
  | 0 => some .listen
  | _ + 1 => none

private theorem idle_runs : Runs b!"/healthz" true idleSt idleEv := by
  refine ⟨rfl, fun n => ?_, fun n h => ?_, fun i n h => ?_⟩
  · match n with
    | 0 => exact .listen _ rfl rfl
    | _ + 1 => rfl
  · obtain ⟨e, t, rfl, hs⟩ := h (n + 1) (by omega)
    have hm : (idleSt (n + 1)).main = .loading := rfl
    generalize idleSt (n + 1) = s at hs hm
    cases hs <;> simp_all
  · obtain ⟨e, t, rfl, hs⟩ := h (n + 1) (by omega)
    have hm : (idleSt (n + 1)).place i = .none := rfl
    generalize idleSt (n + 1) = s at hs hm
    cases hs <;> simp_all

/-- **C105.** The property as stated is false: that the address cannot be listened on is only seen when the searchers are made. If
this never ends (a repository that cannot be reached and no time limit), the program goes on without ever answering anything. -/
theorem not_failureReportedFull : ¬ FailureReportedFull := fun hf => by
  obtain ⟨k, hk, why, hg⟩ := hf _ _ _ _ idle_runs 1 rfl
  match k with
  | k + 1 => cases hg

/-- The addresses of the requests of the case. -/
private def cpath : Nat → Bytes
  | 0 => b!"/api/v1/search"
  | 1 => b!"/"
  | 2 => b!"/healthz"
  | _ => []
private def cs (main : Main) (failed mux : Bool) (made : Nat) (a b c : Place) : St :=
  ⟨b!"/healthz", true, main, failed, mux, made, fun n => match n with | 0 => a | 1 => b | 2 => c | _ => .none,
    fun n => if n < made then cpath n else []⟩

/-- A request comes while the searchers are made, another while the server waits for the lock, and the health check is asked. -/
private def caseSt : Nat → St
  | 0 => cs .loading false false 0 .none .none .none
  | 1 => cs .loading false false 1 .begun .none .none
  | 2 => cs .loading false false 1 .inside .none .none
  | 3 => cs .loaded false false 1 .inside .none .none
  | 4 => cs .waits false false 1 .inside .none .none
  | 5 => cs .waits false false 2 .inside .begun .none
  | 6 => cs .waits false false 2 .inside .queued .none
  | 7 => cs .waits false false 3 .inside .queued .begun
  | 8 => cs .waits false false 3 .inside .queued (.answered .healthy)
  | 9 => cs .waits false false 3 (.reads false) .queued (.answered .healthy)
  | 10 => cs .waits false false 3 (.answered .notReady) .queued (.answered .healthy)
  | 11 => cs .has false false 3 (.answered .notReady) .queued (.answered .healthy)
  | 12 => cs .receives false true 3 (.answered .notReady) .inside (.answered .healthy)
  | 13 => cs .receives false true 3 (.answered .notReady) (.reads true) (.answered .healthy)
  | 14 => cs .receives false true 3 (.answered .notReady) (.answered .served) (.answered .healthy)
  | 15 => cs .receives true true 3 (.answered .notReady) (.answered .served) (.answered .healthy)
  | _ + 16 => cs (.gone .listen) true true 3 (.answered .notReady) (.answered .served) (.answered .healthy)
private def caseEv : Nat → Option Ev
  | 0 => some (.call 0)
  | 1 => some (.request 0)
  | 2 => some (.load true)
  | 3 => some .main
  | 4 => some (.call 1)
  | 5 => some (.request 1)
  | 6 => some (.call 2)
  | 7 => some (.request 2)
  | 8 => some (.request 0)
  | 9 => some (.request 0)
  | 10 => some .main
  | 11 => some .main
  | 12 => some (.request 1)
  | 13 => some (.request 1)
  | 14 => some .listen
  | 15 => some .main
  | _ + 16 => none

private theorem to {s t u : St} {e : Ev} (h : Step s e t) (he : t = u) : Step s e u := he ▸ h

local macro "same" : tactic => `(tactic| (
  refine St.mk.injEq .. ▸ ⟨rfl, rfl, rfl, rfl, rfl, rfl, funext fun n => ?_, funext fun n => ?_⟩ <;>
    (match n with | 0 => rfl | 1 => rfl | 2 => rfl | _ + 3 => first | rfl | simp [put, cs, cpath])))
local macro "no" : tactic => `(tactic| (intro n; match n with | 0 => rfl | 1 => rfl | 2 => rfl | _ + 3 => rfl))

private theorem case_runs : Runs b!"/healthz" true caseSt caseEv := by
  refine ⟨?_, fun n => ?_, fun n h => ?_, fun i n h => ?_⟩
  · show cs _ _ _ _ _ _ _ = _
    unfold start
    same
  · match n with
    | 0 => exact to (.call _ b!"/api/v1/search" rfl rfl) (by same)
    | 1 => exact to (.lock _ 0 rfl rfl (by decide)) (by same)
    | 2 => exact to (.load _ rfl) (by same)
    | 3 => exact to (.build _ rfl rfl) (by same)
    | 4 => exact to (.call _ b!"/" rfl rfl) (by same)
    | 5 => exact to (.lock _ 1 rfl rfl (by decide)) (by same)
    | 6 => exact to (.call _ b!"/healthz" rfl rfl) (by same)
    | 7 => exact to (.health _ 2 rfl rfl rfl) (by same)
    | 8 => exact to (.read _ 0 rfl rfl) (by same)
    | 9 => exact to (.reply _ 0 false rfl rfl) (by same)
    | 10 => exact to (.get _ rfl (by no)) (by same)
    | 11 => exact to (.set _ rfl) (by same)
    | 12 => exact to (.read _ 1 rfl rfl) (by same)
    | 13 => exact to (.reply _ 1 true rfl rfl) (by same)
    | 14 => exact to (.listen _ rfl rfl) (by same)
    | 15 => exact to (.receive _ rfl rfl) (by same)
    | _ + 16 => rfl
  all_goals
    obtain ⟨e, t, rfl, hs⟩ := h (n + 16) (by omega)
    have hm : (caseSt (n + 16)).main = .gone .listen := rfl
    generalize caseSt (n + 16) = s at hs hm
    cases hs <;> simp_all [St.alive]

/-- Every theorem at this case; in it all three answers are given. -/
example : (∃ k, 3 ≤ k ∧ (((caseSt k).main = .receives ∧ (caseSt k).mux = true) ∨ Gone (caseSt k))) ∧
    (∃ k, 6 ≤ k ∧ ((∃ r, (caseSt k).place 1 = .answered r) ∨ Gone (caseSt k))) ∧
    (caseSt 14).place 1 ≠ .answered .notReady ∧ (caseSt 11).place 1 ≠ .answered .served ∧
    (∃ t, Step (caseSt 7) (.request 2) t ∧ t.place 2 = .answered .healthy) ∧ (∃ k, 15 ≤ k ∧ Gone (caseSt k)) :=
  ⟨becomes_ready case_runs 3 (by decide), answered case_runs 6 1 (by decide),
    not_refused case_runs 4 14 1 (by decide) (by decide) (by decide) (by decide), refused_before case_runs 11 1 (by decide) (fun ⟨_, h⟩ => by cases h),
    health_at_once case_runs 7 2 (fun ⟨_, h⟩ => by cases h) rfl rfl, failure_reported_partial case_runs 15 rfl (by decide)⟩
example : (caseSt 14).place 0 = .answered .notReady ∧ (caseSt 14).place 1 = .answered .served ∧
    (caseSt 14).place 2 = .answered .healthy ∧ ((caseSt 14).path 2 = b!"/healthz") :=
  ⟨rfl, rfl, rfl, (health_exact case_runs 14 2 .healthy rfl).1 rfl⟩
example : (caseSt 16).failed = true ∧ (caseSt 16).mux = true := by
  rcases ends_for_a_reason case_runs 16 .listen rfl with h | h | h | h
  · cases h.1
  · cases h.1
  · exact h.2
  · cases h.1

end Gate
end Hound
