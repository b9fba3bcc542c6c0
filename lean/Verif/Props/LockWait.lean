import Verif.Proofs.LockWait
/-!
C101: searches and updates do not wait for one another for ever.
-/

namespace Hound
namespace Lw
open Spec

section
variable {st : Nat → St} {ev : Nat → Option Ev}

private theorem place_kept {s t : St} {e : Ev} {n : Nat} (hs : Step s e t) (he : ¬ isSearch n e)
    (hx : s.place n = .inside ∨ s.place n = .reading) (hI : Inv s) : t.place n = s.place n ∧ t.uses n = s.uses n := by
  obtain ⟨h1, h2, h3, h4, h5, h6⟩ := hI
  unfold isSearch at he
  cases hs with
  | call => grind [put]
  | enter k => grind [put]
  | ends k => grind [put]
  | closeOld => grind [admitOwn]
  | leave => grind [admitLive]
  | closeNew => grind [admitOwn]
  | _ => simp

/-- A search that has the lock of the index ends. -/
private theorem reading_ends (h : History Step st ev) (hi : ∀ n, Inv (st n)) (hf : FairLocks st ev) {m n : Nat}
    (hr : (st m).place n = .reading) : ∃ k, m ≤ k ∧ (st k).place n = .ended := by
  obtain ⟨k, hk, h1, e, he, ho, hs⟩ := leads h hi (hf.search n) (fun s => s.place n = .reading)
    (fun s _ hs => ⟨_, _, rfl, .ends s n hs⟩)
    (fun s e t hI hs hp ho => by rw [(place_kept hs ho (.inr hp) hI).1]; exact hp) hr
  cases ho
  refine ⟨k + 1, by omega, ?_⟩
  generalize hst : st (k + 1) = t at hs
  cases hs with
  | enter _ hin => rw [h1] at hin; cases hin
  | ends _ _ => simp [put]

/-- A search that has the lock of the searcher asks for that of the index. -/
private theorem inside_goes (h : History Step st ev) (hi : ∀ n, Inv (st n)) (hf : FairLocks st ev) {m n : Nat}
    (hr : (st m).place n = .inside) : ∃ k, m ≤ k ∧ (st k).place n = .inside ∧
      ((st (k + 1)).place n = .reading ∨ (st (k + 1)).place n = .queuedIndex) ∧ ev k = some (.search n) := by
  obtain ⟨k, hk, h1, e, he, ho, hs⟩ := leads h hi (hf.search n) (fun s => s.place n = .inside)
    (fun s _ hs => ⟨_, _, rfl, .enter s n hs⟩)
    (fun s e t hI hs hp ho => by rw [(place_kept hs ho (.inl hp) hI).1]; exact hp) hr
  cases ho
  refine ⟨k, hk, h1, ?_, he⟩
  generalize hst : st (k + 1) = t at hs
  cases hs with
  | enter _ hin => simp only [put, if_true]; split <;> simp
  | ends _ hin => rw [h1] at hin; cases hin

/-! ### The poller, step by step -/

private theorem waitsNew_goes (h : History Step st ev) (hi : ∀ n, Inv (st n)) (hf : FairLocks st ev) {m : Nat}
    (hm : (st m).poller = .waitsNew) : ∃ k, m ≤ k ∧ (st k).poller = .closesNew := by
  refine drains h hi hf.poller .waitsNew .closesNew (by simp) (by simp)
    (fun s n => s.place n = .reading ∧ s.uses n = s.new) ?_ ?_ ?_ ?_ ?_ hm
  · intro s e t hI hs hp
    have w2 := writerOwn_iff s
    have hc := hI.cur
    cases hs with
    | call => exact .inr ⟨hp, by grind [put]⟩
    | enter k => exact .inr ⟨hp, by grind [put]⟩
    | ends k => exact .inr ⟨hp, by grind [put]⟩
    | getNew => exact .inl rfl
    | _ => simp_all
  · intro s t hs hp
    cases hs <;> simp_all
  · intro s hI hp hn
    exact ⟨_, .getNew s hp fun n => (readerOwn_false s s.new n).2 (hn n)⟩
  · intro s n hI ha
    apply Classical.byContradiction
    intro hlt
    rw [hI.made n (by omega)] at ha
    exact absurd ha.1 (by simp)
  · intro m n hp ha
    -- the search ends
    obtain ⟨k, hk, h1, e, he, ho, hs⟩ := leads h hi (hf.search n)
      (fun s => s.place n = .reading ∧ s.uses n = s.new ∧ s.poller = .waitsNew)
      (fun s _ hs => ⟨_, _, rfl, .ends s n hs.1⟩)
      (fun s e t hI hs hp ho => by
        have hk := place_kept hs ho (.inr hp.1) hI
        obtain ⟨p1, p2, p3⟩ := hp
        cases hs with
        | getNew _ hno =>
          have := (readerOwn_false s s.new n).1 (hno n)
          exact absurd ⟨p1, p2⟩ this
        | update h' => rw [p3] at h'; cases h'
        | _ => first
          | (simp only at hk ⊢; exact ⟨hk.1.trans p1, hk.2.trans p2, p3⟩)
          | simp_all) ⟨ha.1, ha.2, hp⟩
    cases ho
    refine ⟨k + 1, by omega, .inr ?_⟩
    generalize hst : st (k + 1) = t at hs
    cases hs with
    | enter _ hin => rw [h1.1] at hin; cases hin
    | ends _ _ => exact ⟨h1.2.2, by simp [put]⟩

private theorem waitsLive_goes (h : History Step st ev) (hi : ∀ n, Inv (st n)) (hf : FairLocks st ev) {m : Nat}
    (hm : (st m).poller = .waitsLive) : ∃ k, m ≤ k ∧ (st k).poller = .swaps := by
  have one : ∀ n m, (st m).poller = .waitsLive → (st m).place n = .reading →
      ∃ k, m ≤ k ∧ (st k).poller = .waitsLive ∧ (st k).place n = .ended := by
    intro n m hp ha
    obtain ⟨k, hk, h1, e, he, ho, hs⟩ := leads h hi (hf.search n)
      (fun s => s.place n = .reading ∧ s.poller = .waitsLive)
      (fun s _ hs => ⟨_, _, rfl, .ends s n hs.1⟩)
      (fun s e t hI hs hp ho => by
        have hk := place_kept hs ho (.inr hp.1) hI
        obtain ⟨p1, p3⟩ := hp
        cases hs with
        | getLive _ hno =>
          have := (readerLive_false s n).1 (hno n)
          exact absurd p1 this.2.2
        | update h' => rw [p3] at h'; cases h'
        | _ => first
          | (simp only at hk ⊢; exact ⟨hk.1.trans p1, p3⟩)
          | simp_all) ⟨ha, hp⟩
    cases ho
    refine ⟨k + 1, by omega, ?_⟩
    generalize hst : st (k + 1) = t at hs
    cases hs with
    | enter _ hin => rw [h1.1] at hin; cases hin
    | ends _ _ => exact ⟨h1.2, by simp [put]⟩
  refine drains h hi hf.poller .waitsLive .swaps (by simp) (by simp)
    (fun s n => s.readerLive n = true) ?_ ?_ ?_ ?_ ?_ hm
  · intro s e t hI hs hp
    have w1 := writerLive_iff s
    simp only [readerLive_iff]
    cases hs with
    | call => exact .inr ⟨hp, by grind [put]⟩
    | enter k => exact .inr ⟨hp, by grind [put]⟩
    | ends k => exact .inr ⟨hp, by grind [put]⟩
    | getLive => exact .inl rfl
    | _ => simp_all
  · intro s t hs hp
    cases hs <;> simp_all
  · intro s hI hp hn
    exact ⟨_, .getLive s hp fun n => by simpa using hn n⟩
  · intro s n hI ha
    apply Classical.byContradiction
    intro hlt
    rw [readerLive_iff, hI.made n (by omega)] at ha
    simp at ha
  · intro m n hp ha
    rw [readerLive_iff] at ha
    rcases ha with ha | ha | ha
    · obtain ⟨k, hk, h1, e, he, ho, hs⟩ := leads h hi (hf.search n)
        (fun s => s.place n = .inside ∧ s.poller = .waitsLive)
        (fun s _ hs => ⟨_, _, rfl, .enter s n hs.1⟩)
        (fun s e t hI hs hp ho => by
          have hk := place_kept hs ho (.inl hp.1) hI
          obtain ⟨p1, p3⟩ := hp
          cases hs with
          | getLive _ hno =>
            have := (readerLive_false s n).1 (hno n)
            exact absurd p1 this.1
          | update h' => rw [p3] at h'; cases h'
          | _ => first
            | (simp only at hk ⊢; exact ⟨hk.1.trans p1, p3⟩)
            | simp_all) ⟨ha, hp⟩
      cases ho
      have h3 : (st (k + 1)).poller = .waitsLive ∧ (st (k + 1)).place n = .reading := by
        have w2 := writerOwn_iff (st k) (st k).cur
        generalize hst : st (k + 1) = t at hs
        cases hs with
        | enter _ hin =>
          have : (st k).writerOwn (st k).cur = false := by
            rw [← Bool.not_eq_true, w2, h1.2]; simp
          exact ⟨h1.2, by simp [put, this]⟩
        | ends _ hin => rw [h1.1] at hin; cases hin
      obtain ⟨k', hk', h5, h6⟩ := one n (k + 1) h3.1 h3.2
      exact ⟨k', by omega, .inr ⟨h5, by rw [readerLive_iff, h6]; simp⟩⟩
    · have := ((hi m).queuedIndex n ha).1
      rw [hp] at this; simp at this
    · obtain ⟨k', hk', h5, h6⟩ := one n m hp ha
      exact ⟨k', by omega, .inr ⟨h5, by rw [readerLive_iff, h6]; simp⟩⟩

private theorem goes_on (h : History Step st ev) (hi : ∀ n, Inv (st n)) (hf : FairLocks st ev) (p : Poller) (hp : p ≠ .idle)
    (en : ∀ s, Inv s → s.poller = p → ∃ t, Step s .poller t) (q : Poller → Prop)
    (to : ∀ s t, Step s .poller t → s.poller = p → q t.poller) {m : Nat} (hm : (st m).poller = p) :
    ∃ k, m ≤ k ∧ q (st k).poller := by
  obtain ⟨k, hk, h1, _, h3⟩ := poller_goes h hi hf.poller p hp (fun _ => True) (fun s hI hs _ => en s hI hs)
    (fun _ _ _ _ _ _ _ _ => trivial) hm trivial
  exact ⟨k + 1, by omega, to _ _ h3 h1⟩

/-- C101: an update that waits for the searches that use the old index, or for those that use the new one, comes to
an end. -/
theorem update_ends (h : History Step st ev) (h0 : st 0 = start) (hf : FairLocks st ev) (m : Nat) :
    ∃ k, m ≤ k ∧ (st k).poller = .idle := by
  have hi := inv h h0
  have c8 : ∀ m, (st m).poller = .closesNew → ∃ k, m ≤ k ∧ (st k).poller = .idle := fun m hm =>
    goes_on h hi hf .closesNew (by simp) (fun s _ hp => ⟨_, .closeNew s hp⟩) (· = .idle)
      (fun s t hs hp => by cases hs <;> simp_all) hm
  have c7 : ∀ m, (st m).poller = .waitsNew → ∃ k, m ≤ k ∧ (st k).poller = .idle := fun m hm => by
    obtain ⟨k, hk, h1⟩ := waitsNew_goes h hi hf hm
    obtain ⟨k', hk', h2⟩ := c8 k h1
    exact ⟨k', by omega, h2⟩
  have c6 : ∀ m, (st m).poller = .after → ∃ k, m ≤ k ∧ (st k).poller = .idle := fun m hm => by
    obtain ⟨k, hk, h1 | h1⟩ := goes_on h hi hf .after (by simp) (fun s _ hp => ⟨_, .done s hp⟩)
      (fun p => p = .idle ∨ p = .waitsNew) (fun s t hs hp => by cases hs <;> simp_all) hm
    · exact ⟨k, hk, h1⟩
    · obtain ⟨k', hk', h2⟩ := c7 k h1
      exact ⟨k', by omega, h2⟩
  have c5 : ∀ m, (st m).poller = .leaves → ∃ k, m ≤ k ∧ (st k).poller = .idle := fun m hm => by
    obtain ⟨k, hk, h1⟩ := goes_on h hi hf .leaves (by simp) (fun s _ hp => ⟨_, .leave s hp⟩)
      (· = .after) (fun s t hs hp => by cases hs <;> simp_all) hm
    obtain ⟨k', hk', h2⟩ := c6 k h1
    exact ⟨k', by omega, h2⟩
  have c4 : ∀ m, (st m).poller = .closesOld → ∃ k, m ≤ k ∧ (st k).poller = .idle := fun m hm => by
    obtain ⟨k, hk, h1⟩ := goes_on h hi hf .closesOld (by simp) (fun s _ hp => ⟨_, .closeOld s hp⟩)
      (· = .leaves) (fun s t hs hp => by cases hs <;> simp_all) hm
    obtain ⟨k', hk', h2⟩ := c5 k h1
    exact ⟨k', by omega, h2⟩
  have c3 : ∀ m, (st m).poller = .waitsOld → ∃ k, m ≤ k ∧ (st k).poller = .idle := fun m hm => by
    obtain ⟨k, hk, h1⟩ := goes_on h hi hf .waitsOld (by simp)
      (fun s hI hp => ⟨_, .getOld s hp fun n => (readerOwn_false s s.old n).2 fun hh =>
        (hI.alone n (.inr hh.1)).2.1 hp⟩)
      (· = .closesOld) (fun s t hs hp => by cases hs <;> simp_all) hm
    obtain ⟨k', hk', h2⟩ := c4 k h1
    exact ⟨k', by omega, h2⟩
  have c2 : ∀ m, (st m).poller = .swaps → ∃ k, m ≤ k ∧ (st k).poller = .idle := fun m hm => by
    obtain ⟨k, hk, h1⟩ := goes_on h hi hf .swaps (by simp) (fun s _ hp => ⟨_, .swap s hp⟩)
      (· = .waitsOld) (fun s t hs hp => by cases hs <;> simp_all) hm
    obtain ⟨k', hk', h2⟩ := c3 k h1
    exact ⟨k', by omega, h2⟩
  cases hp : (st m).poller with
  | idle => exact ⟨m, Nat.le_refl _, hp⟩
  | waitsLive =>
    obtain ⟨k, hk, h1⟩ := waitsLive_goes h hi hf hp
    obtain ⟨k', hk', h2⟩ := c2 k h1
    exact ⟨k', by omega, h2⟩
  | swaps => exact c2 m hp
  | waitsOld => exact c3 m hp
  | closesOld => exact c4 m hp
  | leaves => exact c5 m hp
  | after => exact c6 m hp
  | waitsNew => exact c7 m hp
  | closesNew => exact c8 m hp

private theorem until_left (h : History Step st ev) (hi : ∀ n, Inv (st n)) {m n : Nat} {x y : Search}
    (hx : (x = .queued ∧ y = .inside) ∨ (x = .queuedIndex ∧ y = .reading)) (hm : (st m).place n = x) : ∀ d, (st (m + d)).place n = x ∨
      ∃ k, m ≤ k ∧ (st k).place n = y := by
  intro d
  induction d with
  | zero => exact .inl hm
  | succ d ih =>
    rcases ih with ih | ih
    · cases he : ev (m + d) with
      | none => rw [← Nat.add_assoc, Fair.same_of h he]; exact .inl ih
      | some e =>
        have hs := Fair.step_of h he
        have hI := hi (m + d)
        have key : (st (m + d + 1)).place n = x ∨ (st (m + d + 1)).place n = y := by
          have hmade := hI.made
          generalize st (m + d + 1) = t at hs
          generalize st (m + d) = s at hs ih hI hmade
          cases hs with
          | call => grind [put]
          | enter k => grind [put]
          | ends k => grind [put]
          | closeOld => grind [admitOwn]
          | leave => grind [admitLive]
          | closeNew => grind [admitOwn]
          | _ => exact .inl ih
        rcases key with k1 | k1
        · exact .inl k1
        · exact .inr ⟨m + d + 1, by omega, k1⟩
    · exact .inr ih

/-- C101: every search that was called comes to an end, however many updates and other searches there are. -/
theorem search_ends (h : History Step st ev) (h0 : st 0 = start) (hf : FairLocks st ev) (m n : Nat)
    (hn : n < (st m).made) : ∃ k, m ≤ k ∧ (st k).place n = .ended := by
  have hi := inv h h0
  have c4 : ∀ m, (st m).place n = .reading → ∃ k, m ≤ k ∧ (st k).place n = .ended := fun m hm =>
    reading_ends h hi hf hm
  have c3 : ∀ m, (st m).place n = .queuedIndex → ∃ k, m ≤ k ∧ (st k).place n = .ended := fun m hm => by
    obtain ⟨k, hk, hid⟩ := update_ends h h0 hf m
    obtain ⟨d, rfl⟩ := Nat.exists_eq_add_of_le hk
    rcases until_left h hi (.inr ⟨rfl, rfl⟩) hm d with hq | ⟨k, hk, hr⟩
    · have := ((hi _).queuedIndex n hq).1
      rw [hid] at this; simp at this
    · obtain ⟨k', hk', h2⟩ := c4 k hr
      exact ⟨k', by omega, h2⟩
  have c2 : ∀ m, (st m).place n = .inside → ∃ k, m ≤ k ∧ (st k).place n = .ended := fun m hm => by
    obtain ⟨k, hk, _, h1 | h1, _⟩ := inside_goes h hi hf hm
    · obtain ⟨k', hk', h2⟩ := c4 _ h1
      exact ⟨k', by omega, h2⟩
    · obtain ⟨k', hk', h2⟩ := c3 _ h1
      exact ⟨k', by omega, h2⟩
  have c1 : ∀ m, (st m).place n = .queued → ∃ k, m ≤ k ∧ (st k).place n = .ended := fun m hm => by
    obtain ⟨k, hk, hid⟩ := update_ends h h0 hf m
    obtain ⟨d, rfl⟩ := Nat.exists_eq_add_of_le hk
    rcases until_left h hi (.inl ⟨rfl, rfl⟩) hm d with hq | ⟨k, hk, hr⟩
    · have := (hi _).queued n hq
      rw [hid] at this; simp at this
    · obtain ⟨k', hk', h2⟩ := c2 k hr
      exact ⟨k', by omega, h2⟩
  cases hp : (st m).place n with
  | none => exact absurd hp ((hi m).called n hn)
  | queued => exact c1 m hp
  | inside => exact c2 m hp
  | queuedIndex => exact c3 m hp
  | reading => exact c4 m hp
  | ended => exact ⟨m, Nat.le_refl _, hp⟩

/-- C101: while a search waits to be let in no update begins: at most the one that was there when it was called goes
before it. -/
theorem no_update_while_waiting (h : History Step st ev) (h0 : st 0 = start) (n a : Nat)
    (hq : (st a).place n = .queued ∨ (st a).place n = .queuedIndex) : ev a ≠ some .update := by
  intro he
  have hs := Fair.step_of h he
  have hI := inv h h0 a
  have hidle : (st a).poller = .idle := by
    generalize st (a + 1) = t at hs
    cases hs with
    | update hp => exact hp
  rcases hq with hq | hq
  · have := hI.queued n hq; rw [hidle] at this; simp at this
  · have := (hI.queuedIndex n hq).1; rw [hidle] at this; simp at this

/-- C101: at most one update begins between the call of a search and its end. -/
theorem one_update (h : History Step st ev) (h0 : st 0 = start) (n a b : Nat) (hn : n < (st a).made) (ha : ev a = some .update)
    (hab : a < b) (hb : (st b).place n ≠ .ended) : ev b ≠ some .update := by
  have hi := inv h h0
  have all : ∀ d, (st (a + 1 + d)).place n = .ended ∨ ((st (a + 1 + d)).poller = .waitsLive ∧
      ((st (a + 1 + d)).place n = .inside ∨ (st (a + 1 + d)).place n = .reading)) := by
    intro d
    induction d with
    | zero =>
      have hq := fun hq => no_update_while_waiting h h0 n a hq ha
      have hI := (hi a).called n hn
      have hs := Fair.step_of h ha
      generalize st (a + 1) = t at hs
      generalize st a = s at hs hq hI
      cases hs with
      | update hp =>
        cases hx : s.place n <;> simp_all
    | succ d ih =>
      cases he : ev (a + 1 + d) with
      | none => rw [← Nat.add_assoc, Fair.same_of h he]; exact ih
      | some e =>
        have hs := Fair.step_of h he
        have hI := hi (a + 1 + d)
        rw [← Nat.add_assoc]
        generalize st (a + 1 + d + 1) = t at hs
        generalize st (a + 1 + d) = s at hs ih hI
        have hm := hI.made
        have w2 := writerOwn_iff s s.cur
        cases hs with
        | getLive hp hno =>
          have := (readerLive_false s n).1 (hno n)
          rcases ih with ih | ⟨_, ih | ih⟩
          · exact .inl ih
          · exact absurd ih this.1
          · exact absurd ih this.2.2
        | call => grind [put]
        | enter k => grind [put]
        | ends k => grind [put]
        | closeOld => grind [admitOwn]
        | leave => grind [admitLive]
        | closeNew => grind [admitOwn]
        | _ => grind
  obtain ⟨d, rfl⟩ := Nat.exists_eq_add_of_le (show a + 1 ≤ b from hab)
  intro he
  rcases all d with h1 | ⟨h1, _⟩
  · exact hb h1
  · have hs := Fair.step_of h he
    generalize st (a + 1 + d + 1) = t at hs
    cases hs with
    | update hp => rw [hp] at h1; cases h1
end

/-! ### What is closed is not in use -/

private structure Use (s : St) : Prop where
  cur : s.cur < s.next
  new : s.poller = .waitsLive ∨ s.poller = .swaps → s.cur < s.new ∧ s.new < s.next
  old : s.poller = .waitsOld ∨ s.poller = .closesOld → s.old ≠ s.cur
  read : s.poller = .closesNew → ∀ n, ¬ (s.place n = .reading ∧ s.uses n = s.new)

private theorem Use.step {s t : St} {e : Ev} (h : Use s) (hi : Inv s) (hs : Step s e t) : Use t := by
  obtain ⟨u1, u2, u3, u4⟩ := h
  obtain ⟨h1, h2, h3, h4, h5, h6⟩ := hi
  have w1 := writerLive_iff s
  have w2 := writerOwn_iff s
  cases hs with
  | call => constructor <;> grind [put]
  | enter n => constructor <;> grind [put]
  | ends => constructor <;> grind [put]
  | closeOld => constructor <;> grind [admitOwn]
  | leave => constructor <;> grind [admitLive]
  | closeNew => constructor <;> grind [admitOwn]
  | getNew h7 h8 => simp only [readerOwn_false] at h8; constructor <;> grind
  | swap => constructor <;> grind
  | _ => constructor <;> grind

/-- C101: nobody waits in vain: while an index is closed no search reads it, and the one that is closed after a swap is the one that was
replaced, which no later search gets. -/
theorem closed_unused {st : Nat → St} {ev : Nat → Option Ev} (h : History Step st ev) (h0 : st 0 = start) (m : Nat) :
    ((st m).poller = .closesOld → (st m).old ≠ (st m).cur ∧ ∀ n, ¬ ((st m).place n = .reading ∧ (st m).uses n = (st m).old)) ∧
    ((st m).poller = .closesNew → ∀ n, ¬ ((st m).place n = .reading ∧ (st m).uses n = (st m).new)) := by
  have hi := inv h h0
  have hu : Use (st m) := by
    induction m with
    | zero => rw [h0]; constructor <;> simp [start]
    | succ m ih =>
      cases he : ev m with
      | none => rw [Fair.same_of h he]; exact ih
      | some e => exact ih.step (hi m) (Fair.step_of h he)
  exact ⟨fun hp => ⟨hu.old (.inr hp), fun n hn => ((hi m).alone n (.inr hn.1)).2.2.1 hp⟩, hu.read⟩

/-! ### A case

Search 0 is in the index when an update wants to make another one live. Search 1 waits for the update, is let in, and waits again,
since the swap failed and the new index is closed. -/

/-- A state with two searches. -/
def mk (p : Poller) (cur old new next made : Nat) (x y : Search) (u v : Nat) : St :=
  ⟨p, cur, old, new, next, made, fun k => if k = 0 then x else if k = 1 then y else .none, fun k => if k = 0 then u else if k = 1 then v else 0⟩

/-- The states of the case. -/
def caseSt : Nat → St
  | 0 => mk .idle 0 0 0 1 0 .none .none 0 0
  | 1 => mk .idle 0 0 0 1 1 .inside .none 0 0
  | 2 => mk .idle 0 0 0 1 1 .reading .none 0 0
  | 3 => mk .waitsLive 0 0 1 2 1 .reading .none 0 0
  | 4 => mk .waitsLive 0 0 1 2 2 .reading .queued 0 0
  | 5 => mk .waitsLive 0 0 1 2 2 .ended .queued 0 0
  | 6 => mk .swaps 0 0 1 2 2 .ended .queued 0 0
  | 7 => mk .waitsOld 1 0 1 2 2 .ended .queued 0 0
  | 8 => mk .closesOld 1 0 1 2 2 .ended .queued 0 0
  | 9 => mk .leaves 1 0 1 2 2 .ended .queued 0 0
  | 10 => mk .after 1 0 1 2 2 .ended .inside 0 0
  | 11 => mk .waitsNew 1 0 1 2 2 .ended .inside 0 0
  | 12 => mk .waitsNew 1 0 1 2 2 .ended .queuedIndex 0 1
  | 13 => mk .closesNew 1 0 1 2 2 .ended .queuedIndex 0 1
  | 14 => mk .idle 1 0 1 2 2 .ended .reading 0 1
  | _ => mk .idle 1 0 1 2 2 .ended .ended 0 1

/-- What happens in it. -/
def caseEv : Nat → Option Ev
  | 0 => some (.call 0)
  | 1 => some (.search 0)
  | 2 => some (.update)
  | 3 => some (.call 1)
  | 4 => some (.search 0)
  | 5 => some (.poller)
  | 6 => some (.poller)
  | 7 => some (.poller)
  | 8 => some (.poller)
  | 9 => some (.poller)
  | 10 => some (.poller)
  | 11 => some (.search 1)
  | 12 => some (.poller)
  | 13 => some (.poller)
  | 14 => some (.search 1)
  | _ => none

private theorem to {s t u : St} {e : Ev} (h : Step s e t) (hu : t = u) : Step s e u := hu ▸ h

local macro "no" : tactic => `(tactic| (intro n; match n with | 0 => rfl | 1 => rfl | _ + 2 => rfl))
local macro "same" : tactic => `(tactic| (
  refine St.mk.injEq .. ▸ ⟨rfl, rfl, rfl, rfl, rfl, rfl, funext fun n => ?_, funext fun n => ?_⟩ <;>
    (match n with | 0 => rfl | 1 => rfl | _ + 2 => rfl)))

theorem case_history : History Step caseSt caseEv := fun n => by
  match n with
  | 0 => exact to (.call _) (by same)
  | 1 => exact to (.enter _ 0 rfl) (by same)
  | 2 => exact to (.update _ rfl) (by same)
  | 3 => exact to (.call _) (by same)
  | 4 => exact to (.ends _ 0 rfl) (by same)
  | 5 => exact to (.getLive _ rfl (by no)) (by same)
  | 6 => exact to (.swap _ rfl) (by same)
  | 7 => exact to (.getOld _ rfl (by no)) (by same)
  | 8 => exact to (.closeOld _ rfl) (by same)
  | 9 => exact to (.leave _ rfl) (by same)
  | 10 => exact to (.undo _ rfl) (by same)
  | 11 => exact to (.enter _ 1 rfl) (by same)
  | 12 => exact to (.getNew _ rfl (by no)) (by same)
  | 13 => exact to (.closeNew _ rfl) (by same)
  | 14 => exact to (.ends _ 1 rfl) (by same)
  | _ + 15 => rfl

/-- The hypotheses of the theorems are met by a history in which a search waits for an update, and the update for a search. -/
theorem case_fair : History Step caseSt caseEv ∧ caseSt 0 = start ∧ FairLocks caseSt caseEv ∧ 1 < (caseSt 4).made ∧
    (caseSt 4).poller = .waitsLive ∧ (caseSt 4).place 0 = .reading ∧ (caseSt 4).place 1 = .queued ∧ (caseSt 12).place 1 = .queuedIndex ∧
    caseEv 2 = some .update := by
  have fin : ∀ n, 15 ≤ n → caseSt n = caseSt 15 := fun n hn => by
    obtain ⟨d, rfl⟩ := Nat.exists_eq_add_of_le' hn; rfl
  have place : ∀ n, (caseSt 15).place n = .none ∨ (caseSt 15).place n = .ended := fun n => by
    match n with
    | 0 => exact .inr rfl
    | 1 => exact .inr rfl
    | _ + 2 => exact .inl rfl
  refine ⟨case_history, by
      show mk _ _ _ _ _ _ _ _ _ _ = _
      unfold start
      same, ⟨fun n h => ?_, fun k n h => ?_⟩, by decide, rfl, rfl, rfl, rfl, rfl⟩
  · obtain ⟨e, t, ho, hs⟩ := h (max n 15) (by omega)
    rw [fin _ (by omega)] at hs
    have hp : (caseSt 15).poller = .idle := rfl
    generalize caseSt 15 = s at hs hp
    cases ho
    cases hs <;> simp_all
  · obtain ⟨e, t, ho, hs⟩ := h (max n 15) (by omega)
    rw [fin _ (by omega)] at hs
    have hp := place k
    generalize caseSt 15 = s at hs hp
    cases ho
    cases hs <;> simp_all

example : (∃ k, 4 ≤ k ∧ (caseSt k).poller = .idle) ∧ (∃ k, 4 ≤ k ∧ (caseSt k).place 1 = .ended) :=
  ⟨update_ends case_history case_fair.2.1 case_fair.2.2.1 4, search_ends case_history case_fair.2.1 case_fair.2.2.1 4 1 (by decide)⟩
example : caseEv 4 ≠ some .update := no_update_while_waiting case_history case_fair.2.1 1 4 (.inl rfl)
example : caseEv 4 ≠ some .update := one_update case_history case_fair.2.1 0 2 4 (by decide) rfl (by decide) (by decide)

example : (caseSt 8).old ≠ (caseSt 8).cur := ((closed_unused case_history case_fair.2.1 8).1 rfl).1
example : ¬ ((caseSt 13).place 1 = .reading ∧ (caseSt 13).uses 1 = (caseSt 13).new) := (closed_unused case_history case_fair.2.1 13).2 rfl 1

end Lw
end Hound
