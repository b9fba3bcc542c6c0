import Verif.Spec.LockWait
import Verif.Proofs.Fair
/-! Lemmas for C101. -/

namespace Hound
namespace Lw
open Spec

theorem writerLive_iff (s : St) : s.writerLive = true ↔ s.poller = .waitsLive ∨ s.poller = .swaps ∨
    s.poller = .waitsOld ∨ s.poller = .closesOld ∨ s.poller = .leaves := by
  unfold St.writerLive; cases s.poller <;> simp
theorem writerOwn_iff (s : St) (h : Nat) : s.writerOwn h = true ↔
    ((s.poller = .waitsOld ∨ s.poller = .closesOld) ∧ h = s.old) ∨
    ((s.poller = .waitsNew ∨ s.poller = .closesNew) ∧ h = s.new) := by
  unfold St.writerOwn; cases s.poller <;> simp
theorem readerLive_iff (s : St) (n : Nat) : s.readerLive n = true ↔ s.place n = .inside ∨ s.place n = .queuedIndex ∨
    s.place n = .reading := by
  unfold St.readerLive; cases s.place n <;> simp
theorem readerLive_false (s : St) (n : Nat) : s.readerLive n = false ↔ s.place n ≠ .inside ∧ s.place n ≠ .queuedIndex ∧
    s.place n ≠ .reading := by
  unfold St.readerLive; cases s.place n <;> simp
theorem readerOwn_false (s : St) (h n : Nat) : s.readerOwn h n = false ↔ ¬ (s.place n = .reading ∧ s.uses n = h) := by
  unfold St.readerOwn; cases s.place n <;> simp

/-- What is always so. -/
structure Inv (s : St) : Prop where
  queued : ∀ n, s.place n = .queued → s.poller = .waitsLive ∨ s.poller = .swaps ∨
    s.poller = .waitsOld ∨ s.poller = .closesOld ∨ s.poller = .leaves
  queuedIndex : ∀ n, s.place n = .queuedIndex → (s.poller = .waitsNew ∨ s.poller = .closesNew) ∧ s.uses n = s.new
  alone : ∀ n, s.place n = .inside ∨ s.place n = .reading →
    s.poller ≠ .swaps ∧ s.poller ≠ .waitsOld ∧ s.poller ≠ .closesOld ∧ s.poller ≠ .leaves
  made : ∀ n, s.made ≤ n → s.place n = .none
  called : ∀ n, n < s.made → s.place n ≠ .none
  cur : s.poller ≠ .idle → s.poller ≠ .waitsLive → s.poller ≠ .swaps → s.cur = s.new

theorem Inv.start : Inv start := by
  constructor <;> simp [Lw.start]

theorem Inv.step {s t : St} {e : Ev} (h : Inv s) (hs : Step s e t) : Inv t := by
  obtain ⟨h1, h2, h3, h4, h5, h6⟩ := h
  have w1 := writerLive_iff s
  have w2 := writerOwn_iff s
  cases hs with
  | call => constructor <;> grind [put]
  | enter n h7 =>
    refine ⟨?_, ?_, ?_, ?_, ?_, ?_⟩
    · grind [put]
    · grind [put]
    · grind [put]
    · grind [put]
    · grind [put]
    · grind [put]
  | ends => constructor <;> grind [put]
  | update => constructor <;> grind
  | getLive h7 h8 => simp only [readerLive_false] at h8; constructor <;> grind
  | swap => constructor <;> grind
  | getOld => constructor <;> grind
  | closeOld => constructor <;> grind [admitOwn]
  | leave => constructor <;> grind [admitLive]
  | done => constructor <;> grind
  | undo => constructor <;> grind
  | getNew => constructor <;> grind
  | closeNew => constructor <;> grind [admitOwn]

section
variable {st : Nat → St} {ev : Nat → Option Ev}

theorem inv (h : History Step st ev) (h0 : st 0 = start) (n : Nat) : Inv (st n) := by
  induction n with
  | zero => rw [h0]; exact Inv.start
  | succ n ih =>
    cases he : ev n with
    | none => rw [Fair.same_of h he]; exact ih
    | some e => exact ih.step (Fair.step_of h he)

/-- What can always be done and stays so is done. -/
theorem leads (h : History Step st ev) (hi : ∀ n, Inv (st n)) {own : Ev → Prop} (hf : Moves Step own st ev)
    (P : St → Prop) (en : ∀ s, Inv s → P s → ∃ e t, own e ∧ Step s e t)
    (stay : ∀ s e t, Inv s → Step s e t → P s → ¬ own e → P t) {m : Nat} (hm : P (st m)) :
    ∃ k, m ≤ k ∧ P (st k) ∧ ∃ e, ev k = some e ∧ own e ∧ Step (st k) e (st (k + 1)) := by
  apply Classical.byContradiction
  intro hc
  have all : ∀ d, P (st (m + d)) := by
    intro d
    induction d with
    | zero => exact hm
    | succ d ih =>
      cases he : ev (m + d) with
      | none => rw [← Nat.add_assoc, Fair.same_of h he]; exact ih
      | some e =>
        have hs := Fair.step_of h he
        by_cases ho : own e
        · exact absurd ⟨m + d, by omega, ih, e, he, ho, hs⟩ hc
        · exact stay _ _ _ (hi _) hs ih ho
  obtain ⟨k, hk, e, he, ho⟩ := hf m (fun k hk => by
    obtain ⟨d, rfl⟩ := Nat.exists_eq_add_of_le hk
    exact en _ (hi _) (all d))
  obtain ⟨d, rfl⟩ := Nat.exists_eq_add_of_le hk
  exact hc ⟨m + d, by omega, all d, e, he, ho, Fair.step_of h he⟩

theorem poller_stays {s t : St} {e : Ev} (hs : Step s e t) (hp : s.poller ≠ .idle) (he : ¬ isPoller e) :
    t.poller = s.poller := by
  cases hs <;> simp_all [isPoller]

/-- The poller goes on when nothing keeps it. -/
theorem poller_goes (h : History Step st ev) (hi : ∀ n, Inv (st n)) (hf : Moves Step isPoller st ev) (p : Poller)
    (hp : p ≠ .idle) (P : St → Prop) (en : ∀ s, Inv s → s.poller = p → P s → ∃ t, Step s .poller t)
    (stay : ∀ s e t, Inv s → Step s e t → s.poller = p → P s → ¬ isPoller e → P t) {m : Nat}
    (hm : (st m).poller = p) (hP : P (st m)) :
    ∃ k, m ≤ k ∧ (st k).poller = p ∧ P (st k) ∧ Step (st k) .poller (st (k + 1)) := by
  obtain ⟨k, hk, ⟨h1, h2⟩, e, he, ho, hs⟩ := leads h hi hf (fun s => s.poller = p ∧ P s)
    (fun s hI hs => by obtain ⟨t, ht⟩ := en s hI hs.1 hs.2; exact ⟨_, t, rfl, ht⟩)
    (fun s e t hI hs hh ho => ⟨by rw [poller_stays hs (by rw [hh.1]; exact hp) ho]; exact hh.1, stay s e t hI hs hh.1 hh.2 ho⟩)
    ⟨hm, hP⟩
  cases ho
  exact ⟨k, hk, h1, h2, hs⟩

/-- Waiting: the poller is at `w` until nobody is in the way; those in the way leave and no others come. -/
theorem drains (h : History Step st ev) (hi : ∀ n, Inv (st n)) (hf : Moves Step isPoller st ev) (w g : Poller)
    (hw : w ≠ .idle) (hgw : g ≠ w) (A : St → Nat → Prop)
    (hstay : ∀ s e t, Inv s → Step s e t → s.poller = w → t.poller = g ∨ (t.poller = w ∧ ∀ n, ¬ A s n → ¬ A t n))
    (hgo : ∀ s t, Step s .poller t → s.poller = w → t.poller = g)
    (hen : ∀ s, Inv s → s.poller = w → (∀ n, ¬ A s n) → ∃ t, Step s .poller t)
    (hA : ∀ s n, Inv s → A s n → n < s.made)
    (hleave : ∀ m n, (st m).poller = w → A (st m) n → ∃ k, m ≤ k ∧ ((st k).poller = g ∨ ((st k).poller = w ∧ ¬ A (st k) n)))
    {m : Nat} (hm : (st m).poller = w) : ∃ k, m ≤ k ∧ (st k).poller = g := by
  have later : ∀ a d, (st a).poller = w → (∃ k, a ≤ k ∧ (st k).poller = g) ∨
      ((st (a + d)).poller = w ∧ ∀ n, ¬ A (st a) n → ¬ A (st (a + d)) n) := by
    intro a d ha
    induction d with
    | zero => exact .inr ⟨ha, fun _ h => h⟩
    | succ d ih =>
      rcases ih with ih | ⟨ih1, ih2⟩
      · exact .inl ih
      · cases he : ev (a + d) with
        | none => rw [← Nat.add_assoc, Fair.same_of h he]; exact .inr ⟨ih1, ih2⟩
        | some e =>
          rcases hstay _ _ _ (hi _) (Fair.step_of h he) ih1 with h1 | ⟨h1, h2⟩
          · exact .inl ⟨a + d + 1, by omega, h1⟩
          · exact .inr ⟨h1, fun n hn => h2 n (ih2 n hn)⟩
  have empty : ∀ j, (∃ k, m ≤ k ∧ (st k).poller = g) ∨
      ∃ k, m ≤ k ∧ (st k).poller = w ∧ ∀ n, (n < j ∨ ¬ A (st m) n) → ¬ A (st k) n := by
    intro j
    induction j with
    | zero => exact .inr ⟨m, Nat.le_refl _, hm, fun n hn => hn.elim (fun h => absurd h (Nat.not_lt_zero _)) id⟩
    | succ j ih =>
      rcases ih with ih | ⟨k, hk, hw', hn⟩
      · exact .inl ih
      · by_cases ha : A (st k) j
        · obtain ⟨k', hk', h1 | ⟨h1, h2⟩⟩ := hleave k j hw' ha
          · exact .inl ⟨k', by omega, h1⟩
          · obtain ⟨d, rfl⟩ := Nat.exists_eq_add_of_le hk'
            rcases later k d hw' with ⟨k2, a, b⟩ | ⟨_, h4⟩
            · exact .inl ⟨k2, by omega, b⟩
            · refine .inr ⟨k + d, by omega, h1, fun n hnn => ?_⟩
              by_cases e : n = j
              · subst e; exact h2
              · exact h4 n (hn n (hnn.imp (fun h => by omega) id))
        · refine .inr ⟨k, hk, hw', fun n hnn => ?_⟩
          by_cases e : n = j
          · subst e; exact ha
          · exact hn n (hnn.imp (fun h => by omega) id)
  rcases empty (st m).made with h1 | ⟨k, hk, hw', hn⟩
  · exact h1
  · have hno : ∀ n, ¬ A (st k) n := fun n => hn n (by
      by_cases hlt : n < (st m).made
      · exact .inl hlt
      · exact .inr fun ha => hlt (hA _ _ (hi _) ha))
    obtain ⟨k', hk', h1, _, h3⟩ := poller_goes h hi hf w hw (fun s => ∀ n, ¬ A s n) hen
      (fun s e t hI hs hsw hP ho => by
        rcases hstay s e t hI hs hsw with h' | h'
        · have := poller_stays hs (by rw [hsw]; exact hw) ho
          rw [h', hsw] at this; exact absurd this hgw
        · exact fun n => h'.2 n (hP n)) hw' hno
    exact ⟨k' + 1, by omega, hgo _ _ h3 h1⟩
end

end Lw
end Hound
