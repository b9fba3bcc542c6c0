import Verif.Spec.Gate
import Verif.Proofs.Fair
/-! Lemmas for C105. -/

namespace Hound
namespace Gate
open Spec

theorem alive_iff (s : St) : s.alive = true ↔ ¬ Gone s := by
  unfold St.alive Gone; cases s.main <;> simp
theorem writer_iff (s : St) : s.writer = true ↔ s.main = .waits ∨ s.main = .has := by
  unfold St.writer; cases s.main <;> simp
theorem reader_iff (s : St) (n : Nat) : s.reader n = true ↔ s.place n = .inside ∨ ∃ m, s.place n = .reads m := by
  unfold St.reader; cases s.place n <;> simp
theorem reader_false (s : St) (n : Nat) : s.reader n = false ↔ s.place n ≠ .inside ∧ ∀ m, s.place n ≠ .reads m := by
  unfold St.reader; cases s.place n <;> simp

/-- What is always so. -/
structure Inv (uri : Bytes) (content : Bool) (s : St) : Prop where
  uri : s.uri = uri
  content : s.content = content
  queued : s.alive = true → ∀ n, s.place n = .queued → s.main = .waits ∨ s.main = .has
  made : ∀ n, s.made ≤ n → s.place n = .none
  called : ∀ n, n < s.made → s.place n ≠ .none
  mux : s.main = .receives → s.mux = true
  other : ∀ n, s.place n = .queued ∨ s.place n = .inside ∨ (∃ m, s.place n = .reads m) ∨ s.place n = .answered .notReady ∨
    s.place n = .answered .served → s.path n ≠ s.uri
  healthy : ∀ n, s.place n = .answered .healthy → s.path n = s.uri

theorem Inv.start (uri : Bytes) (content : Bool) : Inv uri content (start uri content) := by
  constructor <;> simp [Gate.start]

theorem Inv.step {uri : Bytes} {content : Bool} {s t : St} {e : Ev} (h : Inv uri content s) (hs : Step s e t) :
    Inv uri content t := by
  obtain ⟨h1, h2, h3, h4, h5, h6, h7, h8⟩ := h
  have w1 := writer_iff s
  cases hs with
  | call p ha => constructor <;> grind [put, St.alive]
  | health n ha => constructor <;> grind [put, St.alive]
  | lock n ha hp hne =>
    refine ⟨h1, h2, ?_, ?_, ?_, h6, ?_, ?_⟩ <;> grind [put, St.alive]
  | read n ha => constructor <;> grind [put, St.alive]
  | reply n m ha hp =>
    refine ⟨h1, h2, ?_, ?_, ?_, h6, ?_, ?_⟩ <;> grind [put, St.alive]
  | set hm => constructor <;> grind [admit, St.alive]
  | _ => constructor <;> grind [St.alive]

section
variable {uri : Bytes} {content : Bool} {st : Nat → St} {ev : Nat → Option Ev}

theorem inv (h : Runs uri content st ev) (n : Nat) : Inv uri content (st n) := by
  induction n with
  | zero => rw [h.start]; exact Inv.start _ _
  | succ n ih =>
    cases he : ev n with
    | none => rw [Fair.same_of h.steps he]; exact ih
    | some e => exact ih.step (Fair.step_of h.steps he)

/-- What stays, at every later moment. -/
theorem stays (h : Runs uri content st ev) (P : St → Prop) {m : Nat}
    (step : ∀ k, m ≤ k → P (st k) → ∀ e, ev k = some e → Step (st k) e (st (k + 1)) → P (st (k + 1))) (hm : P (st m)) :
    ∀ k, m ≤ k → P (st k) := by
  intro k hk
  obtain ⟨d, rfl⟩ := Nat.exists_eq_add_of_le hk
  clear hk
  induction d with
  | zero => exact hm
  | succ d ih =>
    cases he : ev (m + d) with
    | none => rw [← Nat.add_assoc, Fair.same_of h.steps he]; exact ih
    | some e => exact step (m + d) (Nat.le_add_right _ _) ih e he (Fair.step_of h.steps he)

/-- What can be done and stays so is done. -/
theorem leads (h : Runs uri content st ev) {own : Ev} (hf : Moves Step (fun e => e = own) st ev) (P : St → Prop) {m : Nat}
    (en : ∀ k, m ≤ k → P (st k) → ∃ t, Step (st k) own t)
    (stay : ∀ k, m ≤ k → P (st k) → ∀ e, ev k = some e → Step (st k) e (st (k + 1)) → e ≠ own → P (st (k + 1)))
    (hm : P (st m)) : ∃ k, m ≤ k ∧ P (st k) ∧ ev k = some own ∧ Step (st k) own (st (k + 1)) := by
  apply Classical.byContradiction
  intro hc
  have all := stays h P (m := m) (fun k hk hp e he hs => by
    by_cases ho : e = own
    · subst ho; exact absurd ⟨k, hk, hp, he, hs⟩ hc
    · exact stay k hk hp e he hs ho) hm
  obtain ⟨k, hk, e, he, rfl⟩ := hf m (fun k hk => by
    obtain ⟨t, ht⟩ := en k hk (all k hk)
    exact ⟨_, t, rfl, ht⟩)
  exact hc ⟨k, hk, all k hk, he, Fair.step_of h.steps he⟩

/-- The place of a request changes by its own steps, by its coming, and when the queue is let in. -/
theorem place_kept {s t : St} {e : Ev} {n : Nat} (hs : Step s e t) (he : e ≠ .request n) (h1 : s.place n ≠ .none)
    (h2 : s.place n ≠ .queued) (hI : Inv uri content s) : t.place n = s.place n := by
  have := hI.made
  cases hs with
  | call p => grind [put]
  | set => grind [admit]
  | health k => grind [put]
  | lock k => grind [put]
  | read k => grind [put]
  | reply k => grind [put]
  | _ => rfl

end
end Gate
end Hound
