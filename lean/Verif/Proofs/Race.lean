import Verif.Model.Race
/-! Lemmas for C100: locks order what is done while they are held. -/

namespace Hound
namespace Race

theorem At.lt {tr : Trace} {i : Nat} {w : Who} {o : Op} (h : At tr i w o) : i < tr.length := by
  unfold At at h
  exact (List.getElem?_eq_some_iff.1 h).1

theorem At.push {tr : Trace} {i : Nat} {w : Who} {o : Op} (h : At tr i w o) (x : Trace) : At (tr ++ x) i w o := by
  have := h.lt
  unfold At at *
  rw [List.getElem?_append_left this]; exact h

theorem At.last (tr : Trace) (w : Who) (o : Op) : At (tr ++ [(w, o)]) tr.length w o := by
  simp [At]

theorem At.cases {tr : Trace} {i : Nat} {w u : Who} {o o' : Op} (h : At (tr ++ [(u, o')]) i w o) :
    At tr i w o ∨ (i = tr.length ∧ u = w ∧ o' = o) := by
  have := h.lt
  unfold At at *
  by_cases hi : i < tr.length
  · rw [List.getElem?_append_left hi] at h; exact .inl h
  · have : i = tr.length := by simp at this; omega
    subst this
    simp at h
    exact .inr ⟨rfl, h.1, h.2⟩

theorem At.uniq {tr : Trace} {i : Nat} {w u : Who} {o o' : Op} (h : At tr i w o) (h' : At tr i u o') :
    w = u ∧ o = o' := by
  unfold At at *
  rw [h] at h'; simp at h'; exact h'

theorem At.take {tr : Trace} {i n : Nat} {w : Who} {o : Op} : At (tr.take n) i w o ↔ i < n ∧ At tr i w o := by
  unfold At
  rw [List.getElem?_take]
  split
  · simp_all
  · simp; omega

theorem Hb.lt {tr : Trace} {i j : Nat} (h : Hb tr i j) : i < j := by
  induction h with
  | trans _ _ h1 h2 => omega
  | _ => assumption

/-- What was so before an event. -/
theorem Run.before {tr : Trace} {s : St} (h : Run tr s) {b : Nat} {w : Who} {o : Op} (hb : At tr b w o) :
    ∃ s' t, Run (tr.take b) s' ∧ Step s' w o t := by
  induction h with
  | start => simp [At] at hb
  | @step tr s t u o' hr hs ih =>
    rcases hb.cases with hb' | ⟨rfl, rfl, rfl⟩
    · obtain ⟨s', t', h1, h2⟩ := ih hb'
      refine ⟨s', t', ?_, h2⟩
      rw [List.take_append_of_le_length (Nat.le_of_lt hb'.lt)]; exact h1
    · refine ⟨s, t, ?_, hs⟩
      rw [List.take_append_of_le_length (Nat.le_refl _), List.take_length]; exact hr

/-- A goroutine has acquired a lock for writing and not released it. -/
def HoldW (tr : Trace) (l : Lock) (w : Who) : Prop :=
  ∃ a, At tr a w (.lock l) ∧ ∀ m, a < m → ¬ At tr m w (.unlock l)
/-- A goroutine has acquired a lock for reading and not released it. -/
def HoldR (tr : Trace) (l : Lock) (w : Who) : Prop :=
  ∃ a, At tr a w (.rlock l) ∧ ∀ m, a < m → ¬ At tr m w (.runlock l)

theorem HoldW.push {tr : Trace} {l : Lock} {w u : Who} {o : Op} (h : HoldW tr l w) (hn : u = w → o ≠ .unlock l) :
    HoldW (tr ++ [(u, o)]) l w := by
  obtain ⟨a, h1, h2⟩ := h
  refine ⟨a, h1.push _, fun m hm hA => ?_⟩
  rcases hA.cases with h | ⟨_, h, h'⟩
  · exact h2 m hm h
  · exact hn h h'
theorem HoldR.push {tr : Trace} {l : Lock} {w u : Who} {o : Op} (h : HoldR tr l w) (hn : u = w → o ≠ .runlock l) :
    HoldR (tr ++ [(u, o)]) l w := by
  obtain ⟨a, h1, h2⟩ := h
  refine ⟨a, h1.push _, fun m hm hA => ?_⟩
  rcases hA.cases with h | ⟨_, h, h'⟩
  · exact h2 m hm h
  · exact hn h h'
theorem HoldW.acq (tr : Trace) (l : Lock) (w : Who) : HoldW (tr ++ [(w, .lock l)]) l w :=
  ⟨tr.length, At.last _ _ _, fun m hm hA => by have := hA.lt; simp at this; omega⟩
theorem HoldR.acq (tr : Trace) (l : Lock) (w : Who) : HoldR (tr ++ [(w, .rlock l)]) l w :=
  ⟨tr.length, At.last _ _ _, fun m hm hA => by have := hA.lt; simp at this; omega⟩

theorem Run.holdW {tr : Trace} {s : St} (h : Run tr s) {l : Lock} {w : Who} (hw : HoldW tr l w) :
    s.sync.writer l = some w := by
  induction h with
  | start => obtain ⟨a, h, _⟩ := hw; simp [At] at h
  | @step tr s t u o hr hs ih =>
    obtain ⟨a, h1, h2⟩ := hw
    cases hs with
    | mk p v y hst hp hc =>
    rcases h1.cases with h1' | ⟨rfl, rfl, rfl⟩
    · have hb : HoldW tr l w := ⟨a, h1', fun m hm hA => h2 m hm (hA.push _)⟩
      have hi := ih hb
      have hlast : u = w → o ≠ .unlock l := fun e e' => by
        subst e; subst e'
        exact h2 tr.length h1'.lt (At.last _ _ _)
      cases hc with
      | lock l' h3 h4 =>
        by_cases e : l = l'
        · subst e; rw [hi] at h3; cases h3
        · simp [upd, e, hi]
      | unlock l' h3 =>
        by_cases e : l = l'
        · subst e; rw [hi] at h3; cases h3; exact absurd rfl (hlast rfl)
        · simp [upd, e, hi]
      | _ => exact hi
    · cases hc; simp [upd]

theorem Run.holdR {tr : Trace} {s : St} (h : Run tr s) {l : Lock} {w : Who} (hw : HoldR tr l w) :
    s.sync.readers l w = true := by
  induction h with
  | start => obtain ⟨a, h, _⟩ := hw; simp [At] at h
  | @step tr s t u o hr hs ih =>
    obtain ⟨a, h1, h2⟩ := hw
    cases hs with
    | mk p v y hst hp hc =>
    rcases h1.cases with h1' | ⟨rfl, rfl, rfl⟩
    · have hb : HoldR tr l w := ⟨a, h1', fun m hm hA => h2 m hm (hA.push _)⟩
      have hi := ih hb
      have hlast : u = w → o ≠ .runlock l := fun e e' => by
        subst e; subst e'
        exact h2 tr.length h1'.lt (At.last _ _ _)
      cases hc with
      | rlock l' h3 =>
        by_cases e : l = l'
        · subst e; simp only [upd, if_pos]; split <;> simp [hi]
        · simp [upd, e, hi]
      | runlock l' h3 =>
        by_cases e : l = l'
        · subst e
          by_cases e' : w = u
          · exact absurd rfl (hlast e'.symm)
          · simp [upd, e', hi]
        · simp [upd, e, hi]
      | _ => exact hi
    · cases hc; simp [upd]

/-- A goroutine holds a lock for writing when it does event `i`. -/
def HeldW (tr : Trace) (l : Lock) (w : Who) (i : Nat) : Prop := HoldW (tr.take i) l w
/-- A goroutine holds a lock for reading when it does event `i`. -/
def HeldR (tr : Trace) (l : Lock) (w : Who) (i : Nat) : Prop := HoldR (tr.take i) l w

/-- The last release in a stretch in which a goroutine stopped holding a lock. -/
theorem freed {tr : Trace} {l : Lock} {w : Who} {i b : Nat} (hw : HeldW tr l w i) (hib : i < b)
    (hn : ¬ HeldW tr l w b) : ∃ m, i ≤ m ∧ m < b ∧ At tr m w (.unlock l) := by
  obtain ⟨a, h1, h2⟩ := hw
  rw [At.take] at h1
  apply Classical.byContradiction
  intro hc
  apply hn
  refine ⟨a, At.take.2 ⟨by omega, h1.2⟩, fun m hm hA => ?_⟩
  rw [At.take] at hA
  by_cases hmi : m < i
  · exact h2 m hm (At.take.2 ⟨hmi, hA.2⟩)
  · exact hc ⟨m, by omega, hA.1, hA.2⟩
theorem freedR {tr : Trace} {l : Lock} {w : Who} {i b : Nat} (hw : HeldR tr l w i) (hib : i < b)
    (hn : ¬ HeldR tr l w b) : ∃ m, i ≤ m ∧ m < b ∧ At tr m w (.runlock l) := by
  obtain ⟨a, h1, h2⟩ := hw
  rw [At.take] at h1
  apply Classical.byContradiction
  intro hc
  apply hn
  refine ⟨a, At.take.2 ⟨by omega, h1.2⟩, fun m hm hA => ?_⟩
  rw [At.take] at hA
  by_cases hmi : m < i
  · exact h2 m hm (At.take.2 ⟨hmi, hA.2⟩)
  · exact hc ⟨m, by omega, hA.1, hA.2⟩

/-- What is done holding a lock for writing happens before what is later done by another holding it for reading. -/
theorem Run.write_read {tr : Trace} {s : St} (h : Run tr s) {l : Lock} {w u : Who} {i j : Nat} {x x' : Var}
    (hi : At tr i w (.write x)) (hj : At tr j u (.read x')) (hw : HeldW tr l w i) (hu : HeldR tr l u j)
    (hne : w ≠ u) (hij : i < j) : Hb tr i j := by
  obtain ⟨b, hb1, hb2⟩ := hu
  rw [At.take] at hb1
  obtain ⟨s', t, hr, hs⟩ := h.before hb1.2
  have hfree : s'.sync.writer l = none := by cases hs with | mk _ _ _ _ _ hc => cases hc; assumption
  have hn : ¬ HeldW tr l w b := fun hc => by have := hr.holdW hc; rw [hfree] at this; cases this
  have hbi : b ≠ i := fun e => by subst e; exact hne ((hb1.2.uniq hi).1.symm)
  by_cases hlt : i < b
  · obtain ⟨m, hm1, hm2, hm3⟩ := freed hw hlt hn
    have : i ≠ m := fun e => by subst e; have := (hm3.uniq hi).2; cases this
    exact .trans (.inside (by omega) hi hm3) (.trans (.rlock hm2 hm3 hb1.2) (.inside hb1.1 hb1.2 hj))
  · obtain ⟨a, ha1, ha2⟩ := hw
    rw [At.take] at ha1
    have hab : a ≠ b := fun e => by subst e; exact hne (ha1.2.uniq hb1.2).1
    by_cases hlt' : a < b
    · exact absurd ⟨a, At.take.2 ⟨hlt', ha1.2⟩, fun m hm hA => ha2 m hm (At.take.2 ⟨by have := (At.take.1 hA).1; omega, (At.take.1 hA).2⟩)⟩ hn
    · obtain ⟨s2, t2, hr2, hs2⟩ := h.before ha1.2
      have hfree2 : s2.sync.readers l u = false := by
        cases hs2 with | mk _ _ _ _ _ hc => cases hc with | lock _ _ h4 => exact h4 u
      have : HoldR (tr.take a) l u := ⟨b, At.take.2 ⟨by omega, hb1.2⟩,
        fun m hm hA => hb2 m hm (At.take.2 ⟨by have := (At.take.1 hA).1; omega, (At.take.1 hA).2⟩)⟩
      rw [hr2.holdR this] at hfree2; cases hfree2

/-- What is done holding a lock for reading happens before what is later done by another holding it for writing. -/
theorem Run.read_write {tr : Trace} {s : St} (h : Run tr s) {l : Lock} {w u : Who} {i j : Nat} {x x' : Var}
    (hi : At tr i u (.read x)) (hj : At tr j w (.write x')) (hu : HeldR tr l u i) (hw : HeldW tr l w j)
    (hne : w ≠ u) (hij : i < j) : Hb tr i j := by
  obtain ⟨b, hb1, hb2⟩ := hw
  rw [At.take] at hb1
  obtain ⟨s', t, hr, hs⟩ := h.before hb1.2
  have hfree : s'.sync.readers l u = false := by
    cases hs with | mk _ _ _ _ _ hc => cases hc with | lock _ _ h4 => exact h4 u
  have hn : ¬ HeldR tr l u b := fun hc => by have := hr.holdR hc; rw [hfree] at this; cases this
  have hbi : b ≠ i := fun e => by subst e; exact hne ((hb1.2.uniq hi).1)
  by_cases hlt : i < b
  · obtain ⟨m, hm1, hm2, hm3⟩ := freedR hu hlt hn
    have : i ≠ m := fun e => by subst e; have := (hm3.uniq hi).2; cases this
    exact .trans (.inside (by omega) hi hm3) (.trans (.runlock hm2 hm3 hb1.2) (.inside hb1.1 hb1.2 hj))
  · obtain ⟨a, ha1, ha2⟩ := hu
    rw [At.take] at ha1
    have hab : a ≠ b := fun e => by subst e; exact hne (ha1.2.uniq hb1.2).1.symm
    by_cases hlt' : a < b
    · exact absurd ⟨a, At.take.2 ⟨hlt', ha1.2⟩, fun m hm hA => ha2 m hm (At.take.2 ⟨by have := (At.take.1 hA).1; omega, (At.take.1 hA).2⟩)⟩ hn
    · obtain ⟨s2, t2, hr2, hs2⟩ := h.before ha1.2
      have hfree2 : s2.sync.writer l = none := by
        cases hs2 with | mk _ _ _ _ _ hc => cases hc; assumption
      have : HoldW (tr.take a) l w := ⟨b, At.take.2 ⟨by omega, hb1.2⟩,
        fun m hm hA => hb2 m hm (At.take.2 ⟨by have := (At.take.1 hA).1; omega, (At.take.1 hA).2⟩)⟩
      rw [hr2.holdW this] at hfree2; cases hfree2

end Race
end Hound
