import Verif.Spec.MakeAll
import Verif.Proofs.Fair
import Verif.Proofs.Sparse
/-! Lemmas for C103. -/

namespace Hound
namespace Mk
open Spec

/-! ### Sums -/

def total (w : W → Nat) (f : Nat → W) : Nat → Nat
  | 0 => 0
  | n + 1 => total w f n + w (f n)

theorem total_out (w : W → Nat) (f : Nat → W) (i : Nat) (x : W) : ∀ n, n ≤ i → total w (upd f i x) n = total w f n := by
  intro n
  induction n with
  | zero => intro _; rfl
  | succ n ih => intro h; simp only [total, ih (by omega), upd]; rw [if_neg (by omega)]

theorem total_upd (w : W → Nat) (f : Nat → W) (i : Nat) (x : W) : ∀ n, i < n → total w (upd f i x) n + w (f i) = total w f n + w x := by
  intro n
  induction n with
  | zero => intro h; omega
  | succ n ih =>
    intro h
    by_cases hi : i = n
    · subst hi
      simp only [total, total_out w f i x i (Nat.le_refl _), upd, if_true]
      omega
    · have := ih (by omega)
      simp only [total]
      have : upd f i x n = f n := by simp only [upd]; rw [if_neg (by omega)]
      rw [this]; omega

theorem total_zero (w : W → Nat) (f : Nat → W) : ∀ n, (∀ i, i < n → w (f i) = 0) → total w f n = 0 := by
  intro n
  induction n with
  | zero => intro _; rfl
  | succ n ih => intro h; simp only [total, ih (fun i hi => h i (by omega)), h n (by omega)]

theorem total_pos (w : W → Nat) (f : Nat → W) (i : Nat) : ∀ n, i < n → w (f i) ≤ total w f n := by
  intro n
  induction n with
  | zero => intro h; omega
  | succ n ih =>
    intro h
    by_cases hi : i = n
    · subst hi; simp only [total]; omega
    · have := ih (by omega); simp only [total]; omega

/-- Who has a token. -/
def hold : W → Nat
  | .working | .sending _ | .releasing _ => 1
  | _ => 0

/-- How far a goroutine is from its end. -/
def far : W → Nat
  | .none => 5
  | .started => 4
  | .working => 3
  | .sending _ => 2
  | .releasing _ => 1
  | .gone _ => 0

/-- How far `MakeAll` is from its end. -/
def farMain (n : Nat) : Main → Nat
  | .spawning j => (n - j) + n + 2
  | .waiting k => n - k + 1
  | .returned => 0

def measure (n : Nat) (s : St) : Nat := farMain n s.main + total far s.ws n

/-! ### What is always so -/

structure Inv (n : Nat) (s : St) : Prop where
  spawn : ∀ j, s.main = .spawning j → j ≤ n ∧ s.got = [] ∧ (∀ k, j ≤ k → s.ws k = .none) ∧ ∀ k, k < j → s.ws k ≠ .none
  all : (∀ j, s.main ≠ .spawning j) → ∀ k, k < n → s.ws k ≠ .none
  none : ∀ k, n ≤ k → s.ws k = .none
  once : ((s.got ++ s.buf).map Prod.fst).Nodup
  sent : ∀ k ok, (k, ok) ∈ s.got ++ s.buf ↔ s.ws k = .releasing ok ∨ s.ws k = .gone ok
  waiting : ∀ k, s.main = .waiting k → s.got.length = k ∧ k ≤ n
  returned : s.main = .returned → s.got.length = n
  chan : s.chan = total hold s.ws n

theorem Inv.start (n : Nat) : Inv n start := by
  refine ⟨?_, ?_, ?_, ?_, ?_, ?_, ?_, ?_⟩ <;> simp [Mk.start]
  exact (total_zero _ _ _ (fun _ _ => rfl)).symm

theorem Inv.lt {n : Nat} {s : St} (h : Inv n s) {i : Nat} (hi : s.ws i ≠ .none) : i < n :=
  Nat.not_le.1 fun hh => hi (h.none i hh)

theorem Inv.step {n cap : Nat} {s t : St} {e : Ev} (h : Inv n s) (hs : Step n cap s e t) : Inv n t ∧ measure n t < measure n s := by
  have hlt := fun i => h.lt (i := i)
  obtain ⟨h1, h2, h3, h4, h5, h6, h7, h8⟩ := h
  cases hs with
  | spawn j hm hj =>
    obtain ⟨a1, a2, a3, a4⟩ := h1 j hm
    have hj0 := a3 j (Nat.le_refl _)
    have u1 := total_upd hold s.ws j .started n hj
    have u2 := total_upd far s.ws j .started n hj
    rw [hj0] at u1 u2
    simp only [hold, far] at u1 u2
    refine ⟨⟨?_, ?_, ?_, h4, ?_, ?_, ?_, ?_⟩, ?_⟩
    · intro i hi; simp only [Main.spawning.injEq] at hi; subst hi; refine ⟨hj, a2, ?_, ?_⟩ <;> grind [upd]
    · intro hh; exact absurd rfl (hh (j + 1))
    · intro k hk; grind [upd]
    · intro k ok; rw [h5 k ok]; grind [upd]
    · intro k hk; cases hk
    · intro hk; cases hk
    · simp only; omega
    · simp only [measure, hm, farMain]; omega
  | spawned j hm hj =>
    obtain ⟨a1, a2, a3, a4⟩ := h1 j hm
    refine ⟨⟨?_, ?_, h3, h4, h5, ?_, ?_, h8⟩, ?_⟩
    · intro i hi; cases hi
    · intro _ k hk; exact a4 k (by omega)
    · intro k hk; simp only [Main.waiting.injEq] at hk; subst hk; simp [a2]
    · intro hk; cases hk
    · simp only [measure, hm, farMain]; omega
  | receive k i ok rest hm hk hb =>
    obtain ⟨a1, a2⟩ := h6 k hm
    have happ : (s.got ++ [(i, ok)]) ++ rest = s.got ++ s.buf := by rw [hb]; simp
    refine ⟨⟨?_, ?_, h3, ?_, ?_, ?_, ?_, h8⟩, ?_⟩
    · intro i hi; cases hi
    · intro _; exact h2 (by rw [hm]; simp)
    · simp only [happ]; exact h4
    · intro k ok; simp only [happ]; exact h5 k ok
    · intro k hk; simp only [Main.waiting.injEq] at hk; subst hk; simp [a1]; omega
    · intro hk; cases hk
    · simp only [measure, hm, farMain]; omega
  | «return» k hm hk =>
    obtain ⟨a1, a2⟩ := h6 k hm
    refine ⟨⟨?_, ?_, h3, h4, h5, ?_, ?_, h8⟩, ?_⟩
    · intro i hi; cases hi
    · intro _; exact h2 (by rw [hm]; simp)
    · intro k hk; cases hk
    · intro _; simp only; omega
    · simp only [measure, hm, farMain]; omega
  | acquire i hi hc =>
    have hin := hlt i (by rw [hi]; simp)
    have u1 := total_upd hold s.ws i .working n hin
    have u2 := total_upd far s.ws i .working n hin
    rw [hi] at u1 u2
    simp only [hold, far] at u1 u2
    refine ⟨⟨?_, ?_, ?_, h4, ?_, h6, h7, ?_⟩, ?_⟩
    · intro j hj; obtain ⟨a1, a2, a3, a4⟩ := h1 j hj; refine ⟨a1, a2, ?_, ?_⟩ <;> grind [upd]
    · intro hh k hk; have := h2 hh k hk; grind [upd]
    · intro k hk; grind [upd]
    · intro k ok; rw [h5 k ok]; grind [upd]
    · simp only; omega
    · simp only [measure]; omega
  | make i ok hi =>
    have hin := hlt i (by rw [hi]; simp)
    have u1 := total_upd hold s.ws i (.sending ok) n hin
    have u2 := total_upd far s.ws i (.sending ok) n hin
    rw [hi] at u1 u2
    simp only [hold, far] at u1 u2
    refine ⟨⟨?_, ?_, ?_, h4, ?_, h6, h7, ?_⟩, ?_⟩
    · intro j hj; obtain ⟨a1, a2, a3, a4⟩ := h1 j hj; refine ⟨a1, a2, ?_, ?_⟩ <;> grind [upd]
    · intro hh k hk; have := h2 hh k hk; grind [upd]
    · intro k hk; grind [upd]
    · intro k ok; rw [h5 k ok]; grind [upd]
    · simp only; omega
    · simp only [measure]; omega
  | send i ok hi hb =>
    have hin := hlt i (by rw [hi]; simp)
    have u1 := total_upd hold s.ws i (.releasing ok) n hin
    have u2 := total_upd far s.ws i (.releasing ok) n hin
    rw [hi] at u1 u2
    simp only [hold, far] at u1 u2
    refine ⟨⟨?_, ?_, ?_, ?_, ?_, h6, h7, ?_⟩, ?_⟩
    · intro j hj; obtain ⟨a1, a2, a3, a4⟩ := h1 j hj; refine ⟨a1, a2, ?_, ?_⟩ <;> grind [upd]
    · intro hh k hk; have := h2 hh k hk; grind [upd]
    · intro k hk; grind [upd]
    · simp only
      rw [← List.append_assoc, List.map_append]
      refine List.nodup_append.2 ⟨h4, by simp, ?_⟩
      intro a ha b hb he
      simp only [List.map_cons, List.map_nil, List.mem_singleton] at hb
      obtain ⟨⟨x, y⟩, hx, rfl⟩ := List.mem_map.1 ha
      simp only at he hb
      subst hb; subst he
      rcases (h5 x y).1 hx with hh | hh <;> rw [hi] at hh <;> cases hh
    · intro k ok'; simp only [← List.append_assoc]; rw [List.mem_append, h5 k ok']; grind [upd]
    · simp only; omega
    · simp only [measure]; omega
  | release i ok hi hc =>
    have hin := hlt i (by rw [hi]; simp)
    have u1 := total_upd hold s.ws i (.gone ok) n hin
    have u2 := total_upd far s.ws i (.gone ok) n hin
    rw [hi] at u1 u2
    simp only [hold, far] at u1 u2
    refine ⟨⟨?_, ?_, ?_, h4, ?_, h6, h7, ?_⟩, ?_⟩
    · intro j hj; obtain ⟨a1, a2, a3, a4⟩ := h1 j hj; refine ⟨a1, a2, ?_, ?_⟩ <;> grind [upd]
    · intro hh k hk; have := h2 hh k hk; grind [upd]
    · intro k hk; grind [upd]
    · intro k ok'; rw [h5 k ok']; grind [upd]
    · simp only; omega
    · simp only [measure]; omega

/-- Nobody can go on only when all is done. -/
theorem Inv.stuck {n cap : Nat} {s : St} (h : Inv n s) (hc : 0 < cap) (hno : ∀ e t, ¬ Step n cap s e t) : Done n s := by
  have hlt := fun i => h.lt (i := i)
  have bound : ∀ l : List Nat, l.Nodup → (∀ x ∈ l, x < n) → l.length ≤ n := fun l => SSet.length_le_of_nodup_bound n l
  obtain ⟨h1, h2, h3, h4, h5, h6, h7, h8⟩ := h
  have mem : ∀ x ∈ (s.got ++ s.buf).map Prod.fst, x < n ∧ ∃ ok, s.ws x = .releasing ok ∨ s.ws x = .gone ok := by
    intro x hx
    obtain ⟨⟨a, b⟩, hy, rfl⟩ := List.mem_map.1 hx
    have := (h5 a b).1 hy
    exact ⟨hlt a (by rcases this with h | h <;> rw [h] <;> simp), b, this⟩
  have nw : ∀ i, s.ws i ≠ .working := fun i hi => hno _ _ (.make s i true hi)
  have ns : ∀ i ok, s.ws i ≠ .sending ok := fun i ok hi => by
    have hnot : i ∉ (s.got ++ s.buf).map Prod.fst := fun hh => by
      obtain ⟨_, ok', h⟩ := mem i hh
      rcases h with h | h <;> rw [hi] at h <;> cases h
    have := bound (i :: (s.got ++ s.buf).map Prod.fst) (List.nodup_cons.2 ⟨hnot, h4⟩) (by
        intro x hx
        rcases List.mem_cons.1 hx with rfl | hx
        · exact hlt x (by rw [hi]; simp)
        · exact (mem x hx).1)
    simp at this
    exact hno _ _ (.send s i ok hi (by omega))
  have nr : ∀ i ok, s.ws i ≠ .releasing ok := fun i ok hi => by
    have := total_pos hold s.ws i n (hlt i (by rw [hi]; simp))
    rw [hi] at this
    simp only [hold] at this
    exact hno _ _ (.release s i ok hi (by omega))
  have free : s.chan = 0 := by
    rw [h8]
    refine total_zero _ _ _ fun i _ => ?_
    cases hx : s.ws i with
    | working => exact absurd hx (nw i)
    | sending ok => exact absurd hx (ns i ok)
    | releasing ok => exact absurd hx (nr i ok)
    | _ => rfl
  have nst : ∀ i, s.ws i ≠ .started := fun i hi => hno _ _ (.acquire s i hi (by omega))
  have nsp : ∀ j, s.main ≠ .spawning j := fun j hj => by
    by_cases hjn : j < n
    · exact hno _ _ (.spawn s j hj hjn)
    · exact hno _ _ (.spawned s j hj (by omega))
  have gone : ∀ i, i < n → ∃ ok, s.ws i = .gone ok := fun i hi => by
    cases hx : s.ws i with
    | none => exact absurd hx (h2 nsp i hi)
    | started => exact absurd hx (nst i)
    | working => exact absurd hx (nw i)
    | sending ok => exact absurd hx (ns i ok)
    | releasing ok => exact absurd hx (nr i ok)
    | gone ok => exact ⟨ok, rfl⟩
  have full : n ≤ s.got.length + s.buf.length := by
    have := (List.nodup_range (n := n)).length_le_of_subset (l₂ := (s.got ++ s.buf).map Prod.fst) (fun k hk => by
      obtain ⟨ok, hok⟩ := gone k (List.mem_range.1 hk)
      exact List.mem_map.2 ⟨(k, ok), (h5 k ok).2 (.inr hok), rfl⟩)
    simpa using this
  have hret : s.main = .returned := by
    cases hm : s.main with
    | spawning j => exact absurd hm (nsp j)
    | returned => rfl
    | waiting k =>
      exfalso
      obtain ⟨a1, a2⟩ := h6 k hm
      by_cases hk : k < n
      · cases hb : s.buf with
        | nil => rw [hb, List.length_nil] at full; omega
        | cons x rest => exact hno _ _ (.receive s k x.1 x.2 rest hm hk hb)
      · exact hno _ _ (.return s k hm (by omega))
  have hcount := h7 hret
  have hbuf : s.buf = [] := by
    have := bound _ h4 (fun x hx => (mem x hx).1)
    simp at this
    exact List.eq_nil_of_length_eq_zero (by omega)
  rw [hbuf, List.append_nil] at h5
  refine ⟨hret, hcount, fun i hi => ?_, free⟩
  obtain ⟨ok, hok⟩ := gone i hi
  refine ⟨ok, (h5 i ok).2 (.inr hok), hok, fun ok' hok' => ?_⟩
  rcases (h5 i ok').1 hok' with h | h <;> rw [hok] at h <;> cases h
  rfl

/-- What always becomes less comes to an end. -/
theorem rests {σ ε : Type} {Step : σ → ε → σ → Prop} {st : Nat → σ} {ev : Nat → Option ε} (_h : History Step st ev) (μ : Nat → Nat)
    (hμ : ∀ m e, ev m = some e → μ (m + 1) < μ m) (hs : ∀ m, ev m = none → μ (m + 1) = μ m) :
    ∃ K, ∀ m, K ≤ m → ev m = none := by
  have mono : ∀ m d, μ (m + d) ≤ μ m := by
    intro m d
    induction d with
    | zero => exact Nat.le_refl _
    | succ d ih =>
      cases he : ev (m + d) with
      | none => have := hs _ he; rw [← Nat.add_assoc]; omega
      | some e => have := hμ _ _ he; rw [← Nat.add_assoc]; omega
  have key : ∀ b m, μ m ≤ b → ∃ K, ∀ m, K ≤ m → ev m = none := by
    intro b
    induction b with
    | zero =>
      intro m hm
      refine ⟨m, fun k hk => ?_⟩
      cases he : ev k with
      | none => rfl
      | some e =>
        obtain ⟨d, rfl⟩ := Nat.exists_eq_add_of_le hk
        have := hμ _ _ he
        have := mono m d
        omega
    | succ b ih =>
      intro m hm
      by_cases hx : ∃ k, m ≤ k ∧ ev k ≠ none
      · obtain ⟨k, hk, hne⟩ := hx
        obtain ⟨d, rfl⟩ := Nat.exists_eq_add_of_le hk
        cases he : ev (m + d) with
        | none => exact absurd he hne
        | some e =>
          have := hμ _ _ he
          have := mono m d
          exact ih (m + d + 1) (by omega)
      · exact ⟨m, fun k hk => Classical.byContradiction fun hne => hx ⟨k, hk, hne⟩⟩
  exact key _ 0 (Nat.le_refl _)

theorem inv {n cap : Nat} {st : Nat → St} {ev : Nat → Option Ev} (h : History (Step n cap) st ev) (h0 : st 0 = start) (m : Nat) : Inv n (st m) := by
  induction m with
  | zero => rw [h0]; exact Inv.start n
  | succ m ih =>
    cases he : ev m with
    | none => rw [Fair.same_of h he]; exact ih
    | some e => exact (ih.step (Fair.step_of h he)).1

end Mk
end Hound
