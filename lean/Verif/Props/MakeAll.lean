import Verif.Proofs.MakeAll
/-!
C103: the server starts.
-/

namespace Hound
namespace Mk
open Spec

/-- C103: if the limiter has room for one, all repositories are dealt with at some moment: `MakeAll` has returned with one outcome for each,
all goroutines have ended, and all tokens have been given back. -/
theorem all_made {n cap : Nat} (hc : 0 < cap) {st : Nat → St} {ev : Nat → Option Ev} (h : History (Step n cap) st ev) (h0 : st 0 = start)
    (hf : Fair n cap st ev) : ∃ K, ∀ m, K ≤ m → Done n (st m) := by
  have hi := inv h h0
  obtain ⟨K, hK⟩ := rests h (fun m => measure n (st m)) (fun m e he => ((hi m).step (Fair.step_of h he)).2)
    (fun m he => by rw [Fair.same_of h he])
  have same : ∀ d, st (K + d) = st K := by
    intro d
    induction d with
    | zero => rfl
    | succ d ih => rw [← Nat.add_assoc, Fair.same_of h (hK (K + d) (by omega))]; exact ih
  have done : Done n (st K) := by
    refine (hi K).stuck hc fun e t hs => ?_
    have absurd_ : ∀ own : Ev → Prop, own e → ¬ Moves (Step n cap) own st ev := fun own ho hm => by
      obtain ⟨m, hm, e', he', _⟩ := hm K (fun m hm => by
        obtain ⟨d, rfl⟩ := Nat.exists_eq_add_of_le hm
        exact ⟨e, t, ho, by rw [same d]; exact hs⟩)
      rw [hK m hm] at he'; cases he'
    cases e with
    | main => exact absurd_ (fun e => e = .main) rfl hf.main
    | worker i => exact absurd_ (fun e => e = .worker i) rfl (hf.worker i)
  refine ⟨K, fun m hm => ?_⟩
  obtain ⟨d, rfl⟩ := Nat.exists_eq_add_of_le hm
  rw [same d]; exact done

/-- The full property: the server starts with every configuration that can be loaded. -/
def StartsFull : Prop := ∀ c L, Config.load c = .ok L → Starts L

private theorem loaded_max {c : Config.Config} {L : Config.Loaded} (h : Config.load c = .ok L) :
    L.maxConcurrentIndexers = if c.maxConcurrentIndexers = 0 then 2 else c.maxConcurrentIndexers := by
  unfold Config.load at h
  split at h
  · cases h
  · split at h
    · cases h
    · injection h with h
      subst h
      rfl

/-- C103: the server starts with a configuration exactly if `max-concurrent-indexers` is not negative there. -/
theorem starts_exact {c : Config.Config} {L : Config.Loaded} (h : Config.load c = .ok L) : Starts L ↔ 0 ≤ c.maxConcurrentIndexers := by
  have hm := loaded_max h
  constructor
  · rintro ⟨cap, hcap, _⟩
    unfold limiterSize at hcap
    split at hcap
    · cases hcap
    · rename_i hneg
      rw [hm] at hneg
      split at hneg <;> omega
  · intro hc
    refine ⟨L.maxConcurrentIndexers.toNat, ?_, fun st ev hh h0 hf => all_made ?_ hh h0 hf⟩
    · unfold limiterSize
      rw [if_neg]
      rw [hm]; split <;> omega
    · rw [hm]; split <;> omega

/-- C103: the server starts with every configuration in which `max-concurrent-indexers` is not given, or is not negative. -/
theorem starts_partial {c : Config.Config} {L : Config.Loaded} (h : Config.load c = .ok L) (hc : 0 ≤ c.maxConcurrentIndexers) : Starts L :=
  (starts_exact h).2 hc

/-- With a negative number the program ends in a panic before any repository is looked at. -/
theorem not_startsFull : ¬ StartsFull := fun h => by
  have hc : Config.load { maxConcurrentIndexers := -1 } = .ok ⟨Config.defaultTitle, [], -1, Config.defaultHealthCheckURI, Config.defaultResultLimit⟩ := rfl
  have := (starts_exact hc).1 (h _ _ hc)
  simp at this

/-! ### Cases -/

/-- Two repositories, one at a time; the second cannot be made. -/
def caseEvents : List Ev :=
  [.main, .main, .worker 1, .worker 1, .main, .worker 1, .worker 1, .worker 0, .main, .worker 0, .worker 0, .main, .main, .worker 0]

theorem case_path : ∃ t, Fair.Path (Step 2 1) start caseEvents t ∧ t.main = .returned ∧ (∀ i, t.ws i = .none ∨ ∃ ok, t.ws i = .gone ok) ∧
    t.got = [(1, false), (0, true)] := by
  refine ⟨_, .cons (.spawn _ 0 rfl (by decide)) <| .cons (.spawn _ 1 rfl (by decide)) <| .cons (.acquire _ 1 rfl (by decide)) <|
    .cons (.make _ 1 false rfl) <| .cons (.spawned _ 2 rfl (by decide)) <| .cons (.send _ 1 false rfl (by decide)) <|
    .cons (.release _ 1 false rfl (by decide)) <| .cons (.acquire _ 0 rfl (by decide)) <|
    .cons (.receive _ 0 1 false [] rfl (by decide) rfl) <| .cons (.make _ 0 true rfl) <| .cons (.send _ 0 true rfl (by decide)) <|
    .cons (.receive _ 1 0 true [] rfl (by decide) rfl) <| .cons (.return _ 2 rfl (by decide)) <| .cons (.release _ 0 true rfl (by decide)) <| .nil _,
    rfl, ?_, rfl⟩
  intro i
  match i with
  | 0 => exact .inr ⟨true, rfl⟩
  | 1 => exact .inr ⟨false, rfl⟩
  | _ + 2 => exact .inl rfl

/-- The hypotheses of `all_made` are met by a history in which the goroutines wait for one another at the limiter. -/
theorem case_fair : ∃ st ev, History (Step 2 1) st ev ∧ st 0 = start ∧ Fair 2 1 st ev ∧ ∃ m, (st m).got = [(1, false), (0, true)] := by
  obtain ⟨t, hp, t1, t2, t3⟩ := case_path
  obtain ⟨st, h1, h2, h3⟩ := Fair.rest hp
  have none : ∀ own : Ev → Prop, (∀ e u, own e → ¬ Step 2 1 t e u) → Moves (Step 2 1) own st (fun n => caseEvents[n]?) := fun own hno n hn => by
    obtain ⟨e, u, h4, h5⟩ := hn (max n caseEvents.length) (by omega)
    rw [h3 _ (by omega)] at h5
    exact absurd h5 (hno e u h4)
  refine ⟨st, _, h1, h2, ⟨none _ fun e u ho hs => ?_, fun i => none _ fun e u ho hs => ?_⟩, caseEvents.length, by rw [h3 _ (Nat.le_refl _)]; exact t3⟩
  · cases ho; cases hs <;> simp_all
  · cases ho
    have := t2 i
    cases hs <;> simp_all

example : ∃ st ev, History (Step 2 1) st ev ∧ ∃ K, ∀ m, K ≤ m → Done 2 (st m) := by
  obtain ⟨st, ev, h1, h2, h3, _⟩ := case_fair
  exact ⟨st, ev, h1, all_made (by decide) h1 h2 h3⟩

/-- The size of the limiter that is not given is 2. -/
example : ∃ L, Config.load {} = .ok L ∧ Starts L ∧ limiterSize L.maxConcurrentIndexers = some 2 :=
  ⟨_, rfl, starts_partial (c := {}) rfl (by decide), rfl⟩

end Mk
end Hound
