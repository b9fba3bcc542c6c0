import Verif.Spec.Fan
import Verif.Props.LockWait
import Verif.Proofs.Sparse
/-! Lemmas for C102. -/

namespace Hound
namespace Fan
open Spec

/-- What is always so of a request. -/
structure RInv (q : Req) : Prop where
  spawn : ∀ j, q.main = .spawning j → j ≤ q.repos.length ∧ q.got = [] ∧ (∀ k, j ≤ k → q.gos k = .none) ∧ ∀ k, k < j → q.gos k ≠ .none
  all : (∀ j, q.main ≠ .spawning j) → ∀ k, k < q.repos.length → q.gos k ≠ .none
  none : ∀ k, q.repos.length ≤ k → q.gos k = .none
  once : (q.got ++ q.buf.map Prod.fst).Nodup
  sent : ∀ k, k ∈ q.got ++ q.buf.map Prod.fst ↔ ∃ err, q.gos k = .gone err
  buf : ∀ k err, (k, err) ∈ q.buf → q.gos k = .gone err
  waiting : ∀ k, q.main = .waiting k → q.got.length = k ∧ k ≤ q.repos.length ∧ ∀ j, j ∈ q.got → q.gos j = .gone false
  good : q.main = .answered true → q.got.length = q.repos.length ∧ ∀ j, j ∈ q.got → q.gos j = .gone false
  bad : q.main = .answered false → ∃ j, q.gos j = .gone true

theorem RInv.start (repos : List Nat) : RInv ⟨repos, .spawning 0, fun _ => .none, [], []⟩ := by
  constructor <;> simp

theorem RInv.spawnStep {q : Req} (h : RInv q) {j : Nat} (hm : q.main = .spawning j) (hj : j < q.repos.length) :
    RInv { q with main := .spawning (j + 1), gos := upd q.gos j .started } := by
  obtain ⟨h1, h2, h3, h4, h5, h6, h7, h8, h9⟩ := h
  have hj0 : q.gos j = .none := (h1 j hm).2.2.1 j (Nat.le_refl _)
  have := h1 j hm
  have ne : ∀ k err, q.gos k = .gone err → k ≠ j := by intro k err hk he; rw [he, hj0] at hk; cases hk
  refine ⟨?_, ?_, ?_, h4, ?_, ?_, ?_, ?_, ?_⟩
  · intro i hi
    simp only [Main.spawning.injEq] at hi
    subst hi
    refine ⟨hj, this.2.1, ?_, ?_⟩
    · intro k hk; simp only [upd]; rw [if_neg (by omega)]; exact this.2.2.1 k (by omega)
    · intro k hk; simp only [upd]; split
      · simp
      · exact this.2.2.2 k (by omega)
  · intro hh; exact absurd rfl (hh (j + 1))
  · intro k hk; simp only [upd] at *; rw [if_neg (by omega)]; exact h3 k hk
  · intro k
    simp only [upd]
    rw [h5 k]
    constructor
    · rintro ⟨e, he⟩; exact ⟨e, by rw [if_neg (ne k e he)]; exact he⟩
    · rintro ⟨e, he⟩
      split at he
      · cases he
      · exact ⟨e, he⟩
  · intro k e hk; simp only [upd]; rw [if_neg (ne k e (h6 k e hk))]; exact h6 k e hk
  · intro k hk; cases hk
  · intro hk; cases hk
  · intro hk; cases hk

theorem RInv.spawnedStep {q : Req} (h : RInv q) {j : Nat} (hm : q.main = .spawning j) (hj : q.repos.length ≤ j) :
    RInv { q with main := .waiting 0 } := by
  obtain ⟨h1, h2, h3, h4, h5, h6, h7, h8, h9⟩ := h
  have := h1 j hm
  refine ⟨?_, ?_, h3, h4, h5, h6, ?_, ?_, ?_⟩
  · intro i hi; cases hi
  · intro _ k hk; exact this.2.2.2 k (by simp only at hk; omega)
  · intro k hk; simp only [Main.waiting.injEq] at hk; subst hk
    simp [this.2.1]
  · intro hk; cases hk
  · intro hk; cases hk

theorem RInv.receiveStep {q : Req} (h : RInv q) {k j : Nat} {err : Bool} {rest : List (Nat × Bool)} (hm : q.main = .waiting k)
    (hk : k < q.repos.length) (hb : q.buf = (j, err) :: rest) : RInv (q.receive k j err rest) := by
  obtain ⟨h1, h2, h3, h4, h5, h6, h7, h8, h9⟩ := h
  have hj : q.gos j = .gone err := h6 j err (by simp [hb])
  have ⟨a1, a2, a3⟩ := h7 k hm
  refine ⟨?_, ?_, h3, ?_, ?_, ?_, ?_, ?_, ?_⟩
  · intro i hi; simp only [Req.receive] at hi; split at hi <;> cases hi
  · intro _; exact h2 (by rw [hm]; simp)
  · simpa [Req.receive, hb] using h4
  · intro x; have := h5 x; simpa [Req.receive, hb] using this
  · intro x e hx; exact h6 x e (by rw [hb]; exact List.mem_cons_of_mem _ hx)
  · intro i hi
    simp only [Req.receive] at hi ⊢
    split at hi
    · cases hi
    · rename_i he
      simp only [Main.waiting.injEq] at hi
      subst hi
      refine ⟨by simp [a1], hk, ?_⟩
      intro x hx
      rcases List.mem_append.1 hx with hx | hx
      · exact a3 x hx
      · simp only [List.mem_singleton] at hx; subst hx
        rw [hj]; simp at he; rw [he]
  · intro hi; simp only [Req.receive] at hi; split at hi <;> cases hi
  · intro hi
    simp only [Req.receive] at hi ⊢
    split at hi
    · rename_i he; exact ⟨j, by rw [hj, he]⟩
    · cases hi

theorem RInv.answerStep {q : Req} (h : RInv q) {k : Nat} (hm : q.main = .waiting k) (hk : q.repos.length ≤ k) :
    RInv { q with main := .answered true } := by
  obtain ⟨h1, h2, h3, h4, h5, h6, h7, h8, h9⟩ := h
  have ⟨a1, a2, a3⟩ := h7 k hm
  refine ⟨?_, ?_, h3, h4, h5, h6, ?_, ?_, ?_⟩
  · intro i hi; cases hi
  · intro _; exact h2 (by rw [hm]; simp)
  · intro i hi; cases hi
  · intro _; exact ⟨by simp only; omega, a3⟩
  · intro hi; cases hi

/-- A goroutine that has been started and has not sent goes on. -/
theorem RInv.goStep {q : Req} (h : RInv q) {j : Nat} {x : Go} (h0 : q.gos j ≠ .none) (hg : ∀ e, q.gos j ≠ .gone e) (hx : x ≠ .none)
    (hxg : ∀ e, x ≠ .gone e) : RInv { q with gos := upd q.gos j x } := by
  obtain ⟨h1, h2, h3, h4, h5, h6, h7, h8, h9⟩ := h
  have ne : ∀ k err, q.gos k = .gone err → k ≠ j := by intro k err hk he; rw [he] at hk; exact hg _ hk
  refine ⟨?_, ?_, ?_, h4, ?_, ?_, ?_, ?_, ?_⟩ <;> simp only [upd]
  · intro i hi
    obtain ⟨a, b, c, d⟩ := h1 i hi
    refine ⟨a, b, fun k hk => ?_, fun k hk => ?_⟩
    · by_cases hkj : k = j
      · subst hkj; exact absurd (c k hk) h0
      · rw [if_neg hkj]; exact c k hk
    · split
      · exact hx
      · exact d k hk
  · intro hh k hk; split
    · exact hx
    · exact h2 hh k hk
  · intro k hk
    by_cases hkj : k = j
    · subst hkj; exact absurd (h3 k hk) h0
    · rw [if_neg hkj]; exact h3 k hk
  · intro k
    rw [h5 k]
    constructor
    · rintro ⟨e, he⟩; exact ⟨e, by rw [if_neg (ne k e he)]; exact he⟩
    · rintro ⟨e, he⟩
      split at he
      · exact absurd he (hxg e)
      · exact ⟨e, he⟩
  · intro k e hk; rw [if_neg (ne k e (h6 k e hk))]; exact h6 k e hk
  · intro k hk
    obtain ⟨a, b, c⟩ := h7 k hk
    exact ⟨a, b, fun i hi => by rw [if_neg (ne i _ (c i hi))]; exact c i hi⟩
  · intro hk
    obtain ⟨a, c⟩ := h8 hk
    exact ⟨a, fun i hi => by rw [if_neg (ne i _ (c i hi))]; exact c i hi⟩
  · intro hk
    obtain ⟨i, hi⟩ := h9 hk
    exact ⟨i, by rw [if_neg (ne i _ hi)]; exact hi⟩

theorem RInv.sendStep {q : Req} (h : RInv q) {j : Nat} {err : Bool} (hj : q.gos j = .sending err) :
    RInv { q with gos := upd q.gos j (.gone err), buf := q.buf ++ [(j, err)] } := by
  obtain ⟨h1, h2, h3, h4, h5, h6, h7, h8, h9⟩ := h
  have ne : ∀ k err, q.gos k = .gone err → k ≠ j := by intro k err hk he; rw [he, hj] at hk; cases hk
  have h0 : q.gos j ≠ .none := by rw [hj]; simp
  have hnot : j ∉ q.got ++ q.buf.map Prod.fst := by
    rw [h5 j]; rintro ⟨e, he⟩; rw [hj] at he; cases he
  refine ⟨?_, ?_, ?_, ?_, ?_, ?_, ?_, ?_, ?_⟩ <;> simp only [upd]
  · intro i hi
    obtain ⟨a, b, c, d⟩ := h1 i hi
    refine ⟨a, b, fun k hk => ?_, fun k hk => ?_⟩
    · by_cases hkj : k = j
      · subst hkj; exact absurd (c k hk) h0
      · rw [if_neg hkj]; exact c k hk
    · split
      · simp
      · exact d k hk
  · intro hh k hk; split
    · simp
    · exact h2 hh k hk
  · intro k hk
    by_cases hkj : k = j
    · subst hkj; exact absurd (h3 k hk) h0
    · rw [if_neg hkj]; exact h3 k hk
  · rw [List.map_append, ← List.append_assoc]
    refine List.nodup_append.2 ⟨h4, by simp, ?_⟩
    intro a ha b hb
    simp only [List.map_cons, List.map_nil, List.mem_singleton] at hb
    subst hb
    intro he
    exact hnot (he ▸ ha)
  · intro k
    rw [List.map_append, ← List.append_assoc, List.mem_append, h5 k]
    simp only [List.map_cons, List.map_nil, List.mem_singleton]
    by_cases hkj : k = j
    · simp [hkj]
    · simp [hkj]
  · intro k e hk
    rcases List.mem_append.1 hk with hk | hk
    · rw [if_neg (ne k e (h6 k e hk))]; exact h6 k e hk
    · simp only [List.mem_singleton, Prod.mk.injEq] at hk
      rw [if_pos hk.1, hk.2]
  · intro k hk
    obtain ⟨a, b, c⟩ := h7 k hk
    exact ⟨a, b, fun i hi => by rw [if_neg (ne i _ (c i hi))]; exact c i hi⟩
  · intro hk
    obtain ⟨a, c⟩ := h8 hk
    exact ⟨a, fun i hi => by rw [if_neg (ne i _ (c i hi))]; exact c i hi⟩
  · intro hk
    obtain ⟨i, hi⟩ := h9 hk
    exact ⟨i, by rw [if_neg (ne i _ hi)]; exact hi⟩

/-- There is room in the channel for whoever wants to send. -/
theorem RInv.room {q : Req} (h : RInv q) {j : Nat} {err : Bool} (hj : q.gos j = .sending err) : q.buf.length < q.repos.length := by
  have hnot : j ∉ q.got ++ q.buf.map Prod.fst := by
    rw [h.sent j]; rintro ⟨e, he⟩; rw [hj] at he; cases he
  have lt : ∀ k, q.gos k ≠ .none → k < q.repos.length := fun k hk =>
    Nat.not_le.1 fun hh => hk (h.none k hh)
  have := SSet.length_le_of_nodup_bound q.repos.length (j :: (q.got ++ q.buf.map Prod.fst)) (List.nodup_cons.2 ⟨hnot, h.once⟩) (by
    intro x hx
    rcases List.mem_cons.1 hx with hx | hx
    · subst hx; exact lt x (by rw [hj]; simp)
    · obtain ⟨e, he⟩ := (h.sent x).1 hx
      exact lt x (by rw [he]; simp))
  simp at this
  omega

/-- If all have sent, all that was not received is in the channel. -/
theorem RInv.full {q : Req} (h : RInv q) (ha : ∀ j, j < q.repos.length → ∃ err, q.gos j = .gone err) :
    q.repos.length ≤ q.got.length + q.buf.length := by
  have := (List.nodup_range (n := q.repos.length)).length_le_of_subset (l₂ := q.got ++ q.buf.map Prod.fst) (fun k hk =>
    (h.sent k).2 (ha k (List.mem_range.1 hk)))
  simpa using this

/-! ### The server -/

/-- What is always so. -/
structure Inv (s : St) : Prop where
  req : ∀ r, r < s.made → RInv (s.reqs r)
  locks : ∀ i, Lw.Inv (s.locks i)
  owner : ∀ i n, n < (s.locks i).made → (s.locks i).place n = .ended ∨
    ∃ r j, r < s.made ∧ (s.reqs r).repos[j]? = some i ∧ (s.reqs r).gos j = .searching n
  number : ∀ r j i n, r < s.made → (s.reqs r).repos[j]? = some i → (s.reqs r).gos j = .searching n → n < (s.locks i).made

theorem lw_made {l l' : Lw.St} {e : Lw.Ev} (h : Lw.Step l e l') : l.made ≤ l'.made := by
  cases h <;> simp

theorem lw_made' {l l' : Lw.St} {e : Lw.Ev} (h : Lw.Step l e l') (hn : ∀ n, e ≠ .call n) : l'.made = l.made := by
  cases h <;> simp_all

theorem lw_ended {l l' : Lw.St} {e : Lw.Ev} {n : Nat} (h : Lw.Step l e l') (hi : Lw.Inv l) (hn : l.place n = .ended) : l'.place n = .ended := by
  obtain ⟨h1, h2, h3, h4, h5, h6⟩ := hi
  cases h with
  | call => grind [Lw.put]
  | enter k => grind [Lw.put]
  | ends k => grind [Lw.put]
  | closeOld => grind [Lw.admitOwn]
  | leave => grind [Lw.admitLive]
  | closeNew => grind [Lw.admitOwn]
  | _ => simpa using hn

theorem Inv.start : Inv start := by
  refine ⟨?_, fun _ => Lw.Inv.start, ?_, ?_⟩ <;> simp [Fan.start, Lw.start]

/-- A step that changes one request only, keeping its searches. -/
theorem Inv.change {s : St} (h : Inv s) {r : Nat} (hr : r < s.made) {q : Req} (hq : RInv q) (hrep : q.repos = (s.reqs r).repos)
    (h1 : ∀ j n, (s.reqs r).gos j = .searching n → q.gos j = .searching n ∨
      ∀ i, (s.reqs r).repos[j]? = some i → (s.locks i).place n = .ended)
    (h2 : ∀ j n, q.gos j = .searching n → (s.reqs r).gos j = .searching n) : Inv { s with reqs := upd s.reqs r q } := by
  obtain ⟨a, b, c, d⟩ := h
  refine ⟨?_, b, ?_, ?_⟩
  · intro k hk
    simp only [upd]; split
    · exact hq
    · exact a k hk
  · intro i n hn
    rcases c i n hn with hc | ⟨r', j, c1, c2, c3⟩
    · exact .inl hc
    · by_cases hr' : r' = r
      · subst hr'
        rcases h1 j n c3 with h4 | h4
        · exact .inr ⟨r', j, c1, by simp only [upd, if_true]; rw [hrep]; exact c2, by simp only [upd, if_true]; exact h4⟩
        · exact .inl (h4 i c2)
      · exact .inr ⟨r', j, c1, by simp only [upd, if_neg hr']; exact c2, by simp only [upd, if_neg hr']; exact c3⟩
  · intro r' j i n hk h5 h6
    simp only [upd] at h5 h6
    by_cases hr' : r' = r
    · subst hr'
      rw [if_pos rfl] at h5 h6
      rw [hrep] at h5
      exact d r' j i n hk h5 (h2 j n h6)
    · rw [if_neg hr'] at h5 h6
      exact d r' j i n hk h5 h6

/-- A step at the locks of one repository. -/
theorem Inv.lockStep {s : St} (h : Inv s) {i : Nat} {e : Lw.Ev} {l : Lw.St} (hl : Lw.Step (s.locks i) e l) (hn : ∀ n, e ≠ .call n) :
    Inv { s with locks := upd s.locks i l } := by
  obtain ⟨a, b, c, d⟩ := h
  have hm := lw_made' hl hn
  refine ⟨a, ?_, ?_, ?_⟩
  · intro k; simp only [upd]; split
    · exact (b i).step hl
    · exact b k
  · intro k n hk
    simp only [upd] at hk ⊢
    by_cases hki : k = i
    · subst hki
      rw [if_pos rfl, hm] at hk
      rw [if_pos rfl]
      rcases c k n hk with hc | hc
      · exact .inl (lw_ended hl (b k) hc)
      · exact .inr hc
    · rw [if_neg hki] at hk ⊢
      exact c k n hk
  · intro r j k n h1 h2 h3
    have := d r j k n h1 h2 h3
    simp only [upd]; split
    · rename_i hki; subst hki; rw [hm]; exact this
    · exact this

theorem Inv.step {s t : St} {e : Ev} (h : Inv s) (hs : Step s e t) : Inv t := by
  cases hs with
  | request repos =>
    obtain ⟨a, b, c, d⟩ := h
    refine ⟨?_, b, ?_, ?_⟩
    · intro r hr
      simp only [upd]; split
      · exact RInv.start repos
      · exact a r (by simp only at hr; omega)
    · intro i n hn
      rcases c i n hn with hc | ⟨r, j, c1, c2, c3⟩
      · exact .inl hc
      · have : r ≠ s.made := by omega
        exact .inr ⟨r, j, by simp only; omega, by simp only [upd, if_neg this]; exact c2, by simp only [upd, if_neg this]; exact c3⟩
    · intro r j i n hr h1 h2
      simp only [upd] at h1 h2 hr
      by_cases hr' : r = s.made
      · rw [if_pos hr'] at h2; cases h2
      · rw [if_neg hr'] at h1 h2; exact d r j i n (by omega) h1 h2
  | spawn r j hr hm hj =>
    have hq := h.req r hr
    have h0 := (hq.spawn j hm).2.2.1 j (Nat.le_refl _)
    refine h.change hr (hq.spawnStep hm hj) rfl ?_ ?_
    · intro k n hk; refine .inl ?_; simp only [upd]; split
      · rename_i he; rw [he, h0] at hk; cases hk
      · exact hk
    · intro k n hk; simp only [upd] at hk; split at hk
      · cases hk
      · exact hk
  | spawned r j hr hm hj => exact h.change hr ((h.req r hr).spawnedStep hm hj) rfl (fun _ _ h => .inl h) (fun _ _ h => h)
  | receive r k j err rest hr hm hk hb => exact h.change hr ((h.req r hr).receiveStep hm hk hb) rfl (fun _ _ h => .inl h) (fun _ _ h => h)
  | answer r k hr hm hk => exact h.change hr ((h.req r hr).answerStep hm hk) rfl (fun _ _ h => .inl h) (fun _ _ h => h)
  | call r j i n l hr hg hi hl =>
    have hnm : n = (s.locks i).made ∧ l.made = (s.locks i).made + 1 := by cases hl; simp
    obtain ⟨a, b, c, d⟩ := h
    refine ⟨?_, ?_, ?_, ?_⟩
    · intro k hk
      simp only [upd]; split
      · exact (a r hr).goStep (by rw [hg]; simp) (by rw [hg]; simp) (by simp) (by simp)
      · exact a k hk
    · intro k; simp only [upd]; split
      · exact (b i).step hl
      · exact b k
    · intro k m hk
      have old : m < (s.locks k).made → (upd s.locks i l k).place m = .ended ∨ ∃ r' j', r' < s.made ∧
          (upd s.reqs r { s.reqs r with gos := upd (s.reqs r).gos j (.searching n) } r').repos[j']? = some k ∧
          (upd s.reqs r { s.reqs r with gos := upd (s.reqs r).gos j (.searching n) } r').gos j' = .searching m := by
        intro hk
        rcases c k m hk with hc | ⟨r', j', c1, c2, c3⟩
        · left; simp only [upd]; split
          · rename_i hki; subst hki; exact lw_ended hl (b k) hc
          · exact hc
        · right
          refine ⟨r', j', c1, ?_, ?_⟩
          · simp only [upd]; split
            · rename_i hh; subst hh; exact c2
            · exact c2
          · simp only [upd]; split
            · rename_i hh; subst hh
              by_cases hjj : j' = j
              · subst hjj; rw [hg] at c3; cases c3
              · simp only [upd, if_neg hjj]; exact c3
            · exact c3
      by_cases hki : k = i
      · subst hki
        have hk' : m < l.made := by simpa [upd] using hk
        by_cases hmn : m = n
        · subst hmn
          exact .inr ⟨r, j, hr, by simp [upd, hi], by simp [upd]⟩
        · exact old (by omega)
      · exact old (by simpa [upd, hki] using hk)
    · intro r' j' k m hr' h1 h2
      have hmono : (s.locks k).made ≤ (upd s.locks i l k).made := by
        simp only [upd]; split
        · rename_i hki; subst hki; omega
        · exact Nat.le_refl _
      simp only [upd] at h1 h2
      split at h1
      · rename_i hh; subst hh
        rw [if_pos rfl] at h2
        simp only [upd] at h1 h2
        split at h2
        · rename_i hjj; subst hjj
          rw [hi] at h1
          injection h1 with h1; subst h1
          injection h2 with h2; subst h2
          simp [upd]; omega
        · exact Nat.lt_of_lt_of_le (d r' j' k m hr' h1 h2) hmono
      · rename_i hh
        rw [if_neg hh] at h2
        exact Nat.lt_of_lt_of_le (d r' j' k m hr' h1 h2) hmono
  | run r j i n l hr hg hi hl => exact h.lockStep hl (by simp)
  | found r j i n err hr hg hi he =>
    refine h.change hr ((h.req r hr).goStep (by rw [hg]; simp) (by rw [hg]; simp) (by simp) (by simp)) rfl ?_ ?_
    · intro k m hk
      by_cases hkj : k = j
      · subst hkj
        rw [hg] at hk; injection hk with hk; subst hk
        right; intro i' hi'; rw [hi] at hi'; injection hi' with hi'; subst hi'; exact he
      · left; simp only [upd, if_neg hkj]; exact hk
    · intro k m hk; simp only [upd] at hk; split at hk
      · cases hk
      · exact hk
  | send r j err hr hg hb =>
    refine h.change hr ((h.req r hr).sendStep hg) rfl ?_ ?_
    · intro k m hk
      left; simp only [upd]; split
      · rename_i hkj; subst hkj; rw [hg] at hk; cases hk
      · exact hk
    · intro k m hk; simp only [upd] at hk; split at hk
      · cases hk
      · exact hk
  | own i e l he hl => exact h.lockStep hl (by rcases he with rfl | rfl <;> simp)

/-! ### Histories -/

section
variable {st : Nat → St} {ev : Nat → Option Ev}

theorem inv (h : History Step st ev) (h0 : st 0 = start) (n : Nat) : Inv (st n) := by
  induction n with
  | zero => rw [h0]; exact Inv.start
  | succ n ih =>
    cases he : ev n with
    | none => rw [Fair.same_of h he]; exact ih
    | some e => exact ih.step (Fair.step_of h he)

/-- What can always be done and stays so is done. -/
theorem leads (h : History Step st ev) (hi : ∀ n, Inv (st n)) {own : Ev → Prop} (hf : Moves Step own st ev)
    (P : St → Prop) (en : ∀ s, Inv s → P s → ∃ e t, own e ∧ Step s e t)
    (stay : ∀ s e t, Inv s → Step s e t → P s → ¬ own e → P t) {m : Nat} (hm : P (st m)) :
    ∃ k, m ≤ k ∧ P (st k) ∧ ∃ e, ev k = some e ∧ own e ∧ Step (st k) e (st (k + 1)) := by
  apply Classical.byContradiction
  intro hc
  have all : ∀ d, P (st (m + d)) := by
    intro d
    induction d with
    | zero => exact hm
    | succ d ih =>
      cases he : ev (m + d) with
      | none => rw [← Nat.add_assoc, Fair.same_of h he]; exact ih
      | some e =>
        have hs := Fair.step_of h he
        by_cases ho : own e
        · exact absurd ⟨m + d, by omega, ih, e, he, ho, hs⟩ hc
        · exact stay _ _ _ (hi _) hs ih ho
  obtain ⟨k, hk, e, he, ho⟩ := hf m (fun k hk => by
    obtain ⟨d, rfl⟩ := Nat.exists_eq_add_of_le hk
    exact en _ (hi _) (all d))
  obtain ⟨d, rfl⟩ := Nat.exists_eq_add_of_le hk
  exact hc ⟨m + d, by omega, all d, e, he, ho, Fair.step_of h he⟩

/-- What happens at repository `i`. -/
def atRepo (i : Nat) : Option Ev → Option Lw.Ev
  | some (.lock _ _ k e) => if k = i then some e else none
  | some (.own k e) => if k = i then some e else none
  | _ => none

theorem step_repo {s t : St} {e : Ev} (h : Step s e t) (i : Nat) : match atRepo i (some e) with
    | some x => Lw.Step (s.locks i) x (t.locks i)
    | none => t.locks i = s.locks i := by
  cases h with
  | call r j k n l _ _ _ hl =>
    by_cases hk : k = i
    · subst hk; simpa [atRepo, upd] using hl
    · simp [atRepo, upd, hk, Ne.symm hk]
  | run r j k n l _ _ _ hl =>
    by_cases hk : k = i
    · subst hk; simpa [atRepo, upd] using hl
    · simp [atRepo, upd, hk, Ne.symm hk]
  | own k x l _ hl =>
    by_cases hk : k = i
    · subst hk; simpa [atRepo, upd] using hl
    · simp [atRepo, upd, hk, Ne.symm hk]
  | _ => simp [atRepo]

/-- The history of one repository. -/
theorem repo_history (h : History Step st ev) (i : Nat) : History Lw.Step (fun n => (st n).locks i) (fun n => atRepo i (ev n)) := by
  intro n
  cases he : ev n with
  | none => simp only [he, atRepo]; rw [Fair.same_of h he]
  | some e =>
    have := step_repo (Fair.step_of h he) i
    simp only [he]
    cases hx : atRepo i (some e) <;> simp only [hx] at this ⊢ <;> exact this

/-- What a goroutine does does not change what the others are at. -/
theorem go_kept {s t : St} {e : Ev} {r j : Nat} (hs : Step s e t) (hr : r < s.made) (ho : ¬ isGo r j e) (hn : (s.reqs r).gos j ≠ .none)
    (hi : Inv s) : (t.reqs r).gos j = (s.reqs r).gos j ∧ (t.reqs r).repos = (s.reqs r).repos ∧ r < t.made := by
  cases hs with
  | request repos =>
    have : r ≠ s.made := by omega
    simp only [upd, if_neg this]; exact ⟨trivial, trivial, by omega⟩
  | spawn r' j' hr' hm hj =>
    by_cases hrr : r = r'
    · subst hrr
      have h0 := ((hi.req r hr).spawn j' hm).2.2.1 j' (Nat.le_refl _)
      have : j ≠ j' := fun he => hn (he ▸ h0)
      simp only [upd, if_true, if_neg this]; exact ⟨trivial, trivial, hr⟩
    · simp only [upd, if_neg hrr]; exact ⟨trivial, trivial, hr⟩
  | spawned r' j' hr' hm hj =>
    simp only [upd]; split
    · rename_i hh; subst hh; exact ⟨rfl, rfl, hr⟩
    · exact ⟨rfl, rfl, hr⟩
  | receive r' k j' err rest hr' hm hk hb =>
    simp only [upd, Req.receive]; split
    · rename_i hh; subst hh; exact ⟨rfl, rfl, hr⟩
    · exact ⟨rfl, rfl, hr⟩
  | answer r' k hr' hm hk =>
    simp only [upd]; split
    · rename_i hh; subst hh; exact ⟨rfl, rfl, hr⟩
    · exact ⟨rfl, rfl, hr⟩
  | call r' j' i n l hr' hg hi' hl =>
    simp only [upd]; split
    · rename_i hh; subst hh
      have : j ≠ j' := fun he => ho (.inl ⟨i, .call n, by rw [he]⟩)
      simp only [upd, if_neg this]; exact ⟨trivial, trivial, hr⟩
    · exact ⟨rfl, rfl, hr⟩
  | run => exact ⟨rfl, rfl, hr⟩
  | found r' j' i n err hr' hg hi' he =>
    simp only [upd]; split
    · rename_i hh; subst hh
      have : j ≠ j' := fun he => ho (.inr (.inl ⟨err, by rw [he]⟩))
      simp only [upd, if_neg this]; exact ⟨trivial, trivial, hr⟩
    · exact ⟨rfl, rfl, hr⟩
  | send r' j' err hr' hg hb =>
    simp only [upd]; split
    · rename_i hh; subst hh
      have : j ≠ j' := fun he => ho (.inr (.inr (by rw [he])))
      simp only [upd, if_neg this]; exact ⟨trivial, trivial, hr⟩
    · exact ⟨rfl, rfl, hr⟩
  | own => exact ⟨rfl, rfl, hr⟩

/-- Requests keep what they are for, and what their goroutine is at unless it goes on itself. -/
theorem req_kept {s t : St} {e : Ev} {r : Nat} (hs : Step s e t) (hr : r < s.made) :
    (t.reqs r).repos = (s.reqs r).repos ∧ r < t.made ∧ (¬ isMain r e → (t.reqs r).main = (s.reqs r).main) := by
  cases hs with
  | request repos =>
    have : r ≠ s.made := by omega
    simp only [upd, if_neg this]; exact ⟨trivial, by omega, fun _ => trivial⟩
  | run => exact ⟨rfl, hr, fun _ => rfl⟩
  | own => exact ⟨rfl, hr, fun _ => rfl⟩
  | spawn r' | spawned r' | receive r' | answer r' =>
    simp only [upd, Req.receive]; split
    · rename_i hh; subst hh; exact ⟨rfl, hr, fun hn => absurd rfl hn⟩
    · exact ⟨rfl, hr, fun _ => rfl⟩
  | call r' | found r' | send r' =>
    simp only [upd]; split
    · rename_i hh; subst hh; exact ⟨rfl, hr, fun _ => rfl⟩
    · exact ⟨rfl, hr, fun _ => rfl⟩

/-- Who has sent has ended. -/
theorem gone_kept {s t : St} {e : Ev} {r j : Nat} {err : Bool} (hs : Step s e t) (hi : Inv s) (hr : r < s.made)
    (hg : (s.reqs r).gos j = .gone err) : (t.reqs r).gos j = .gone err := by
  by_cases ho : isGo r j e
  · rcases ho with ⟨i, x, rfl⟩ | ⟨b, rfl⟩ | rfl <;> cases hs <;> simp_all
  · rw [(go_kept hs hr ho (by rw [hg]; simp) hi).1]; exact hg

theorem answered_kept {s t : St} {e : Ev} {r : Nat} {ok : Bool} (hs : Step s e t) (hr : r < s.made)
    (hg : (s.reqs r).main = .answered ok) : (t.reqs r).main = .answered ok := by
  by_cases ho : isMain r e
  · cases ho; cases hs <;> simp_all
  · rw [(req_kept hs hr).2.2 ho]; exact hg

/-- What stays so. -/
theorem stays (h : History Step st ev) (hi : ∀ n, Inv (st n)) (P : St → Prop) (hp : ∀ s e t, Inv s → Step s e t → P s → P t) {m k : Nat}
    (hk : m ≤ k) (hm : P (st m)) : P (st k) := by
  obtain ⟨d, rfl⟩ := Nat.exists_eq_add_of_le hk
  clear hk
  induction d with
  | zero => exact hm
  | succ d ih =>
    cases he : ev (m + d) with
    | none => rw [← Nat.add_assoc, Fair.same_of h he]; exact ih
    | some e => exact hp _ _ _ (hi _) (Fair.step_of h he) ih

/-- The scheduler is fair to each repository. -/
theorem repo_fair (h : History Step st ev) (h0 : st 0 = start) (hf : Fan.Fair st ev) (i : Nat) :
    Lw.FairLocks (fun n => (st n).locks i) (fun n => atRepo i (ev n)) := by
  have hi := inv h h0
  refine ⟨fun n hn => ?_, fun q n hn => ?_⟩
  · obtain ⟨m, hm, e, he, ho⟩ := hf.poll i n (fun m hm => by
      obtain ⟨e, t, ho, hs⟩ := hn m hm
      cases ho
      exact ⟨_, _, rfl, .own (st m) i .poller t (.inr rfl) hs⟩)
    cases ho
    exact ⟨m, hm, .poller, by simp [he, atRepo], rfl⟩
  · have live : ∀ m, n ≤ m → ((st m).locks i).place q ≠ .ended ∧ ((st m).locks i).place q ≠ .none := by
      intro m hm
      obtain ⟨e, t, ho, hs⟩ := hn m hm
      cases ho
      generalize (st m).locks i = l at hs
      cases hs <;> simp_all
    have hmade : q < ((st n).locks i).made := Nat.not_le.1 fun hh => (live n (Nat.le_refl _)).2 (((hi n).locks i).made q hh)
    rcases (hi n).owner i q hmade with hc | ⟨r, j, c1, c2, c3⟩
    · exact absurd hc (live n (Nat.le_refl _)).1
    · have all : ∀ d, r < (st (n + d)).made ∧ ((st (n + d)).reqs r).repos[j]? = some i ∧ ((st (n + d)).reqs r).gos j = .searching q := by
        intro d
        induction d with
        | zero => exact ⟨c1, c2, c3⟩
        | succ d ih =>
          cases he : ev (n + d) with
          | none => rw [← Nat.add_assoc, Fair.same_of h he]; exact ih
          | some e =>
            have hs := Fair.step_of h he
            have hl := (live (n + d) (by omega)).1
            have hrk := req_kept hs ih.1
            rw [← Nat.add_assoc]
            refine ⟨hrk.2.1, by rw [hrk.1]; exact ih.2.1, ?_⟩
            by_cases ho : isGo r j e
            · generalize st (n + d + 1) = t at hs
              generalize st (n + d) = s at hs hl ih
              rcases ho with ⟨i', x, rfl⟩ | ⟨b, rfl⟩ | rfl
              · cases hs with
                | call _ _ _ _ _ _ hg => rw [ih.2.2] at hg; cases hg
                | run => exact ih.2.2
              · cases hs with
                | found _ _ _ _ _ _ hg hi'' he'' =>
                  rw [ih.2.2] at hg; injection hg with hg; subst hg
                  rw [ih.2.1] at hi''; injection hi'' with hi''; subst hi''
                  exact absurd he'' hl
              · cases hs with
                | send _ _ _ _ hg => rw [ih.2.2] at hg; cases hg
            · rw [(go_kept hs ih.1 ho (by rw [ih.2.2]; simp) (hi _)).1]; exact ih.2.2
      obtain ⟨m, hm, e, he, ho⟩ := hf.go r j n (fun m hm => by
        obtain ⟨d, rfl⟩ := Nat.exists_eq_add_of_le hm
        obtain ⟨e, t, ho, hs⟩ := hn (n + d) hm
        cases ho
        exact ⟨_, _, .inl ⟨i, .search q, rfl⟩, .run (st (n + d)) r j i q t (all d).1 (all d).2.2 (all d).2.1 hs⟩)
      obtain ⟨d, rfl⟩ := Nat.exists_eq_add_of_le hm
      refine ⟨n + d, hm, .search q, ?_, rfl⟩
      have hs := Fair.step_of h he
      have ih := all d
      have hl := (live (n + d) (by omega)).1
      generalize st (n + d + 1) = t at hs
      generalize st (n + d) = s at hs hl ih
      rcases ho with ⟨i', x, rfl⟩ | ⟨b, rfl⟩ | rfl
      · cases hs with
        | call _ _ _ _ _ _ hg => rw [ih.2.2] at hg; cases hg
        | run _ _ _ _ _ _ hg hi'' =>
          rw [ih.2.2] at hg; injection hg with hg; subst hg
          rw [ih.2.1] at hi''; injection hi'' with hi''; subst hi''
          simp [he, atRepo]
      · cases hs with
        | found _ _ _ _ _ _ hg hi'' he'' =>
          rw [ih.2.2] at hg; injection hg with hg; subst hg
          rw [ih.2.1] at hi''; injection hi'' with hi''; subst hi''
          exact absurd he'' hl
      · cases hs with
        | send _ _ _ _ hg => rw [ih.2.2] at hg; cases hg

/-- Who wants to send sends. -/
theorem sending_goes (h : History Step st ev) (hi : ∀ n, Inv (st n)) (hf : Fan.Fair st ev) {m r j : Nat} {err : Bool} (hr : r < (st m).made)
    (hg : ((st m).reqs r).gos j = .sending err) : ∃ k, m ≤ k ∧ ∃ e, ((st k).reqs r).gos j = .gone e := by
  obtain ⟨k, hk, ⟨p1, p2⟩, e, he, ho, hs⟩ := leads h hi (hf.go r j) (fun s => r < s.made ∧ (s.reqs r).gos j = .sending err)
    (fun s hI hp => ⟨_, _, .inr (.inr rfl), .send s r j err hp.1 hp.2 ((hI.req r hp.1).room hp.2)⟩)
    (fun s e t hI hs hp ho => by
      have := go_kept hs hp.1 ho (by rw [hp.2]; simp) hI
      exact ⟨this.2.2, this.1.trans hp.2⟩) ⟨hr, hg⟩
  refine ⟨k + 1, by omega, ?_⟩
  generalize st (k + 1) = t at hs
  generalize st k = s at hs p1 p2
  rcases ho with ⟨i', x, rfl⟩ | ⟨b, rfl⟩ | rfl
  · cases hs <;> simp_all
  · cases hs <;> simp_all
  · cases hs with
    | send _ _ err' => exact ⟨err', by simp [upd]⟩

/-- Who searches gets an answer and sends it. -/
theorem searching_goes (h : History Step st ev) (h0 : st 0 = start) (hf : Fan.Fair st ev) {m r j n : Nat} (hr : r < (st m).made)
    (hg : ((st m).reqs r).gos j = .searching n) : ∃ k, m ≤ k ∧ ∃ e, ((st k).reqs r).gos j = .gone e := by
  have hi := inv h h0
  have hj : j < ((st m).reqs r).repos.length := Nat.not_le.1 fun hh => by
    have := ((hi m).req r hr).none j hh
    rw [hg] at this; cases this
  obtain ⟨i, hij⟩ : ∃ i, ((st m).reqs r).repos[j]? = some i := ⟨_, List.getElem?_eq_getElem hj⟩
  have hn := (hi m).number r j i n hr hij hg
  obtain ⟨K, hK, hend⟩ := Lw.search_ends (repo_history h i) (by simp [h0, start]) (repo_fair h h0 hf i) m n hn
  have until_ : ∀ d, (r < (st (m + d)).made ∧ ((st (m + d)).reqs r).repos[j]? = some i ∧ ((st (m + d)).reqs r).gos j = .searching n) ∨
      ∃ k, m ≤ k ∧ r < (st k).made ∧ ∃ e, ((st k).reqs r).gos j = .sending e := by
    intro d
    induction d with
    | zero => exact .inl ⟨hr, hij, hg⟩
    | succ d ih =>
      rcases ih with ih | ih
      · cases he : ev (m + d) with
        | none => rw [← Nat.add_assoc, Fair.same_of h he]; exact .inl ih
        | some e =>
          have hs := Fair.step_of h he
          have hrk := req_kept hs ih.1
          rw [← Nat.add_assoc]
          by_cases ho : isGo r j e
          · have key : ((st (m + d + 1)).reqs r).gos j = .searching n ∨ ∃ e, ((st (m + d + 1)).reqs r).gos j = .sending e := by
              generalize st (m + d + 1) = t at hs
              generalize st (m + d) = s at hs ih
              rcases ho with ⟨i', x, rfl⟩ | ⟨b, rfl⟩ | rfl
              · cases hs with
                | call _ _ _ _ _ _ hg => rw [ih.2.2] at hg; cases hg
                | run => exact .inl ih.2.2
              · cases hs with
                | found i'' n'' => exact .inr ⟨b, by simp [upd]⟩
              · cases hs with
                | send _ _ _ _ hg => rw [ih.2.2] at hg; cases hg
            rcases key with key | key
            · exact .inl ⟨hrk.2.1, by rw [hrk.1]; exact ih.2.1, key⟩
            · exact .inr ⟨m + d + 1, by omega, hrk.2.1, key⟩
          · have := go_kept hs ih.1 ho (by rw [ih.2.2]; simp) (hi _)
            exact .inl ⟨hrk.2.1, by rw [hrk.1]; exact ih.2.1, this.1.trans ih.2.2⟩
      · exact .inr ih
  have snd : ∃ k, m ≤ k ∧ r < (st k).made ∧ ∃ e, ((st k).reqs r).gos j = .sending e := by
    obtain ⟨d, rfl⟩ := Nat.exists_eq_add_of_le hK
    rcases until_ d with hu | hu
    · obtain ⟨k, hk, ⟨p1, p2, p3, p4⟩, e, he, ho, hs⟩ := leads h hi (hf.go r j)
        (fun s => r < s.made ∧ (s.reqs r).repos[j]? = some i ∧ (s.reqs r).gos j = .searching n ∧ (s.locks i).place n = .ended)
        (fun s hI hp => ⟨_, _, .inr (.inl ⟨false, rfl⟩), .found s r j i n false hp.1 hp.2.2.1 hp.2.1 hp.2.2.2⟩)
        (fun s e t hI hs hp ho => by
          have h1 := go_kept hs hp.1 ho (by rw [hp.2.2.1]; simp) hI
          refine ⟨h1.2.2, by rw [h1.2.1]; exact hp.2.1, h1.1.trans hp.2.2.1, ?_⟩
          have h2 := step_repo hs i
          cases hx : atRepo i (some e) with
          | none => simp only [hx] at h2; rw [h2]; exact hp.2.2.2
          | some x => simp only [hx] at h2; exact lw_ended h2 (hI.locks i) hp.2.2.2) ⟨hu.1, hu.2.1, hu.2.2, hend⟩
      have hrk := req_kept hs p1
      refine ⟨k + 1, by omega, hrk.2.1, ?_⟩
      generalize st (k + 1) = t at hs
      generalize st k = s at hs p1 p2 p3 p4
      rcases ho with ⟨i', x, rfl⟩ | ⟨b, rfl⟩ | rfl
      · cases hs with
        | call _ _ _ _ _ _ hg => rw [p3] at hg; cases hg
        | run _ _ _ _ _ _ hg hi' hl =>
          rw [p3] at hg; injection hg with hg; subst hg
          rw [p2] at hi'; injection hi' with hi'; subst hi'
          cases hl <;> simp_all
      · cases hs with
        | found i'' n'' => exact ⟨b, by simp [upd]⟩
      · cases hs with
        | send _ _ _ _ hg => rw [p3] at hg; cases hg
    · exact hu
  obtain ⟨k, hk, h1, e, h2⟩ := snd
  obtain ⟨k', hk', h3⟩ := sending_goes h hi hf h1 h2
  exact ⟨k', by omega, h3⟩

/-- Every goroutine that was started ends. -/
theorem started_ends (h : History Step st ev) (h0 : st 0 = start) (hf : Fan.Fair st ev) {m r j : Nat} (hr : r < (st m).made)
    (hg : ((st m).reqs r).gos j ≠ .none) : ∃ k, m ≤ k ∧ ∃ e, ((st k).reqs r).gos j = .gone e := by
  have hi := inv h h0
  cases hx : ((st m).reqs r).gos j with
  | none => exact absurd hx hg
  | gone e => exact ⟨m, Nat.le_refl _, e, hx⟩
  | sending e => exact sending_goes h hi hf hr hx
  | searching n => exact searching_goes h h0 hf hr hx
  | started =>
    obtain ⟨k, hk, ⟨p1, p2⟩, e, he, ho, hs⟩ := leads h hi (hf.go r j) (fun s => r < s.made ∧ (s.reqs r).gos j = .started)
      (fun s hI hp => by
        have hj : j < (s.reqs r).repos.length := Nat.not_le.1 fun hh => by
          have := (hI.req r hp.1).none j hh
          rw [hp.2] at this; cases this
        exact ⟨_, _, .inl ⟨_, _, rfl⟩, .call s r j _ _ _ hp.1 hp.2 (List.getElem?_eq_getElem hj) (.call _)⟩)
      (fun s e t hI hs hp ho => by
        have := go_kept hs hp.1 ho (by rw [hp.2]; simp) hI
        exact ⟨this.2.2, this.1.trans hp.2⟩) ⟨hr, hx⟩
    have hrk := req_kept hs p1
    obtain ⟨n, hn⟩ : ∃ n, ((st (k + 1)).reqs r).gos j = .searching n := by
      generalize st (k + 1) = t at hs
      generalize st k = s at hs p1 p2
      rcases ho with ⟨i', x, rfl⟩ | ⟨b, rfl⟩ | rfl
      · cases hs with
        | call _ _ _ n => exact ⟨n, by simp [upd]⟩
        | run _ _ _ _ _ _ hg => rw [p2] at hg; cases hg
      · cases hs with
        | found _ _ _ _ _ _ hg => rw [p2] at hg; cases hg
      · cases hs with
        | send _ _ _ _ hg => rw [p2] at hg; cases hg
    obtain ⟨k', hk', h3⟩ := searching_goes h h0 hf hrk.2.1 hn
    exact ⟨k', by omega, h3⟩

end

end Fan
end Hound
