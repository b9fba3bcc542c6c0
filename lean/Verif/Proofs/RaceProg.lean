import Verif.Proofs.Race
/-! Lemmas for C100: what each goroutine has done when it comes to a line. -/

namespace Hound
namespace Race

theorem Run.pollLive {tr : Trace} {s : St} (h : Run tr s) :
    7 ≤ s.pc .poller → s.pc .poller ≤ 12 → HoldW tr .live .poller := by
  induction h with
  | start => simp [Race.start]
  | @step tr s t u o hr hs ih =>
    cases hs with
    | mk p v y hst hp hc =>
      generalize hpc0 : s.pc u = pc0 at hp
      cases hp <;> grind [HoldW.push, HoldW.acq, upd]

theorem Run.pollOld {tr : Trace} {s : St} (h : Run tr s) :
    10 ≤ s.pc .poller → s.pc .poller ≤ 11 → HoldW tr (.own s.vals.old) .poller := by
  induction h with
  | start => simp [Race.start]
  | @step tr s t u o hr hs ih =>
    cases hs with
    | mk p v y hst hp hc =>
      generalize hpc0 : s.pc u = pc0 at hp
      cases hp <;> grind [HoldW.push, HoldW.acq, upd]

theorem Run.pollNew {tr : Trace} {s : St} (h : Run tr s) :
    14 ≤ s.pc .poller → s.pc .poller ≤ 15 → HoldW tr (.own s.vals.new) .poller := by
  induction h with
  | start => simp [Race.start]
  | @step tr s t u o hr hs ih =>
    cases hs with
    | mk p v y hst hp hc =>
      generalize hpc0 : s.pc u = pc0 at hp
      cases hp <;> grind [HoldW.push, HoldW.acq, upd]

theorem Run.mainWeb {tr : Trace} {s : St} (h : Run tr s) :
    6 ≤ s.pc .main → s.pc .main ≤ 7 → HoldW tr .web .main := by
  induction h with
  | start => simp [Race.start]
  | @step tr s t u o hr hs ih =>
    cases hs with
    | mk p v y hst hp hc =>
      generalize hpc0 : s.pc u = pc0 at hp
      cases hp <;> grind [HoldW.push, HoldW.acq, upd]

theorem Run.requestWeb {tr : Trace} {s : St} (h : Run tr s) (n : Nat) :
    1 ≤ s.pc (.request n) → s.pc (.request n) ≤ 3 → HoldR tr .web (.request n) := by
  induction h with
  | start => simp [Race.start]
  | @step tr s t u o hr hs ih =>
    cases hs with
    | mk p v y hst hp hc =>
      generalize hpc0 : s.pc u = pc0 at hp
      cases hp <;> grind [HoldR.push, HoldR.acq, upd]

theorem Run.searchLive {tr : Trace} {s : St} (h : Run tr s) (n m : Nat) :
    1 ≤ s.pc (.search n m) → s.pc (.search n m) ≤ 5 → HoldR tr .live (.search n m) := by
  induction h with
  | start => simp [Race.start]
  | @step tr s t u o hr hs ih =>
    cases hs with
    | mk p v y hst hp hc =>
      generalize hpc0 : s.pc u = pc0 at hp
      cases hp <;> grind [HoldR.push, HoldR.acq, upd]

theorem Run.searchOwn {tr : Trace} {s : St} (h : Run tr s) (n m : Nat) :
    3 ≤ s.pc (.search n m) → s.pc (.search n m) ≤ 4 → HoldR tr (.own (s.vals.used n m)) (.search n m) := by
  induction h with
  | start => simp [Race.start]
  | @step tr s t u o hr hs ih =>
    cases hs with
    | mk p v y hst hp hc =>
      generalize hpc0 : s.pc u = pc0 at hp
      cases hp <;> grind [HoldR.push, HoldR.acq, upd]

theorem Run.started {tr : Trace} {s : St} (h : Run tr s) (w : Who) :
    s.sync.started w = true → w = .main ∨ ∃ i u, At tr i u (.go w) := by
  induction h with
  | start => simp [Race.start]; exact Or.inl
  | @step tr s t u o hr hs ih =>
    cases hs with
    | mk p v y hst hp hc =>
      intro hw
      by_cases hold : s.sync.started w = true
      · rcases ih hold with h | ⟨i, u', h⟩
        · exact .inl h
        · exact .inr ⟨i, u', h.push _⟩
      · cases hc with
        | go u' _ =>
          by_cases e : w = u'
          · subst e; exact .inr ⟨_, _, At.last _ _ _⟩
          · simp [upd, e] at hw; exact absurd hw hold
        | _ => exact absurd hw hold

theorem Run.sent {tr : Trace} {s : St} (h : Run tr s) (c : Chan) :
    ∀ k, k < s.sync.sent c → ∃ i u, At tr i u (.send c k) := by
  induction h with
  | start => simp [Race.start]
  | @step tr s t u o hr hs ih =>
    cases hs with
    | mk p v y hst hp hc =>
      intro k hk
      by_cases hold : k < s.sync.sent c
      · obtain ⟨i, u', h⟩ := ih k hold; exact ⟨i, u', h.push _⟩
      · cases hc with
        | send c' _ =>
          by_cases e : c = c'
          · subst e
            have : k = s.sync.sent c := by simp [upd] at hk; omega
            subst this; exact ⟨_, _, At.last _ _ _⟩
          · simp [upd, e] at hk; exact absurd hk hold
        | _ => exact absurd hk hold

theorem Run.received {tr : Trace} {s : St} (h : Run tr s) {r : Nat} {w : Who} {c : Chan} {k : Nat}
    (hr : At tr r w (.recv c k)) : ∃ i u, i < r ∧ At tr i u (.send c k) := by
  obtain ⟨s', t, h1, h2⟩ := h.before hr
  cases h2 with
  | mk p v y hst hp hc =>
    cases hc with
    | recv _ hlt =>
      obtain ⟨i, u, hi⟩ := h1.sent c _ hlt
      rw [At.take] at hi
      exact ⟨i, u, hi⟩

theorem Run.mainRecv {tr : Trace} {s : St} (h : Run tr s) :
    3 ≤ s.pc .main → ∃ r k, At tr r .main (.recv .result k) := by
  induction h with
  | start => simp [Race.start]
  | @step tr s t u o hr hs ih =>
    cases hs with
    | mk p v y hst hp hc =>
      have hpush : ∀ {i : Nat} {w' : Who} {o' : Op}, At tr i w' o' → At (tr ++ [(u, o)]) i w' o' ∧ i < tr.length :=
        fun h => ⟨h.push _, h.lt⟩
      have hlast := At.last tr u o
      generalize hpc0 : s.pc u = pc0 at hp
      cases hp <;> grind [upd]

theorem Run.muxSet {tr : Trace} {s : St} (h : Run tr s) :
    s.vals.mux = true → ∃ q, At tr q .main (.write .mux) := by
  induction h with
  | start => simp [Race.start]
  | @step tr s t u o hr hs ih =>
    cases hs with
    | mk p v y hst hp hc =>
      have hpush : ∀ {i : Nat} {w' : Who} {o' : Op}, At tr i w' o' → At (tr ++ [(u, o)]) i w' o' ∧ i < tr.length :=
        fun h => ⟨h.push _, h.lt⟩
      have hlast := At.last tr u o
      generalize hpc0 : s.pc u = pc0 at hp
      cases hp <;> grind [upd]

theorem Run.muxSeen {tr : Trace} {s : St} (h : Run tr s) (n : Nat) :
    s.pc (.request n) = 2 → ∃ q r, q < r ∧ At tr q .main (.write .mux) ∧ At tr r (.request n) (.read .mux) := by
  induction h with
  | start => simp [Race.start]
  | @step tr s t u o hr hs ih =>
    cases hs with
    | mk p v y hst hp hc =>
      have hm := hr.muxSet
      have h1 : s.pc (.request n) = 2 → ∃ q r, q < r ∧ At (tr ++ [(u, o)]) q .main (.write .mux) ∧
          At (tr ++ [(u, o)]) r (.request n) (.read .mux) := fun e => by
        obtain ⟨q, r, a, b, c⟩ := ih e
        exact ⟨q, r, a, b.push _, c.push _⟩
      have h2 : s.vals.mux = true → u = .request n → o = .read .mux → ∃ q r, q < r ∧
          At (tr ++ [(u, o)]) q .main (.write .mux) ∧ At (tr ++ [(u, o)]) r (.request n) (.read .mux) := by
        rintro e rfl rfl
        obtain ⟨q, a⟩ := hm e
        exact ⟨q, tr.length, a.lt, a.push _, At.last _ _ _⟩
      generalize (∃ q r, q < r ∧ At (tr ++ [(u, o)]) q .main (.write .mux) ∧
          At (tr ++ [(u, o)]) r (.request n) (.read .mux)) = G at h1 h2 ⊢
      generalize hpc0 : s.pc u = pc0 at hp
      cases hp <;> grind [upd]

theorem Run.makerGone {tr : Trace} {s : St} (h : Run tr s) {g : Nat} {o : Op} (hg : At tr g .maker o)
    (ho : ∀ x, o ≠ .write x) : 4 ≤ s.pc .maker := by
  induction h with
  | start => simp [At] at hg
  | @step tr s t u o' hr hs ih =>
    cases hs with
    | mk p v y hst hp hc =>
      rcases hg.cases with hg' | ⟨_, rfl, rfl⟩
      · have := ih hg'
        generalize hpc0 : s.pc u = pc0 at hp
        cases hp <;> grind [upd]
      · generalize hpc0 : s.pc .maker = pc0 at hp
        cases hp <;> grind [upd]

theorem Run.makerWrites {tr : Trace} {s : St} (h : Run tr s) {p g : Nat} {o : Op} {x : Var}
    (hp : At tr p .maker (.write x)) (hg : At tr g .maker o) (ho : ∀ x, o ≠ .write x) : p < g := by
  apply Classical.byContradiction
  intro hlt
  have hne : g ≠ p := fun e => by subst e; exact ho x (hg.uniq hp).2
  obtain ⟨s', t, h1, h2⟩ := h.before hp
  have := h1.makerGone (At.take.2 ⟨by omega, hg⟩) ho
  cases h2 with
  | mk _ _ _ hst hq hc => generalize hpc : s'.pc .maker = pc at *; cases hq <;> omega

/-- What the maker writes happens before what `main` does once it has the searcher. -/
theorem Run.mainReady {tr : Trace} {s : St} (h : Run tr s) {p j : Nat} {o : Op} {x : Var}
    (hp : At tr p .maker (.write x)) (hj : At tr j .main o) {s' : St} (hr : Run (tr.take j) s')
    (hpc : 3 ≤ s'.pc .main) : Hb tr p j := by
  obtain ⟨r, k, hrr⟩ := hr.mainRecv hpc
  rw [At.take] at hrr
  obtain ⟨i, u, hir, hi⟩ := h.received hrr.2
  have hu : u = .maker := by
    obtain ⟨s2, t2, h3, h4⟩ := h.before hi
    cases h4 with | mk _ _ _ _ hq _ => generalize s2.pc u = pc at hq; cases hq; rfl
  subst hu
  have hpi := h.makerWrites hp hi (by simp)
  exact .trans (.inside hpi hp hi) (.trans (.send hir hi hrr.2) (.inside hrr.1 hrr.2 hj))

/-- ... and before what a request does with the searcher. -/
theorem Run.requestReady {tr : Trace} {s : St} (h : Run tr s) {p j n : Nat} {o : Op} {x : Var}
    (hp : At tr p .maker (.write x)) (hj : At tr j (.request n) o) {s' : St} (hr : Run (tr.take j) s')
    (hpc : s'.pc (.request n) = 2) : Hb tr p j := by
  obtain ⟨q, r, hqr, hq, hrd⟩ := hr.muxSeen n hpc
  rw [At.take] at hq hrd
  obtain ⟨s1, t1, h1, h1'⟩ := h.before hq.2
  obtain ⟨s2, t2, h2, h2'⟩ := h.before hrd.2
  have hw : HeldW tr .web .main q ∧ 3 ≤ s1.pc .main := by
    cases h1' with
    | mk _ _ _ _ hP _ =>
      generalize hpc : s1.pc .main = pc at *
      cases hP
      exact ⟨h1.mainWeb (by omega) (by omega), by omega⟩
  have hrr : HeldR tr .web (.request n) r := by
    cases h2' with
    | mk _ _ _ _ hP _ =>
      generalize hpc : s2.pc (.request n) = pc at *
      cases hP
      exact h2.requestWeb n (by omega) (by omega)
  have := h.write_read hq.2 hrd.2 hw.1 hrr (by simp) hqr
  exact .trans (h.mainReady hp hq.2 h1 hw.2) (.trans this (.inside hrd.1 hrd.2 hj))

/-- Who starts whom. -/
theorem Run.goBy {tr : Trace} {s : St} (h : Run tr s) {j : Nat} {w : Who} {o : Op} (hj : At tr j w o)
    (hw : w ≠ .main) : ∃ i u, i < j ∧ At tr i u (.go w) := by
  obtain ⟨s', t, h1, h2⟩ := h.before hj
  cases h2 with
  | mk _ _ _ hst _ _ =>
    rcases h1.started w hst with h | ⟨i, u, hi⟩
    · exact absurd h hw
    · rw [At.take] at hi; exact ⟨i, u, hi⟩

/-- What the maker writes happens before everything the other goroutines do with the searcher. -/
theorem Run.made {tr : Trace} {s : St} (h : Run tr s) {p j : Nat} {w : Who} {o : Op} {x : Var}
    (hp : At tr p .maker (.write x)) (hj : At tr j w o)
    (hw : w = .poller ∨ w = .stopper ∨ (∃ n m, w = .search n m) ∨ (∃ n, w = .request n ∧ o = .read .idx)) :
    Hb tr p j := by
  have hgo : w ≠ .main := by rintro rfl; simp at hw
  obtain ⟨i, u, hij, hi⟩ := h.goBy hj hgo
  have hgij : Hb tr i j := .go hij hi hj
  obtain ⟨s', t, h1, h2⟩ := h.before hi
  obtain ⟨s3, t3, h3, h4⟩ := h.before hj
  rcases hw with rfl | rfl | ⟨n, m, rfl⟩ | ⟨n, rfl, rfl⟩
  · have : u = .maker := by cases h2 with | mk _ _ _ _ hP _ => generalize s'.pc u = pc at hP; cases hP; rfl
    subst this
    exact .trans (.inside (h.makerWrites hp hi (by simp)) hp hi) hgij
  · have : u = .main ∧ 3 ≤ s'.pc .main := by
      cases h2 with
      | mk _ _ _ _ hP _ =>
        generalize hpc : s'.pc u = pc at *
        cases hP; exact ⟨rfl, by omega⟩
    obtain ⟨rfl, h5⟩ := this
    exact .trans (h.mainReady hp hi h1 h5) hgij
  · have : u = .request n ∧ s'.pc (.request n) = 2 := by
      cases h2 with
      | mk _ _ _ _ hP _ =>
        generalize hpc : s'.pc u = pc at *
        cases hP; exact ⟨rfl, hpc⟩
    obtain ⟨rfl, h5⟩ := this
    exact .trans (h.requestReady hp hi h1 h5) hgij
  · have : s3.pc (.request n) = 2 := by
      cases h4 with
      | mk _ _ _ _ hP _ =>
        generalize hpc : s3.pc (.request n) = pc at *
        cases hP; rfl
    exact h.requestReady hp hj h3 this

theorem Run.small {tr : Trace} {s : St} (h : Run tr s) :
    s.vals.cur < s.vals.next ∧ s.vals.old < s.vals.next ∧ s.vals.new < s.vals.next ∧
      ∀ n m, s.vals.used n m < s.vals.next := by
  induction h with
  | start => simp [Race.start]
  | @step tr s t u o hr hs ih =>
    cases hs with
    | mk p v y hst hp hc =>
      obtain ⟨h1, h2, h3, h4⟩ := ih
      generalize hpc0 : s.pc u = pc0 at hp
      cases hp <;> grind

theorem Run.dataSmall {tr : Trace} {s : St} (h : Run tr s) {i hd : Nat} {w : Who}
    (hi : At tr i w (.write (.data hd)) ∨ At tr i w (.read (.data hd))) : hd < s.vals.next := by
  induction h with
  | start => simp [At] at hi
  | @step tr s t u o hr hs ih =>
    cases hs with
    | mk p v y hst hp hc =>
      obtain ⟨h1, h2, h3, h4⟩ := hr.small
      have hmono : s.vals.next ≤ v.next := by
        generalize hpc0 : s.pc u = pc0 at hp
        cases hp <;> simp
      have : (At tr i w (.write (.data hd)) ∨ At tr i w (.read (.data hd))) ∨
          (o = .write (.data hd) ∨ o = .read (.data hd)) := by
        rcases hi with hi | hi <;> rcases hi.cases with h | ⟨_, _, h⟩
        · exact .inl (.inl h)
        · exact .inr (.inl h)
        · exact .inl (.inr h)
        · exact .inr (.inr h)
      rcases this with h | h
      · exact Nat.lt_of_lt_of_le (ih h) hmono
      · generalize hpc0 : s.pc u = pc0 at hp
        cases hp <;> grind

theorem Run.newMade {tr : Trace} {s : St} (h : Run tr s) :
    6 ≤ s.pc .poller → s.pc .poller ≤ 8 → ∃ b, At tr b .poller (.write (.data s.vals.new)) := by
  induction h with
  | start => simp [Race.start]
  | @step tr s t u o hr hs ih =>
    cases hs with
    | mk p v y hst hp hc =>
      have hpush : ∀ {i : Nat} {w' : Who} {o' : Op}, At tr i w' o' → At (tr ++ [(u, o)]) i w' o' ∧ i < tr.length :=
        fun h => ⟨h.push _, h.lt⟩
      have hlast := At.last tr u o
      generalize hpc0 : s.pc u = pc0 at hp
      cases hp <;> grind [upd]

theorem Run.curMade {tr : Trace} {s : St} (h : Run tr s) :
    s.vals.cur = 0 ∨ ∃ b k, b < k ∧ At tr b .poller (.write (.data s.vals.cur)) ∧ At tr k .poller (.write .idx) := by
  induction h with
  | start => simp [Race.start]
  | @step tr s t u o hr hs ih =>
    cases hs with
    | mk p v y hst hp hc =>
      have hn := hr.newMade
      have h1 : v.cur = s.vals.cur → (v.cur = 0 ∨ ∃ b k, b < k ∧ At (tr ++ [(u, o)]) b .poller (.write (.data v.cur)) ∧
          At (tr ++ [(u, o)]) k .poller (.write .idx)) := fun e => by
        rw [e]
        rcases ih with h | ⟨b, k, h1, h2, h3⟩
        · exact .inl h
        · exact .inr ⟨b, k, h1, h2.push _, h3.push _⟩
      have h2 : v.cur = s.vals.new → s.pc .poller = 8 → u = .poller → o = .write .idx →
          (v.cur = 0 ∨ ∃ b k, b < k ∧ At (tr ++ [(u, o)]) b .poller (.write (.data v.cur)) ∧
          At (tr ++ [(u, o)]) k .poller (.write .idx)) := by
        rintro e e' rfl rfl
        rw [e]
        obtain ⟨b, hb⟩ := hn (by omega) (by omega)
        exact .inr ⟨b, tr.length, hb.lt, hb.push _, At.last _ _ _⟩
      show (v.cur = 0 ∨ ∃ b k, b < k ∧ At (tr ++ [(u, o)]) b .poller (.write (.data v.cur)) ∧
          At (tr ++ [(u, o)]) k .poller (.write .idx))
      generalize (v.cur = 0 ∨ ∃ b k, b < k ∧ At (tr ++ [(u, o)]) b .poller (.write (.data v.cur)) ∧
          At (tr ++ [(u, o)]) k .poller (.write .idx)) = G at h1 h2 ⊢
      generalize hpc0 : s.pc u = pc0 at hp
      cases hp <;> first | exact h1 rfl | exact h2 rfl hpc0 rfl rfl

theorem Run.usedMade {tr : Trace} {s : St} (h : Run tr s) (n m : Nat) : 2 ≤ s.pc (.search n m) →
    s.vals.used n m = 0 ∨ ∃ b k j, b < k ∧ k < j ∧ At tr b .poller (.write (.data (s.vals.used n m))) ∧
      At tr k .poller (.write .idx) ∧ At tr j (.search n m) (.read .idx) := by
  induction h with
  | start => simp [Race.start]
  | @step tr s t u o hr hs ih =>
    cases hs with
    | mk p v y hst hp hc =>
      have hn := hr.curMade
      have h1 : v.used n m = s.vals.used n m → 2 ≤ s.pc (.search n m) →
          (v.used n m = 0 ∨ ∃ b k j, b < k ∧ k < j ∧ At (tr ++ [(u, o)]) b .poller (.write (.data (v.used n m))) ∧
          At (tr ++ [(u, o)]) k .poller (.write .idx) ∧ At (tr ++ [(u, o)]) j (.search n m) (.read .idx)) := fun e e' => by
        rw [e]
        rcases ih e' with h | ⟨b, k, j, h1, h2, h3, h4, h5⟩
        · exact .inl h
        · exact .inr ⟨b, k, j, h1, h2, h3.push _, h4.push _, h5.push _⟩
      have h2 : v.used n m = s.vals.cur → u = .search n m → o = .read .idx →
          (v.used n m = 0 ∨ ∃ b k j, b < k ∧ k < j ∧ At (tr ++ [(u, o)]) b .poller (.write (.data (v.used n m))) ∧
          At (tr ++ [(u, o)]) k .poller (.write .idx) ∧ At (tr ++ [(u, o)]) j (.search n m) (.read .idx)) := by
        rintro e rfl rfl
        rw [e]
        rcases hn with h | ⟨b, k, h1, h2, h3⟩
        · exact .inl h
        · exact .inr ⟨b, k, tr.length, h1, h3.lt, h2.push _, h3.push _, At.last _ _ _⟩
      show 2 ≤ upd s.pc u p (.search n m) → (v.used n m = 0 ∨ ∃ b k j, b < k ∧ k < j ∧
          At (tr ++ [(u, o)]) b .poller (.write (.data (v.used n m))) ∧
          At (tr ++ [(u, o)]) k .poller (.write .idx) ∧ At (tr ++ [(u, o)]) j (.search n m) (.read .idx))
      generalize (v.used n m = 0 ∨ ∃ b k j, b < k ∧ k < j ∧ At (tr ++ [(u, o)]) b .poller (.write (.data (v.used n m))) ∧
          At (tr ++ [(u, o)]) k .poller (.write .idx) ∧ At (tr ++ [(u, o)]) j (.search n m) (.read .idx)) = G at h1 h2 ⊢
      generalize hpc0 : s.pc u = pc0 at hp
      cases hp <;> grind [upd]

end Race
end Hound
