import Verif.Spec.Fair
import Verif.Props.Shutdown
import Verif.Props.Current

/-! # Histories that never end -/

namespace Hound.Fair
open Spec
open Sr (Cfg PC)

/-! ## Pieces of a history -/

section Pieces
variable {σ ε : Type}

/-- What happens in the `k` moments from `n` on. -/
def seg (ev : Nat → Option ε) (n : Nat) : Nat → List ε
  | 0 => []
  | k + 1 => seg ev n k ++ (ev (n + k)).toList

theorem mem_seg {ev : Nat → Option ε} {n : Nat} {e : ε} : ∀ {k : Nat}, e ∈ seg ev n k ↔ ∃ m, n ≤ m ∧ m < n + k ∧ ev m = some e
  | 0 => by
    simp only [seg, List.not_mem_nil, false_iff, not_exists, not_and]
    intro m h1 h2
    omega
  | k + 1 => by
    simp only [seg, List.mem_append, mem_seg (k := k), Option.mem_toList]
    constructor
    · rintro (⟨m, h1, h2, h3⟩ | h)
      · exact ⟨m, h1, by omega, h3⟩
      · exact ⟨n + k, by omega, by omega, h⟩
    · rintro ⟨m, h1, h2, h3⟩
      by_cases hm : m = n + k
      · exact Or.inr (hm ▸ h3)
      · exact Or.inl ⟨m, h1, by omega, h3⟩

theorem step_of {Step : σ → ε → σ → Prop} {st : Nat → σ} {ev : Nat → Option ε} (h : History Step st ev) {n : Nat} {e : ε}
    (he : ev n = some e) : Step (st n) e (st (n + 1)) := by
  have := h n
  rw [he] at this
  exact this

theorem same_of {Step : σ → ε → σ → Prop} {st : Nat → σ} {ev : Nat → Option ε} (h : History Step st ev) {n : Nat}
    (he : ev n = none) : st (n + 1) = st n := by
  have := h n
  rw [he] at this
  exact this

/-- What the steps with certain events keep. -/
theorem keepE {Step : σ → ε → σ → Prop} {st : Nat → σ} {ev : Nat → Option ε} (h : History Step st ev) {P : σ → Prop} {n : Nat}
    (hq : ∀ m, n ≤ m → ∀ e, ev m = some e → ∀ s t, Step s e t → P s → P t) (hs : P (st n)) : ∀ m, n ≤ m → P (st m) := by
  intro m hm
  obtain ⟨k, rfl⟩ := Nat.exists_eq_add_of_le hm
  clear hm
  induction k with
  | zero => exact hs
  | succ k ih =>
    cases he : ev (n + k) with
    | none => rw [← Nat.add_assoc, same_of h he]; exact ih
    | some e => exact hq _ (by omega) e he _ _ (step_of h he) ih

/-- Steps that use something up come to an end. -/
theorem quiet {ev : Nat → Option ε} {own : ε → Prop} (μ : Nat → Nat) {n : Nat}
    (h1 : ∀ m, n ≤ m → ∀ e, ev m = some e → own e → μ (m + 1) < μ m) (h2 : ∀ m, n ≤ m → μ (m + 1) ≤ μ m) :
    ∃ N, n ≤ N ∧ ∀ m, N ≤ m → ∀ e, ev m = some e → ¬ own e := by
  have mono : ∀ {n m : Nat}, (∀ m, n ≤ m → μ (m + 1) ≤ μ m) → n ≤ m → μ m ≤ μ n := by
    intro n m h2 hm
    obtain ⟨k, rfl⟩ := Nat.exists_eq_add_of_le hm
    clear hm
    induction k with
    | zero => exact Nat.le_refl _
    | succ k ih => exact Nat.le_trans (h2 (n + k) (by omega)) ih
  suffices ∀ b n, μ n ≤ b → (∀ m, n ≤ m → ∀ e, ev m = some e → own e → μ (m + 1) < μ m) → (∀ m, n ≤ m → μ (m + 1) ≤ μ m) →
      ∃ N, n ≤ N ∧ ∀ m, N ≤ m → ∀ e, ev m = some e → ¬ own e from this _ n (Nat.le_refl _) h1 h2
  intro b
  induction b with
  | zero =>
    intro n hb h1 h2
    refine ⟨n, Nat.le_refl _, fun m hm e he ho => ?_⟩
    have := h1 m hm e he ho
    have := mono h2 hm
    omega
  | succ b ih =>
    intro n hb h1 h2
    by_cases hx : ∃ m, n ≤ m ∧ ∃ e, ev m = some e ∧ own e
    · obtain ⟨m, hm, e, he, ho⟩ := hx
      have := h1 m hm e he ho
      have := mono h2 hm
      obtain ⟨N, a, b⟩ := ih (m + 1) (by omega) (fun k hk => h1 k (by omega)) (fun k hk => h2 k (by omega))
      exact ⟨N, by omega, b⟩
    · exact ⟨n, Nat.le_refl _, fun m hm e he ho => hx ⟨m, hm, e, he, ho⟩⟩

/-! ### Histories made from finite pieces -/

/-- A finite piece. -/
inductive Path (Step : σ → ε → σ → Prop) : σ → List ε → σ → Prop where
  | nil (s : σ) : Path Step s [] s
  | cons {s t u : σ} {e : ε} {es : List ε} : Step s e t → Path Step t es u → Path Step s (e :: es) u

/-- After the piece nothing happens any more. -/
theorem rest {Step : σ → ε → σ → Prop} {s t : σ} {es : List ε} (h : Path Step s es t) :
    ∃ st, History Step st (fun n => es[n]?) ∧ st 0 = s ∧ ∀ n, es.length ≤ n → st n = t := by
  induction h with
  | nil s => exact ⟨fun _ => s, fun n => by simp, rfl, fun _ _ => rfl⟩
  | @cons s t u e es h1 h2 ih =>
    obtain ⟨st, a, b, d⟩ := ih
    refine ⟨fun n => match n with | 0 => s | n + 1 => st n, ?_, rfl, ?_⟩
    · intro n
      cases n with
      | zero => simpa [b] using h1
      | succ n => simpa using a n
    · intro n hn
      cases n with
      | zero => simp at hn
      | succ n => exact d n (by simpa using hn)

/-- After the first piece the second is repeated for ever. -/
theorem lasso {Step : σ → ε → σ → Prop} {s t : σ} {es fs : List ε} (h1 : Path Step s es t) (h2 : Path Step t fs t) (hne : 0 < fs.length) :
    ∃ st ev, History Step st ev ∧ st 0 = s ∧ (∀ n, n < es.length → ev n = es[n]?) ∧ (∀ n, es.length ≤ n → ∀ e, ev n = some e → e ∈ fs) ∧
      (∀ n, ∀ e ∈ fs, ∃ m, n ≤ m ∧ ev m = some e) ∧ (∀ n, ∃ m, n ≤ m ∧ st m = t) ∧ st es.length = t ∧
      ∀ n, ∃ m, n ≤ m ∧ ∀ k, k < fs.length → ev (m + k) = fs[k]? := by
  obtain ⟨sa, a1, a2, a3⟩ := rest h1
  obtain ⟨sb, b1, b2, b3⟩ := rest h2
  let E := es.length
  let L := fs.length
  have hL : 0 < L := hne
  refine ⟨fun n => if n < E then sa n else sb ((n - E) % L), fun n => if n < E then es[n]? else fs[(n - E) % L]?, ?_, ?_, ?_, ?_, ?_, ?_, ?_, ?_⟩
  · intro n
    by_cases hn : n < E
    · have := a1 n
      simp only [hn, if_true]
      by_cases hn' : n + 1 < E
      · simpa only [hn', if_true] using this
      · have hE : n + 1 = E := by omega
        simp only [hn', if_false, show n + 1 - E = 0 by omega, Nat.zero_mod, b2]
        rw [a3 (n + 1) (by omega)] at this
        exact this
    · have hn' : ¬ n + 1 < E := by omega
      simp only [hn, hn', if_false]
      have hr : (n - E) % L < L := Nat.mod_lt _ hL
      have := b1 ((n - E) % L)
      by_cases hw : (n - E) % L + 1 = L
      · have hz : (n + 1 - E) % L = 0 := by
          rw [show n + 1 - E = (n - E) + 1 by omega, Nat.add_mod]
          by_cases hL1 : L = 1
          · rw [hL1]; exact Nat.mod_one _
          · rw [Nat.mod_eq_of_lt (show 1 < L by omega), hw, Nat.mod_self]
        rw [hz, b2]
        have hlast := b3 ((n - E) % L + 1) (by show L ≤ _; omega)
        rw [hlast] at this
        exact this
      · have hz : (n + 1 - E) % L = (n - E) % L + 1 := by
          rw [show n + 1 - E = (n - E) + 1 by omega, Nat.add_mod, Nat.mod_eq_of_lt (show 1 < L by omega)]
          exact Nat.mod_eq_of_lt (by omega)
        rw [hz]
        exact this
  · by_cases hE : 0 < E
    · simp only [hE, if_true, a2]
    · have : sa 0 = t := a3 0 (by show E ≤ 0; omega)
      simp only [hE, if_false, Nat.zero_sub, Nat.zero_mod, b2]
      rw [← this, a2]
  · intro n hn
    simp only [show n < E from hn, if_true]
  · intro n hn e he
    simp only [show ¬ n < E from Nat.not_lt.2 hn, if_false] at he
    exact List.mem_of_getElem? he
  · intro n e he
    obtain ⟨k, hk, hke⟩ := List.mem_iff_getElem.1 he
    refine ⟨E + (L * n + k), ?_, ?_⟩
    · have : n ≤ L * n := Nat.le_mul_of_pos_left n hL
      omega
    · simp only [show ¬ E + (L * n + k) < E by omega, if_false, show E + (L * n + k) - E = L * n + k by omega]
      rw [Nat.mul_add_mod, Nat.mod_eq_of_lt hk, List.getElem?_eq_getElem hk, hke]
  · intro n
    refine ⟨E + L * n, ?_, ?_⟩
    · have : n ≤ L * n := Nat.le_mul_of_pos_left n hL
      omega
    · simp only [show ¬ E + L * n < E by omega, if_false, show E + L * n - E = L * n by omega, Nat.mul_mod_right, b2]
  · simp only [show ¬ es.length < E from Nat.lt_irrefl _, if_false, show es.length - E = 0 from Nat.sub_self _, Nat.zero_mod, b2]
  · intro n
    refine ⟨E + L * n, ?_, fun k hk => ?_⟩
    · have : n ≤ L * n := Nat.le_mul_of_pos_left n hL
      omega
    · simp only [show ¬ E + L * n + k < E by omega, if_false, show E + L * n + k - E = L * n + k by omega]
      rw [Nat.mul_add_mod, Nat.mod_eq_of_lt hk]

end Pieces

/-! ## One searcher -/

variable {c : Cfg} {st : Nat → Sr.St} {ev : Nat → Option Sr.Ev}

theorem sr_exec (h : History (Sr.Step c) st ev) (n : Nat) : ∀ k, Sr.Exec c (st n) (seg ev n k) (st (n + k))
  | 0 => .nil _
  | k + 1 => by
    have ih := sr_exec h n k
    cases he : ev (n + k) with
    | none => rw [seg, he, ← Nat.add_assoc, same_of h he]; simpa using ih
    | some e => rw [seg, he]; exact ih.snoc (step_of h he)

theorem sr_run {rev : Nat} (h : History (Sr.Step c) st ev) (h0 : st 0 = .init rev) (n : Nat) : Sr.Run c rev (seg ev 0 n) (st n) := by
  have := sr_exec h 0 n
  rw [h0, Nat.zero_add] at this
  exact this

theorem quiet_pc (h : History (Sr.Step c) st ev) {n : Nat} (hn : ∀ m, n ≤ m → ∀ e, ev m = some e → ¬ e.poller = true) :
    ∀ m, n ≤ m → (st m).pc = (st n).pc :=
  keepE h (P := fun s => s.pc = (st n).pc)
    (fun m hm e he _ _ hs hp => by rw [Sr.other_pc hs (by simpa using hn m hm e he)]; exact hp) rfl

/-- Readers that go, and none that come. -/
theorem drain (L : Nat → List Nat) {n : Nat} (h1 : ∀ m, n ≤ m → (L (m + 1)).Sublist (L m))
    (h2 : ∀ m, n ≤ m → ∀ i ∈ L m, ∃ k, m ≤ k ∧ i ∉ L k) : ∃ N, n ≤ N ∧ ∀ m, N ≤ m → L m = [] := by
  have mono : ∀ {n m : Nat}, (∀ m, n ≤ m → (L (m + 1)).Sublist (L m)) → n ≤ m → (L m).Sublist (L n) := by
    intro n m h1 hm
    obtain ⟨k, rfl⟩ := Nat.exists_eq_add_of_le hm
    clear hm
    induction k with
    | zero => exact List.Sublist.refl _
    | succ k ih => exact (h1 (n + k) (by omega)).trans ih
  suffices ∀ b n, (L n).length ≤ b → (∀ m, n ≤ m → (L (m + 1)).Sublist (L m)) →
      (∀ m, n ≤ m → ∀ i ∈ L m, ∃ k, m ≤ k ∧ i ∉ L k) → ∃ N, n ≤ N ∧ ∀ m, N ≤ m → L m = [] from
    this _ n (Nat.le_refl _) h1 h2
  intro b
  induction b with
  | zero =>
    intro n hb h1 h2
    refine ⟨n, Nat.le_refl _, fun m hm => ?_⟩
    have := (mono h1 hm).length_le
    exact List.eq_nil_of_length_eq_zero (by omega)
  | succ b ih =>
    intro n hb h1 h2
    cases hL : L n with
    | nil =>
      refine ⟨n, Nat.le_refl _, fun m hm => ?_⟩
      have := (mono h1 hm)
      rw [hL] at this
      exact List.sublist_nil.1 this
    | cons i l =>
      obtain ⟨k, hk, hi⟩ := h2 n (Nat.le_refl _) i (by rw [hL]; exact List.mem_cons_self ..)
      have hs := mono h1 hk
      have hlt : (L k).length < (L n).length := by
        refine Nat.lt_of_le_of_ne hs.length_le fun he => ?_
        rw [hs.eq_of_length he, hL] at hi
        exact hi (List.mem_cons_self ..)
      obtain ⟨N, a, b⟩ := ih k (by omega) (fun m hm => h1 m (by omega)) (fun m hm => h2 m (by omega))
      exact ⟨N, by omega, b⟩

theorem swap_sub {s t : Sr.St} {e : Sr.Ev} {k : Nat} (h : Sr.Step c s e t) (_hs : s.pc = .swapping k) (ht : t.pc = .swapping k)
    (he : ∀ i, e ≠ .searchStart i) : (t.searches.map Prod.fst).Sublist (s.searches.map Prod.fst) := by
  cases h
  case searchStart i a b d => exact absurd rfl (he i)
  case searchRead i a =>
    rw [List.map_map]
    suffices h : List.map (Prod.fst ∘ fun p => if p = (i, none) then (i, some s.live) else p) s.searches = s.searches.map Prod.fst by
      rw [h]; exact List.Sublist.refl _
    refine List.map_congr_left fun p _ => ?_
    simp only [Function.comp]
    split
    · next hp => rw [hp]
    · rfl
  case searchEnd i hh a => exact List.Sublist.map _ (List.filter_sublist)
  all_goals first
    | exact List.Sublist.refl _
    | simp_all

/-- The searches that use index `k`. -/
def using_ (k : Nat) (s : Sr.St) : List Nat := (s.searches.filter fun p => p.2 = some k).map Prod.fst

theorem undo_sub {s t : Sr.St} {e : Sr.Ev} {k : Nat} (h : Sr.Step c s e t) (hl : s.live = k) (hs : s.pc = .undo k) (ht : t.pc = .undo k)
    (he : ∀ i, e = .searchRead i → s.pc ≠ .undo s.live) : (using_ k t).Sublist (using_ k s) := by
  cases h
  case searchStart i a b d =>
    simp [using_]
  case searchRead i a => exact absurd (by rw [hl]; exact hs) (he i rfl)
  case searchEnd i hh a => exact List.Sublist.map _ (List.Sublist.filter _ List.filter_sublist)
  all_goals first
    | exact List.Sublist.refl _
    | simp_all

/-- The goroutine has a lock to wait for. -/
def AtLock (s : Sr.St) : Prop := (∃ k, s.pc = .swapping k) ∨ ∃ k, s.pc = .undo k

/-- A goroutine that waits for a lock can go on at last. -/
theorem lock_comes (h : History (Sr.Step c) st ev) (hi : ∀ m, Sr.Inv (st m)) (hends : SearchesEnd (fun _ => False) st) (hw : WritersFirst st ev) {n : Nat}
    (hn : ∀ m, n ≤ m → ∀ e, ev m = some e → ¬ e.poller = true) (ha : AtLock (st n)) :
    ∃ N, n ≤ N ∧ ∀ m, N ≤ m → ∃ e t, e.poller = true ∧ e.stop = false ∧ e ≠ .begin ∧ e ≠ .check ∧ Sr.Step c (st m) e t := by
  have hpc := quiet_pc h hn
  rcases ha with ⟨k, hk⟩ | ⟨k, hk⟩
  · obtain ⟨N, hN, hd⟩ := drain (fun m => (st m).searches.map Prod.fst) (n := n) (fun m hm => by
        cases he : ev m with
        | none => show ((st (m + 1)).searches.map _).Sublist _; rw [same_of h he]; exact List.Sublist.refl _
        | some e =>
          refine swap_sub (k := k) (step_of h he) ((hpc m hm).trans hk) ((hpc (m + 1) (by omega)).trans hk) fun i hx => ?_
          exact (hw m i).1 (hx ▸ he) k ((hpc m hm).trans hk)) (fun m hm i hx => by
        obtain ⟨⟨j, x⟩, hp, rfl⟩ := List.mem_map.1 hx
        obtain ⟨q, hq, hno | hno⟩ := hends m j x hp
        · refine ⟨q, hq, fun hh => ?_⟩
          obtain ⟨⟨j', y⟩, hp', e⟩ := List.mem_map.1 hh
          simp only at e
          exact hno y (e ▸ hp')
        · exact hno.elim)
    refine ⟨N, hN, fun m hm => ?_⟩
    exact ⟨_, _, rfl, rfl, by simp, by simp, .swapLock _ k ((hpc m (by omega)).trans hk) (List.map_eq_nil_iff.1 (hd m hm))⟩
  · have hl : ∀ m, n ≤ m → (st m).live = k := fun m hm => (hi m).undo k ((hpc m hm).trans hk)
    obtain ⟨N, hN, hd⟩ := drain (fun m => using_ k (st m)) (n := n) (fun m hm => by
        cases he : ev m with
        | none => show (using_ k (st (m + 1))).Sublist _; rw [same_of h he]; exact List.Sublist.refl _
        | some e =>
          refine undo_sub (k := k) (step_of h he) (hl m hm) ((hpc m hm).trans hk) ((hpc (m + 1) (by omega)).trans hk) fun i hx => ?_
          exact (hw m i).2 (hx ▸ he)) (fun m hm i hx => by
        obtain ⟨⟨j, x⟩, hp, rfl⟩ := List.mem_map.1 hx
        obtain ⟨q, hq, hno | hno⟩ := hends m j x (List.mem_filter.1 hp).1
        · refine ⟨q, hq, fun hh => ?_⟩
          obtain ⟨⟨j', y⟩, hp', e⟩ := List.mem_map.1 hh
          simp only at e
          exact hno y (e ▸ (List.mem_filter.1 hp').1)
        · exact hno.elim)
    refine ⟨N, hN, fun m hm => ?_⟩
    refine ⟨_, _, rfl, rfl, by simp, by simp, .undo _ k false _ ((hpc m (by omega)).trans hk) (fun i hx => ?_) (.closeFails _)⟩
    have := hd m hm
    have hx' : i ∈ using_ k (st m) := List.mem_map.2 ⟨(i, some k), List.mem_filter.2 ⟨hx, by simp⟩, rfl⟩
    rw [this] at hx'
    simp at hx'

/-- Wherever it stands but at its channels, at the limiter and at its locks, the goroutine can go on. -/
theorem goes {s : Sr.St} (h1 : s.pc ≠ .done) (h2 : s.pc = .hold → s.updateCh = true)
    (h3 : s.pc = .waiting → s.updateCh = true ∨ c.timer = true ∨ s.shutdownCh = true) (h4 : s.pc ≠ .acquiring) :
    (∃ e t, e.poller = true ∧ e.stop = false ∧ e ≠ .begin ∧ e ≠ .check ∧ Sr.Step c s e t) ∨ AtLock s := by
  cases hpc : s.pc with
  | hold => exact Or.inl ⟨_, _, rfl, rfl, by simp, by simp, .gate s hpc (h2 hpc)⟩
  | gated =>
    by_cases hc : c.poll = true ∨ c.push = true
    · exact Or.inl ⟨_, _, rfl, rfl, by simp, by simp, .enter s hpc hc⟩
    · simp only [not_or, Bool.not_eq_true] at hc
      exact Or.inl ⟨_, _, rfl, rfl, by simp, by simp, .neverUpdates s hpc hc.1 hc.2⟩
  | waiting =>
    rcases h3 hpc with h | h | h
    · exact Or.inl ⟨_, _, rfl, rfl, by simp, by simp, .wakeUpdate s hpc h⟩
    · exact Or.inl ⟨_, _, rfl, rfl, by simp, by simp, .wakeTimer s hpc h⟩
    · exact Or.inl ⟨_, _, rfl, rfl, by simp, by simp, .wakeStop s hpc h⟩
  | woken =>
    cases hf : s.flag with
    | true => exact Or.inl ⟨_, _, rfl, rfl, by simp, by simp, .finish s hpc hf⟩
    | false => exact Or.inl ⟨_, _, rfl, rfl, by simp, by simp, .goOn s hpc hf⟩
  | acquiring => exact absurd hpc h4
  | pulling => exact Or.inl ⟨_, _, rfl, rfl, by simp, by simp, .pullFails s hpc⟩
  | building r => exact Or.inl ⟨_, _, rfl, rfl, by simp, by simp, .buildFails s r hpc⟩
  | swapping n => exact Or.inr (Or.inl ⟨n, hpc⟩)
  | swapped o n => exact Or.inl ⟨_, _, rfl, rfl, by simp, by simp, .destroyed s o n false _ hpc (.closeFails _)⟩
  | undo n => exact Or.inr (Or.inr ⟨n, hpc⟩)
  | releasing r => exact Or.inl ⟨_, _, rfl, rfl, by simp, by simp, .release s r hpc⟩
  | done => exact absurd hpc h1

/-- A goroutine that is never at an end and never waits in vain at a channel, and makes no step any more, could make one from some moment on. -/
theorem stuck (h : History (Sr.Step c) st ev) (hi : ∀ m, Sr.Inv (st m)) (hends : SearchesEnd (fun _ => False) st) (hw : WritersFirst st ev) {n : Nat}
    (hn : ∀ m, n ≤ m → ∀ e, ev m = some e → ¬ e.poller = true) (h1 : (st n).pc ≠ .done)
    (h2 : ∀ m, n ≤ m → (st m).pc = .hold → (st m).updateCh = true)
    (h3 : ∀ m, n ≤ m → (st m).pc = .waiting → (st m).updateCh = true ∨ c.timer = true ∨ (st m).shutdownCh = true)
    (h4 : (st n).pc ≠ .acquiring) :
    ∃ N, n ≤ N ∧ ∀ m, N ≤ m → ∃ e t, e.poller = true ∧ e.stop = false ∧ e ≠ .begin ∧ e ≠ .check ∧ Sr.Step c (st m) e t := by
  have hpc := quiet_pc h hn
  by_cases hl : AtLock (st n)
  · exact lock_comes h hi hends hw hn hl
  · refine ⟨n, Nat.le_refl _, fun m hm => ?_⟩
    refine (goes (by rw [hpc m hm]; exact h1) (h2 m hm) (h3 m hm) (by rw [hpc m hm]; exact h4)).resolve_right fun hx => hl ?_
    rcases hx with ⟨k, hk⟩ | ⟨k, hk⟩
    · exact Or.inl ⟨k, (hpc m hm).symm.trans hk⟩
    · exact Or.inr ⟨k, (hpc m hm).symm.trans hk⟩

/-- The same for a goroutine that may wait at the limiter, where nothing holds up a single searcher. -/
theorem stuck' (h : History (Sr.Step c) st ev) (hi : ∀ m, Sr.Inv (st m)) (hends : SearchesEnd (fun _ => False) st) (hw : WritersFirst st ev) {n : Nat}
    (hn : ∀ m, n ≤ m → ∀ e, ev m = some e → ¬ e.poller = true) (h1 : (st n).pc ≠ .done)
    (h2 : ∀ m, n ≤ m → (st m).pc = .hold → (st m).updateCh = true)
    (h3 : ∀ m, n ≤ m → (st m).pc = .waiting → (st m).updateCh = true ∨ c.timer = true ∨ (st m).shutdownCh = true) :
    ∃ N, n ≤ N ∧ ∀ m, N ≤ m → ∃ e t, e.poller = true ∧ Sr.Step c (st m) e t := by
  by_cases h4 : (st n).pc = .acquiring
  · exact ⟨n, Nat.le_refl _, fun m hm => ⟨_, _, rfl, .check _ ((quiet_pc h hn m hm).trans h4)⟩⟩
  · obtain ⟨N, hN, hs⟩ := stuck h hi hends hw hn h1 h2 h3 h4
    refine ⟨N, hN, fun m hm => ?_⟩
    obtain ⟨e, t, a, _, _, _, b⟩ := hs m hm
    exact ⟨e, t, a, b⟩

theorem asked_check (h : History (Sr.Step c) st ev) (hf : FairSearcher c st ev) (hi : ∀ m, Sr.Inv (st m)) {n : Nat} (ha : Sr.Asked c (st n))
    (hs : ∀ m, n ≤ m → ∀ e, ev m = some e → e.stop = false) : ∃ m, n ≤ m ∧ ev m = some .check := by
  by_cases hx : ∃ m, n ≤ m ∧ ev m = some .check
  · exact hx
  exfalso
  have hno : ∀ m, n ≤ m → ev m ≠ some .check := fun m hm he => hx ⟨m, hm, he⟩
  have hall : ∀ m, n ≤ m → Sr.Asked c (st m) := keepE h
    (fun m hm e he _ _ hst hp => Sr.Asked.step hst ⟨hs m hm e he, fun hh => hno m hm (hh ▸ he)⟩ hp) ha
  obtain ⟨N, hN, hq⟩ := quiet (ev := ev) (own := fun e => e.poller = true) (fun m => (st m).pc.toCheck) (n := n)
    (fun m hm e he ho => Sr.poller_toCheck (step_of h he) ho fun hh => hno m hm (hh ▸ he)) (fun m hm => by
      cases he : ev m with
      | none => show (st (m + 1)).pc.toCheck ≤ _; rw [same_of h he]; exact Nat.le_refl _
      | some e =>
        by_cases ho : e.poller = true
        · exact Nat.le_of_lt (Sr.poller_toCheck (step_of h he) ho fun hh => hno m hm (hh ▸ he))
        · show (st (m + 1)).pc.toCheck ≤ _
          rw [Sr.other_pc (step_of h he) (by simpa using ho)]; exact Nat.le_refl _)
  obtain ⟨M, hM, hc⟩ := stuck' h hi hf.ends hf.writers hq (hall N hN).notDone (fun m hm => (hall m (by omega)).hold) (fun m hm hw => by
    rcases (hall m (by omega)).asked with h | h | h | h
    · exact Or.inl h
    · exact Or.inr (Or.inl h)
    · rw [hw] at h; simp at h
    · rw [hw] at h; simp at h)
  obtain ⟨m, hm, e, he, ho⟩ := hf.moves M hc
  exact hq m (by omega) e he ho

theorem told_done (h : History (Sr.Step c) st ev) (hf : FairSearcher c st ev) (hi : ∀ m, Sr.Inv (st m)) {n : Nat} (ha : Sr.Told c (st n)) :
    ∃ m, n ≤ m ∧ (st m).pc = .done := by
  by_cases hx : ∃ m, n ≤ m ∧ (st m).pc = .done
  · exact hx
  exfalso
  have hno : ∀ m, n ≤ m → (st m).pc ≠ .done := fun m hm he => hx ⟨m, hm, he⟩
  have hall : ∀ m, n ≤ m → Sr.Told c (st m) := keepE h (fun m hm e he _ _ hst hp => Sr.Told.step hst hp) ha
  obtain ⟨N, hN, hq⟩ := quiet (ev := ev) (own := fun e => e.poller = true) (fun m => (st m).pc.toDone) (n := n)
    (fun m hm e he ho => Sr.poller_toDone (step_of h he) ho (hall m hm).flag) (fun m hm => by
      cases he : ev m with
      | none => show (st (m + 1)).pc.toDone ≤ _; rw [same_of h he]; exact Nat.le_refl _
      | some e =>
        by_cases ho : e.poller = true
        · exact Nat.le_of_lt (Sr.poller_toDone (step_of h he) ho (hall m hm).flag)
        · show (st (m + 1)).pc.toDone ≤ _
          rw [Sr.other_pc (step_of h he) (by simpa using ho)]; exact Nat.le_refl _)
  obtain ⟨M, hM, hc⟩ := stuck' h hi hf.ends hf.writers hq (hno N hN) (fun m hm => (hall m (by omega)).hold) (fun m hm hw => by
    rcases (hall m (by omega)).told with h | h | h | h
    · exact Or.inr (Or.inl h)
    · exact Or.inr (Or.inr h)
    · rw [hw] at h; simp at h
    · rw [hw] at h; simp at h)
  obtain ⟨m, hm, e, he, ho⟩ := hf.moves M hc
  exact hq m (by omega) e he ho

end Hound.Fair
