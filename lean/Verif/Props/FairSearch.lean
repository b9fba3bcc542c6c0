import Verif.Props.FairCases

/-!
# C97: that searches end follows from their not being passed over
-/

namespace Hound.Fair
open Spec
open Hound.Sr (Cfg)

/-- A step of search `i`. -/
def ofSearch (i : Nat) (e : Sr.Ev) : Prop := e = .searchRead i ∨ ∃ r h, e = .searchEnd i r h

/-- There is one search of a number at a time. -/
def OneEach (s : Sr.St) : Prop := ∀ i x y, (i, x) ∈ s.searches → (i, y) ∈ s.searches → x = y

theorem OneEach.step {c : Cfg} {s t : Sr.St} {e : Sr.Ev} (u : OneEach s) (h : Sr.Step c s e t) : OneEach t := by
  intro i x y hx hy
  cases h with
  | searchStart j h1 h2 h3 =>
    simp only [List.mem_cons, Prod.mk.injEq] at hx hy
    rcases hx with ⟨rfl, rfl⟩ | hx <;> rcases hy with ⟨h4, rfl⟩ | hy
    · rfl
    · exact absurd hy (h3 _)
    · subst h4; exact absurd hx (h3 _)
    · exact u i x y hx hy
  | searchRead j h1 =>
    simp only [List.mem_map] at hx hy
    obtain ⟨⟨i1, x1⟩, a1, a2⟩ := hx
    obtain ⟨⟨i2, x2⟩, b1, b2⟩ := hy
    have e1 : i1 = i := by split at a2 <;> simp_all
    have e2 : i2 = i := by split at b2 <;> simp_all
    subst e1; subst e2
    have := u _ _ _ a1 b1
    subst this
    rw [a2] at b2
    exact (Prod.mk.inj b2).2
  | searchEnd j h0 h1 =>
    exact u i x y (List.mem_filter.1 hx).1 (List.mem_filter.1 hy).1
  | _ => exact u i x y hx hy

/-- A search that can go on does so twice, and then it is over. -/
theorem over_by_moves {c : Cfg} {st : Nat → Sr.St} {ev : Nat → Option Sr.Ev} (h : History (Sr.Step c) st ev) (hu : ∀ n, OneEach (st n)) (i n : Nat)
    (hm : ∀ n', n ≤ n' → ∃ m, n' ≤ m ∧ ∃ e, ev m = some e ∧ ofSearch i e) : ∃ m, n ≤ m ∧ ∀ y, (i, y) ∉ (st m).searches := by
  refine Classical.byContradiction fun hc => ?_
  have hin : ∀ m, n ≤ m → ∃ y, (i, y) ∈ (st m).searches := fun m hm => Classical.byContradiction fun hy =>
    hc ⟨m, hm, fun y hy' => hy ⟨y, hy'⟩⟩
  -- it does not end
  have noEnd : ∀ m, n ≤ m → ∀ r x, ev m ≠ some (.searchEnd i r x) := by
    intro m hm r x he
    have hs := step_of h he
    obtain ⟨y, hy⟩ := hin (m + 1) (by omega)
    have hu := hu m
    generalize st (m + 1) = t at hs hy
    cases hs with
    | searchEnd _ _ h1 =>
      obtain ⟨k1, k2⟩ := List.mem_filter.1 hy
      have := hu _ _ _ k1 h1
      subst this
      simp at k2
  have reads : ∀ m, n ≤ m → ∃ k, m ≤ k ∧ ev k = some (.searchRead i) := by
    intro m hm'
    obtain ⟨k, hk, e, he, ho⟩ := hm m hm'
    rcases ho with rfl | ⟨r, x, rfl⟩
    · exact ⟨k, hk, he⟩
    · exact absurd he (noEnd k (by omega) r x)
  obtain ⟨a, ha, hea⟩ := reads n (Nat.le_refl _)
  -- from then on it has an index
  have has : ∀ d, ∃ x, (i, some x) ∈ (st (a + 1 + d)).searches := by
    intro d
    induction d with
    | zero =>
      have hs := step_of h hea
      simp only [Nat.add_zero]
      generalize st (a + 1) = t at hs ⊢
      cases hs with
      | searchRead _ h1 => exact ⟨_, List.mem_map.2 ⟨_, h1, by rw [if_pos rfl]⟩⟩
    | succ d ih =>
      obtain ⟨x, hx⟩ := ih
      refine ⟨x, ?_⟩
      rw [← Nat.add_assoc]
      cases he : ev (a + 1 + d) with
      | none => rw [same_of h he]; exact hx
      | some e =>
        have hs := step_of h he
        have hne := noEnd (a + 1 + d) (by omega)
        generalize st (a + 1 + d + 1) = t at hs ⊢
        generalize hsx : st (a + 1 + d) = s at hs hx
        cases hs with
        | searchStart j h1 h2 h3 => exact List.mem_cons_of_mem _ hx
        | searchRead j h1 => exact List.mem_map.2 ⟨_, hx, by rw [if_neg]; simp⟩
        | searchEnd j y h1 =>
          refine List.mem_filter.2 ⟨hx, ?_⟩
          by_cases hj : i = j
          · subst hj; exact absurd he (hne _ _)
          · simp [hj]
        | _ => exact hx
  obtain ⟨b, hb, heb⟩ := reads (a + 1) (by omega)
  obtain ⟨d, rfl⟩ := Nat.exists_eq_add_of_le hb
  obtain ⟨x, hx⟩ := has d
  have hs := step_of h heb
  have hu := hu (a + 1 + d)
  generalize st (a + 1 + d + 1) = t at hs
  generalize st (a + 1 + d) = s at hs hx hu
  cases hs with
  | searchRead _ h1 =>
    have := hu _ _ _ hx h1
    cases this

/-- A search that is under way can go on. -/
theorem search_possible {c : Cfg} {s : Sr.St} {i : Nat} {y : Option Nat} (h : (i, y) ∈ s.searches) : ∃ e t, ofSearch i e ∧ Sr.Step c s e t := by
  cases y with
  | none => exact ⟨_, _, .inl rfl, .searchRead s i h⟩
  | some x => exact ⟨_, _, .inr ⟨_, _, rfl⟩, .searchEnd s i x h⟩

theorem oneEach {c : Cfg} {st : Nat → Sr.St} {ev : Nat → Option Sr.Ev} {rev : Nat} (h : History (Sr.Step c) st ev) (h0 : st 0 = .init rev) :
    ∀ n, OneEach (st n)
  | 0 => by rw [h0]; intro i x y hx; cases hx
  | n + 1 => by
    cases he : ev n with
    | none => rw [same_of h he]; exact oneEach h h0 n
    | some e => exact (oneEach h h0 n).step (step_of h he)

/-- **C97.** Every search of a searcher ends, if no search is passed over for ever. -/
theorem searches_end {c : Cfg} {st : Nat → Sr.St} {ev : Nat → Option Sr.Ev} {rev : Nat} (h : History (Sr.Step c) st ev) (h0 : st 0 = .init rev)
    (hm : ∀ i, Moves (Sr.Step c) (ofSearch i) st ev) : SearchesEnd (fun _ => False) st := by
  intro n i x hx
  refine Classical.byContradiction fun hc => hc ?_
  have hin : ∀ m, n ≤ m → ∃ y, (i, y) ∈ (st m).searches := fun m hm => Classical.byContradiction fun hy =>
    hc ⟨m, hm, .inl fun y hy' => hy ⟨y, hy'⟩⟩
  obtain ⟨m, h1, h2⟩ := over_by_moves h (oneEach h h0) i n fun n' hn' =>
    hm i n' fun m hm => by
      obtain ⟨y, hy⟩ := hin m (by omega)
      exact search_possible hy
  exact ⟨m, h1, .inl h2⟩

/-- **C97.** Every search of a repository ends, if no search is passed over for ever. -/
theorem repo_searches_end {F : Type} {c : Cfg} {tree : Nat → F} {st : Nat → Cur.St F} {ev : Nat → Option Cur.Ev} {rev : Nat}
    (h : History (Cur.Step c tree) st ev) (h0 : Cur.Start tree rev (st 0))
    (hm : ∀ i, Moves (Cur.Step c tree) (fun e => ∃ x, e = .sr x ∧ ofSearch i x) st ev) : SearchesEnd (fun _ => False) fun n => (st n).sr := by
  refine searches_end (sr_history h) h0.1 fun i n hn => ?_
  obtain ⟨m, h1, e, he, x, rfl, hx⟩ := hm i n fun m hm' => by
    obtain ⟨e, t, ho, hs⟩ := hn m hm'
    refine ⟨.sr e, _, ⟨e, rfl, ho⟩, .other (st m) e t hs ?_ ?_ ?_⟩ <;> rcases ho with rfl | ⟨_, _, rfl⟩ <;> simp
  exact ⟨m, h1, x, by simp [atSearcher, he], hx⟩

/-- No goroutine is passed over, be it the searcher's or a search, and writers go first. -/
structure FairGoroutines {F : Type} (c : Cfg) (tree : Nat → F) (st : Nat → Cur.St F) (ev : Nat → Option Cur.Ev) : Prop where
  moves : Moves (Cur.Step c tree) (fun e => ownStep e = true) st ev
  searches : ∀ i, Moves (Cur.Step c tree) (fun e => ∃ x, e = .sr x ∧ ofSearch i x) st ev
  writers : WritersFirst (fun n => (st n).sr) (atSearcher ev)

/-- **C97.** What was proved under the assumption that searches end holds if no search is passed over. -/
theorem fairRepo_of_goroutines {F : Type} {c : Cfg} {tree : Nat → F} {st : Nat → Cur.St F} {ev : Nat → Option Cur.Ev} {rev : Nat}
    (h : History (Cur.Step c tree) st ev) (h0 : Cur.Start tree rev (st 0)) (hf : FairGoroutines c tree st ev) : FairRepo c tree st ev :=
  ⟨hf.moves, repo_searches_end h h0 hf.searches, hf.writers⟩

/-- **C97.** The last revision is shown in the end, if no goroutine is passed over for ever. -/
theorem last_revision_shown_fairly {F : Type} {c : Cfg} {tree : Nat → F} {st : Nat → Cur.St F} {ev : Nat → Option Cur.Ev} {rev : Nat}
    (h : History (Cur.Step c tree) st ev) (h0 : Cur.Start tree rev (st 0)) (hf : FairGoroutines c tree st ev)
    (ht : c.timer = true) (hb : ∃ m, ev m = some (.sr .begin)) (hs : ∀ m e, ev m = some (.sr e) → e.stop = false)
    (hd : ∀ m, ev m ≠ some (.sr (.destroyed false))) {n : Nat} (hq : CalmFrom ev n) :
    ∃ m, n ≤ m ∧ ShowsFrom tree st ev m (st n).upstream :=
  last_revision_shown h h0 (fairRepo_of_goroutines h h0 hf) ht hb hs hd hq

/-- The two are the same. -/
theorem fairRepo_iff {F : Type} {c : Cfg} {tree : Nat → F} {st : Nat → Cur.St F} {ev : Nat → Option Cur.Ev} {rev : Nat}
    (h : History (Cur.Step c tree) st ev) (h0 : Cur.Start tree rev (st 0)) : FairRepo c tree st ev ↔ FairGoroutines c tree st ev := by
  refine ⟨fun hf => ⟨hf.moves, fun i n hn => ?_, hf.writers⟩, fairRepo_of_goroutines h h0⟩
  exfalso
  have hin : ∀ m, n ≤ m → ∃ y, (i, y) ∈ (st m).sr.searches := by
    intro m hm
    obtain ⟨e, t, ⟨x, rfl, ho⟩, hs⟩ := hn m hm
    have hs := hs.sr_eq
    generalize t.sr = t' at hs
    generalize (st m).sr = s at hs ⊢
    rcases ho with rfl | ⟨_, _, rfl⟩
    · cases hs with
      | searchRead _ h1 => exact ⟨_, h1⟩
    · cases hs with
      | searchEnd _ _ h1 => exact ⟨_, h1⟩
  obtain ⟨x, hx⟩ := hin n (Nat.le_refl _)
  obtain ⟨m, h1, h2 | h2⟩ := hf.ends n i x hx
  · obtain ⟨y, hy⟩ := hin m h1
    exact h2 y hy
  · exact h2

/-! ## The server -/

/-- **C97.** Every search of the server ends or is cut off by the end of the process, if no search is passed over for ever. -/
theorem server_searches_end {w : Down.Site} {st : Nat → Down.St} {ev : Nat → Option Down.Ev} (h : History (Down.Step w) st ev) (h0 : st 0 = .init w)
    {i : Nat} (hi : i < w.n) (hm : ∀ k, Moves (Down.Step w) (fun e => ∃ x, e = .own i x ∧ ofSearch k x) st ev) :
    SearchesEnd (fun n => (st n).pc = .exited) fun n => (st n).srs i := by
  intro n k x hx
  refine Classical.byContradiction fun hc => hc ?_
  have hin : ∀ m, n ≤ m → (∃ y, (k, y) ∈ ((st m).srs i).searches) ∧ (st m).pc ≠ .exited := fun m hm =>
    ⟨Classical.byContradiction fun hy => hc ⟨m, hm, .inl fun y hy' => hy ⟨y, hy'⟩⟩, fun he => hc ⟨m, hm, .inr he⟩⟩
  obtain ⟨m, h1, h2⟩ := over_by_moves (down_view h i) (oneEach (rev := w.rev i) (down_view h i) (by rw [h0]; rfl)) k n fun n' hn' => by
    obtain ⟨m, h1, e, he, x, rfl, hx⟩ := hm k n' fun m hm' => by
      obtain ⟨⟨y, hy⟩, hne⟩ := hin m (by omega)
      obtain ⟨e, t, ho, hs⟩ := search_possible (c := w.cfg i) hy
      refine ⟨.own i e, _, ⟨e, rfl, ho⟩, .own (st m) i e t hne hi ?_ ?_ ?_ hs⟩ <;> rcases ho with rfl | ⟨_, _, rfl⟩ <;> simp [Sr.Ev.stop]
    exact ⟨m, h1, x, by simp [atNumber, he, Down.at_], hx⟩
  exact ⟨m, h1, .inl h2⟩

/-- No goroutine of the server is passed over, be it that of a searcher, a search or the one that ends the server, and writers go first. -/
structure FairServerGoroutines (w : Down.Site) (st : Nat → Down.St) (ev : Nat → Option Down.Ev) : Prop where
  ending : Moves (Down.Step w) (fun e => e.ender = true) st ev
  updating : ∀ i, i < w.n → Moves (Down.Step w) (fun e => ∃ x, e = .own i x ∧ x.poller = true) st ev
  searches : ∀ i, i < w.n → ∀ k, Moves (Down.Step w) (fun e => ∃ x, e = .own i x ∧ ofSearch k x) st ev
  writers : ∀ i, i < w.n → WritersFirst (fun n => (st n).srs i) (atNumber ev i)

theorem fairServer_of_goroutines {w : Down.Site} {st : Nat → Down.St} {ev : Nat → Option Down.Ev} (h : History (Down.Step w) st ev)
    (h0 : st 0 = .init w) (hf : FairServerGoroutines w st ev) : FairServer w st ev :=
  ⟨hf.ending, hf.updating, fun _ hi => server_searches_end h h0 hi (hf.searches _ hi), hf.writers⟩

/-- The two are the same. -/
theorem fairServer_iff {w : Down.Site} {st : Nat → Down.St} {ev : Nat → Option Down.Ev} (h : History (Down.Step w) st ev)
    (h0 : st 0 = .init w) : FairServer w st ev ↔ FairServerGoroutines w st ev := by
  refine ⟨fun hf => ⟨hf.ending, hf.updating, fun i hi k n hn => ?_, hf.writers⟩, fairServer_of_goroutines h h0⟩
  exfalso
  have hin : ∀ m, n ≤ m → (∃ y, (k, y) ∈ ((st m).srs i).searches) ∧ (st m).pc ≠ .exited := by
    intro m hm
    obtain ⟨e, t, ⟨x, rfl, ho⟩, hs⟩ := hn m hm
    generalize st m = s at hs ⊢
    cases hs with
    | own _ _ t' hne _ _ _ _ hs =>
      refine ⟨?_, hne⟩
      generalize s.srs i = r at hs ⊢
      rcases ho with rfl | ⟨_, _, rfl⟩
      · cases hs with
        | searchRead _ h1 => exact ⟨_, h1⟩
      · cases hs with
        | searchEnd _ _ h1 => exact ⟨_, h1⟩
  obtain ⟨⟨x, hx⟩, -⟩ := hin n (Nat.le_refl _)
  obtain ⟨m, h1, h2 | h2⟩ := hf.ends i hi n k x hx
  · obtain ⟨⟨y, hy⟩, -⟩ := hin m h1
    exact h2 y hy
  · exact (hin m h1).2 h2

/-- **C97.** The server ends after a signal, if no goroutine is passed over for ever. -/
theorem server_ends_fairly {w : Down.Site} {st : Nat → Down.St} {ev : Nat → Option Down.Ev} (h : History (Down.Step w) st ev) (h0 : st 0 = .init w)
    (hf : FairServerGoroutines w st ev) (hcap : 0 < w.cap) (hsig : ∃ m, ev m = some .signal) (hh : ∃ m, ev m = some .handle)
    (hc : ∀ i < w.n, (w.cfg i).timer = true ∨ ((w.cfg i).poll = false ∧ (w.cfg i).push = false)) : ∃ m, (st m).pc = .exited :=
  server_ends h h0 (fairServer_of_goroutines h h0 hf) hcap hsig hh hc

/-! ## Cases -/

/-- The hypotheses of `last_revision_shown_fairly` are met, with a change and searches for ever. -/
example : ∃ st ev, History (Cur.Step both id) st ev ∧ FairGoroutines both id st ev ∧ (st 4).upstream = 8 ∧
    ∃ m, 4 ≤ m ∧ ShowsFrom id st ev m 8 := by
  obtain ⟨st, ev, h1, h2, h3, h4, h5, h6, h7, h8, h9, h10, h11, h12, h13⟩ := fair_case
  have hf := (fairRepo_iff h1 h2).1 h3
  refine ⟨st, ev, h1, hf, h10, ?_⟩
  have := last_revision_shown_fairly h1 h2 hf h4 ⟨0, h5⟩ h7 h8 h9
  rwa [h10] at this

/-- The hypotheses of `server_ends_fairly` are met. -/
example : ∃ st ev, History (Down.Step (two both)) st ev ∧ FairServerGoroutines (two both) st ev ∧ ∃ m, (st m).pc = .exited := by
  obtain ⟨st, ev, h1, h2, h3, h4, h5, h6, h7⟩ := fair_end_case
  have hf := (fairServer_iff h1 h2).1 h3
  exact ⟨st, ev, h1, hf, server_ends_fairly h1 h2 hf h4 h5 h6 fun i hi => .inl (h7 i hi)⟩

end Hound.Fair
