import Verif.Proofs.RegexpQuery
import Verif.Spec.Compile

/-! # Programs of the shape `syntax.Compile` builds find exactly the matches inside a line -/

namespace Hound
open Spec

/-- The program can accept from here in `n` steps. -/
inductive RAccN (orbit : Rune → List Rune) (l : Bytes) (bot eot : Bool) (p : Prog) : Nat → Nat → Nat → Prop
  | accept {pos pc} (h : p.inst[pc]? = some .accept) : RAccN orbit l bot eot p 0 pos pc
  | step {n pos pc pos' pc'} (s : RStep orbit (RuneAt l) p l bot eot (pos, pc) (pos', pc'))
      (h : RAccN orbit l bot eot p n pos' pc') : RAccN orbit l bot eot p (n + 1) pos pc

section
variable {orbit : Rune → List Rune} {l : Bytes} {bot eot : Bool} {p : Prog}

theorem raccN_iff_path {pos pc : Nat} : (∃ n, RAccN orbit l bot eot p n pos pc) ↔
    ∃ j pc', RPath orbit (RuneAt l) p l bot eot (pos, pc) (j, pc') ∧ p.inst[pc']? = some .accept := by
  constructor
  · rintro ⟨n, h⟩
    induction h with
    | accept h => exact ⟨_, _, .refl _, h⟩
    | step s _ ih =>
      obtain ⟨j, pc', h1, h2⟩ := ih
      refine ⟨j, pc', ?_, h2⟩
      have : ∀ {a b c}, RStep orbit (RuneAt l) p l bot eot a b → RPath orbit (RuneAt l) p l bot eot b c →
          RPath orbit (RuneAt l) p l bot eot a c := by
        intro a b c hs hp
        induction hp with
        | refl => exact (RPath.refl _).tail hs
        | tail _ s ih => exact ih.tail s
      exact this s h1
  · rintro ⟨j, pc', h1, h2⟩
    have : ∀ {a b}, RPath orbit (RuneAt l) p l bot eot a b → (∃ n, RAccN orbit l bot eot p n b.1 b.2) →
        ∃ n, RAccN orbit l bot eot p n a.1 a.2 := by
      intro a b h
      induction h with
      | refl => exact id
      | tail _ s ih =>
        rintro ⟨n, h⟩
        exact ih ⟨n + 1, .step s h⟩
    exact this h1 ⟨0, .accept h2⟩

theorem raccN_skip {i : Inst} {n pos pc a : Nat} (h : p.inst[pc]? = some i) (hi : IsSkip i a)
    (hr : RAccN orbit l bot eot p n pos pc) : ∃ m, m < n ∧ RAccN orbit l bot eot p m pos a := by
  rcases hi with rfl | rfl
  all_goals
    cases hr with
    | accept h' => rw [h] at h'; cases h'
    | step s hr =>
      refine ⟨_, Nat.lt_succ_self _, ?_⟩
      cases s with
      | plain s => cases s <;> (rename_i h'; try (rw [h] at h'; cases h')) <;> first | exact hr | (simp_all)
      | rune h' ho => rw [h] at h'; cases h'; cases ho

theorem raccN_alt {i : Inst} {n pos pc a b : Nat} (h : p.inst[pc]? = some i) (hi : IsAlt i a b)
    (hr : RAccN orbit l bot eot p n pos pc) :
    ∃ m, m < n ∧ (RAccN orbit l bot eot p m pos a ∨ RAccN orbit l bot eot p m pos b) := by
  rcases hi with rfl | rfl | rfl | rfl
  all_goals
    cases hr with
    | accept h' => rw [h] at h'; cases h'
    | step s hr =>
      refine ⟨_, Nat.lt_succ_self _, ?_⟩
      cases s with
      | plain s => cases s <;> simp_all
      | rune h' ho => rw [h] at h'; cases h'; cases ho

theorem raccN_empty {op : EmptyOp} {n pos pc a : Nat} (h : p.inst[pc]? = some (.empty op a))
    (hr : RAccN orbit l bot eot p n pos pc) :
    Asserted op (flagsAt l bot eot pos) ∧ ∃ m, m < n ∧ RAccN orbit l bot eot p m pos a := by
  cases hr with
  | accept h' => rw [h] at h'; cases h'
  | step s hr =>
    cases s with
    | plain s =>
      cases s <;> simp_all
      exact ⟨_, Nat.lt_succ_self _, hr⟩
    | rune h' ho => rw [h] at h'; cases h'; cases ho

theorem raccN_fail {n pos pc : Nat} (h : p.inst[pc]? = some .fail) (hr : RAccN orbit l bot eot p n pos pc) :
    False := by
  cases hr with
  | accept h' => rw [h] at h'; cases h'
  | step s hr =>
    cases s with
    | plain s => cases s <;> simp_all
    | rune h' ho => rw [h] at h'; cases h'; cases ho

theorem raccN_rune {i : Inst} {n pos pc out : Nat} (h : p.inst[pc]? = some i) (ho : runeOut i = some out)
    (hr : RAccN orbit l bot eot p n pos pc) :
    ∃ m r pos', m < n ∧ InstHas orbit i r ∧ RuneAt l r pos pos' ∧ RAccN orbit l bot eot p m pos' out := by
  cases hr with
  | accept h' => rw [h] at h'; cases h'; cases ho
  | step s hr =>
    cases s with
    | plain s => cases s <;> (simp_all; try (subst_vars; simp [runeOut] at ho))
    | rune h' ho' hi hat =>
      rw [h] at h'; cases h'; rw [ho] at ho'; cases ho'
      exact ⟨_, _, _, Nat.lt_succ_self _, hi, hat, hr⟩

/-- The program can accept from here. -/
def RAcc (orbit : Rune → List Rune) (l : Bytes) (bot eot : Bool) (p : Prog) (pos pc : Nat) : Prop :=
  ∃ n, RAccN orbit l bot eot p n pos pc

theorem racc_skip {i : Inst} {pos pc a : Nat} (h : p.inst[pc]? = some i) (hi : IsSkip i a)
    (hr : RAcc orbit l bot eot p pos a) : RAcc orbit l bot eot p pos pc := by
  obtain ⟨n, hr⟩ := hr
  rcases hi with rfl | rfl
  · exact ⟨n + 1, .step (.plain (.nop h)) hr⟩
  · exact ⟨n + 1, .step (.plain (.capture h)) hr⟩

theorem racc_alt {i : Inst} {pos pc a b : Nat} (h : p.inst[pc]? = some i) (hi : IsAlt i a b)
    (hr : RAcc orbit l bot eot p pos a ∨ RAcc orbit l bot eot p pos b) : RAcc orbit l bot eot p pos pc := by
  rcases hr with ⟨n, hr⟩ | ⟨n, hr⟩ <;> rcases hi with rfl | rfl | rfl | rfl
  · exact ⟨n + 1, .step (.plain (.altOut h)) hr⟩
  · exact ⟨n + 1, .step (.plain (.altArg h)) hr⟩
  · exact ⟨n + 1, .step (.plain (.altMatchOut h)) hr⟩
  · exact ⟨n + 1, .step (.plain (.altMatchArg h)) hr⟩
  · exact ⟨n + 1, .step (.plain (.altArg h)) hr⟩
  · exact ⟨n + 1, .step (.plain (.altOut h)) hr⟩
  · exact ⟨n + 1, .step (.plain (.altMatchArg h)) hr⟩
  · exact ⟨n + 1, .step (.plain (.altMatchOut h)) hr⟩

theorem racc_empty {op : EmptyOp} {pos pc a : Nat} (h : p.inst[pc]? = some (.empty op a))
    (hf : Asserted op (flagsAt l bot eot pos)) (hr : RAcc orbit l bot eot p pos a) :
    RAcc orbit l bot eot p pos pc := by
  obtain ⟨n, hr⟩ := hr
  exact ⟨n + 1, .step (.plain (.empty h hf)) hr⟩

theorem racc_rune {i : Inst} {pos pos' pc out : Nat} {r : Rune} (h : p.inst[pc]? = some i) (ho : runeOut i = some out)
    (hi : InstHas orbit i r) (hat : RuneAt l r pos pos') (hr : RAcc orbit l bot eot p pos' out) :
    RAcc orbit l bot eot p pos pc := by
  obtain ⟨n, hr⟩ := hr
  exact ⟨n + 1, .step (.rune h ho hi hat) hr⟩

end

/-! ## Positions of the line and positions of the text -/

theorem slice_length {w : Bytes} {s e : Nat} (he : e ≤ w.length) : (slice w s e).length = e - s := by
  unfold slice; rw [List.length_take, List.length_drop]; omega

theorem slice_slice {w : Bytes} {s e i j : Nat} (h : s + j ≤ e) : slice (slice w s e) i j = slice w (s + i) (s + j) := by
  unfold slice
  rw [List.drop_take, List.drop_drop, List.take_take]
  congr 1
  omega

theorem slice_get {w : Bytes} {s e i : Nat} (h : s + i < e) : (slice w s e)[i]? = w[s + i]? := by
  unfold slice
  rw [List.getElem?_take_of_lt (by omega), List.getElem?_drop]

section
variable {w : Bytes} {s e : Nat}

theorem runeAt_line (he : e ≤ w.length) {r : Rune} {i j : Nat} (hj : s + j ≤ e) :
    RuneAt (slice w s e) r i j ↔ RuneAt w r (s + i) (s + j) := by
  unfold RuneAt
  rw [slice_length he, slice_slice hj]
  constructor
  · rintro ⟨a, b, c, d⟩; exact ⟨a, by omega, by omega, d⟩
  · rintro ⟨a, b, c, d⟩; exact ⟨a, by omega, by omega, d⟩

theorem line_noNL (h : LineAt w s e) {i : Nat} (h1 : s ≤ i) (h2 : i < e) : w[i]? ≠ some NL := by
  intro hw
  apply h.2.2.1
  have := slice_get (w := w) (s := s) (e := e) (i := i - s) (by omega)
  rw [show s + (i - s) = i by omega, hw] at this
  exact List.mem_of_getElem? this

theorem line_bol (h : LineAt w s e) {pos : Nat} (hp : s + pos ≤ e) :
    pos = 0 ↔ (s + pos = 0 ∨ w[s + pos - 1]? = some NL) := by
  constructor
  · rintro rfl; exact h.2.2.2.1
  · intro hh
    rcases hh with hh | hh
    · omega
    · apply Classical.byContradiction
      intro hn
      exact line_noNL h (i := s + pos - 1) (by omega) (by omega) hh

theorem line_eol (h : LineAt w s e) {pos : Nat} (hp : s + pos ≤ e) :
    pos = (slice w s e).length ↔ (s + pos = w.length ∨ w[s + pos]? = some NL) := by
  rw [slice_length h.2.1]
  have hse := h.1
  constructor
  · intro hh
    rw [show s + pos = e by omega]
    exact h.2.2.2.2
  · intro hh
    have he := h.2.1
    rcases hh with hh | hh
    · omega
    · apply Classical.byContradiction
      intro hn
      exact line_noNL h (i := s + pos) (by omega) (by omega) hh

theorem line_wb (h : LineAt w s e) {pos : Nat} (hp : s + pos ≤ e) :
    wordBoundaryAt (slice w s e) pos = wordBoundaryAt w (s + pos) := by
  have hse := h.1
  have he := h.2.1
  have hnl : (some NL : Option UInt8).map isWord = some false := by decide
  have hb : (decide (0 < pos) && ((slice w s e)[pos - 1]?.map isWord).getD false) =
      (decide (0 < s + pos) && (w[s + pos - 1]?.map isWord).getD false) := by
    by_cases hz : pos = 0
    · subst hz
      rcases h.2.2.2.1 with h0 | h0
      · subst h0; simp
      · simp only [Nat.add_zero]; rw [h0, hnl]; simp
    · rw [slice_get (by omega), show s + (pos - 1) = s + pos - 1 by omega]
      have h1 : decide (0 < pos) = true := by simpa using Nat.pos_of_ne_zero hz
      have h2 : decide (0 < s + pos) = true := by simp; omega
      rw [h1, h2]
  have ha : (((slice w s e)[pos]?.map isWord).getD false) = ((w[s + pos]?.map isWord).getD false) := by
    by_cases hz : s + pos < e
    · rw [slice_get hz]
    · have hpe : s + pos = e := by omega
      rw [List.getElem?_eq_none (by rw [slice_length he]; omega), hpe]
      rcases h.2.2.2.2 with h0 | h0
      · rw [List.getElem?_eq_none (by omega)]
      · rw [h0, hnl]; rfl
  unfold wordBoundaryAt
  rw [hb, ha]

variable {orbit : Rune → List Rune} {p : Prog}

theorem thompson_sound (h : LineAt w s e) {re : Re} {a k : Nat} (ht : Thompson orbit p.inst re a k) :
    ∀ n pos, s + pos ≤ e → RAccN orbit (slice w s e) (s == 0) (e == w.length) p n pos a →
      ∃ pos' n', n' ≤ n ∧ s + pos' ≤ e ∧ MatchAt orbit w re (s + pos) (s + pos') ∧
        RAccN orbit (slice w s e) (s == 0) (e == w.length) p n' pos' k := by
  have he := h.2.1
  have hlen := slice_length (s := s) he
  have rune : ∀ {i : Inst} {n pos pc out : Nat}, p.inst[pc]? = some i → runeOut i = some out →
      RAccN orbit (slice w s e) (s == 0) (e == w.length) p n pos pc →
      ∃ m r pos', m < n ∧ InstHas orbit i r ∧ s + pos' ≤ e ∧ RuneAt w r (s + pos) (s + pos') ∧
        RAccN orbit (slice w s e) (s == 0) (e == w.length) p m pos' out := by
    intro i n pos pc out h1 h2 h3
    obtain ⟨m, r, pos', h4, h5, h6, h7⟩ := raccN_rune h1 h2 h3
    have hle := (runeAt_le h6)
    have hp' : s + pos' ≤ e := by rw [hlen] at hle; have := h.1; omega
    exact ⟨m, r, pos', h4, h5, hp', (runeAt_line he hp').mp h6, h7⟩
  have empt : ∀ {op : EmptyOp} {n pos pc out : Nat} {P : Prop}, p.inst[pc]? = some (.empty op out) → s + pos ≤ e →
      (Asserted op (flagsAt (slice w s e) (s == 0) (e == w.length) pos) → P) →
      RAccN orbit (slice w s e) (s == 0) (e == w.length) p n pos pc →
      ∃ pos' n', n' ≤ n ∧ s + pos' ≤ e ∧ (s + pos = s + pos' ∧ P) ∧
        RAccN orbit (slice w s e) (s == 0) (e == w.length) p n' pos' out := by
    intro op n pos pc out P h1 h2 h3 h4
    obtain ⟨h5, m, h6, h7⟩ := raccN_empty h1 h4
    exact ⟨pos, m, by omega, h2, ⟨rfl, h3 h5⟩, h7⟩
  induction ht with
  | fail hi => intro n pos _ hr; exact absurd (raccN_fail hi hr) id
  | emptyMatch => intro n pos hp hr; exact ⟨pos, n, Nat.le_refl _, hp, rfl, hr⟩
  | skip hi hs _ ih =>
    intro n pos hp hr
    obtain ⟨m, h1, h2⟩ := raccN_skip hi hs hr
    obtain ⟨pos', n', h3, h4⟩ := ih m pos hp h2
    exact ⟨pos', n', by omega, h4⟩
  | skipEnd hi hs _ ih =>
    intro n pos hp hr
    obtain ⟨pos', n', h3, h4, h5, h6⟩ := ih n pos hp hr
    obtain ⟨m, h1, h2⟩ := raccN_skip hi hs h6
    exact ⟨pos', m, by omega, h4, h5, h2⟩
  | litNil => intro n pos hp hr; exact ⟨pos, n, Nat.le_refl _, hp, rfl, hr⟩
  | litCons hi ho hh _ ih =>
    intro n pos hp hr
    obtain ⟨m, r, pos1, h1, h2, h3, h4, h5⟩ := rune hi ho hr
    obtain ⟨pos', n', h6, h7, h8, h9⟩ := ih m pos1 h3 h5
    refine ⟨pos', n', by omega, h7, ?_, h9⟩
    simp only [MatchAt, LitAt] at h8 ⊢
    exact ⟨r, _, (hh r).mp h2, h4, h8⟩
  | charClass hi ho hh =>
    intro n pos hp hr
    obtain ⟨m, r, pos1, h1, h2, h3, h4, h5⟩ := rune hi ho hr
    obtain ⟨q, hq, h6, h7⟩ := (hh r).mp h2
    refine ⟨pos1, m, by omega, h3, ?_, h5⟩
    simp only [MatchAt]
    exact ⟨q, hq, r, h6, h7, h4⟩
  | anyCharNotNL hi ho hh =>
    intro n pos hp hr
    obtain ⟨m, r, pos1, h1, h2, h3, h4, h5⟩ := rune hi ho hr
    refine ⟨pos1, m, by omega, h3, ?_, h5⟩
    simp only [MatchAt]
    exact ⟨r, (hh r).mp h2, h4⟩
  | anyChar hi ho hh =>
    intro n pos hp hr
    obtain ⟨m, r, pos1, h1, h2, h3, h4, h5⟩ := rune hi ho hr
    refine ⟨pos1, m, by omega, h3, ?_, h5⟩
    simp only [MatchAt]
    exact ⟨r, h4⟩
  | beginLine hi =>
    intro n pos hp hr
    simp only [MatchAt]
    exact empt hi hp (fun hf => by
      have : pos = 0 := by simpa [Asserted, flagsAt] using hf
      exact (line_bol h hp).mp this) hr
  | endLine hi =>
    intro n pos hp hr
    simp only [MatchAt]
    exact empt hi hp (fun hf => by
      have : pos = (slice w s e).length := by simpa [Asserted, flagsAt] using hf
      exact (line_eol h hp).mp this) hr
  | beginText hi =>
    intro n pos hp hr
    simp only [MatchAt]
    exact empt hi hp (fun hf => by
      have : s = 0 ∧ pos = 0 := by simpa [Asserted, flagsAt] using hf
      omega) hr
  | endText hi =>
    intro n pos hp hr
    simp only [MatchAt]
    exact empt hi hp (fun hf => by
      have : e = w.length ∧ pos = (slice w s e).length := by simpa [Asserted, flagsAt] using hf
      rw [hlen] at this
      have := h.1
      omega) hr
  | wordBoundary hi =>
    intro n pos hp hr
    simp only [MatchAt]
    exact empt hi hp (fun hf => by
      have : wordBoundaryAt (slice w s e) pos = true := by simpa [Asserted, flagsAt] using hf
      rw [← line_wb h hp]; exact this) hr
  | noWordBoundary hi =>
    intro n pos hp hr
    simp only [MatchAt]
    exact empt hi hp (fun hf => by
      have : wordBoundaryAt (slice w s e) pos = false := by simpa [Asserted, flagsAt] using hf
      rw [← line_wb h hp]; exact this) hr
  | capture _ ih =>
    intro n pos hp hr
    simp only [MatchAt]
    exact ih n pos hp hr
  | star hi ha _ ih =>
    intro n
    induction n using Nat.strongRecOn with
    | _ n ihn =>
      intro pos hp hr
      obtain ⟨m, h1, h2⟩ := raccN_alt hi ha hr
      rcases h2 with h2 | h2
      · obtain ⟨pos1, n1, h3, h4, h5, h6⟩ := ih m pos hp h2
        obtain ⟨pos', n', h7, h8, h9, h10⟩ := ihn n1 (by omega) pos1 h4 h6
        simp only [MatchAt] at h9 ⊢
        obtain ⟨c, h9⟩ := h9
        exact ⟨pos', n', by omega, h8, ⟨c + 1, _, h5, h9⟩, h10⟩
      · refine ⟨pos, m, by omega, hp, ?_, h2⟩
        simp only [MatchAt]
        exact ⟨0, rfl⟩
  | plus hi ha _ ih =>
    rename_i r i b l k hf
    have loop : ∀ n pos, s + pos ≤ e → RAccN orbit (slice w s e) (s == 0) (e == w.length) p n pos l →
        ∃ pos' n', n' ≤ n ∧ s + pos' ≤ e ∧ (∃ c, Iter (MatchAt orbit w r) c (s + pos) (s + pos')) ∧
        RAccN orbit (slice w s e) (s == 0) (e == w.length) p n' pos' k := by
      intro n
      induction n using Nat.strongRecOn with
      | _ n ihn =>
        intro pos hp hr
        obtain ⟨m, h1, h2⟩ := raccN_alt hi ha hr
        rcases h2 with h2 | h2
        · obtain ⟨pos1, n1, h3, h4, h5, h6⟩ := ih m pos hp h2
          obtain ⟨pos', n', h7, h8, ⟨c, h9⟩, h10⟩ := ihn n1 (by omega) pos1 h4 h6
          exact ⟨pos', n', by omega, h8, ⟨c + 1, _, h5, h9⟩, h10⟩
        · exact ⟨pos, m, by omega, hp, ⟨0, rfl⟩, h2⟩
    intro n pos hp hr
    obtain ⟨pos1, n1, h3, h4, h5, h6⟩ := ih n pos hp hr
    obtain ⟨pos', n', h7, h8, ⟨c, h9⟩, h10⟩ := loop n1 pos1 h4 h6
    simp only [MatchAt]
    exact ⟨pos', n', by omega, h8, ⟨c, _, h5, h9⟩, h10⟩
  | quest hi ha _ ih =>
    intro n pos hp hr
    obtain ⟨m, h1, h2⟩ := raccN_alt hi ha hr
    simp only [MatchAt]
    rcases h2 with h2 | h2
    · obtain ⟨pos1, n1, h3, h4, h5, h6⟩ := ih m pos hp h2
      exact ⟨pos1, n1, by omega, h4, .inr h5, h6⟩
    · exact ⟨pos, m, by omega, hp, .inl rfl, h2⟩
  | concatNil => intro n pos hp hr; exact ⟨pos, n, Nat.le_refl _, hp, rfl, hr⟩
  | concatCons _ _ ih1 ih2 =>
    intro n pos hp hr
    obtain ⟨pos1, n1, h3, h4, h5, h6⟩ := ih1 n pos hp hr
    obtain ⟨pos', n', h7, h8, h9, h10⟩ := ih2 n1 pos1 h4 h6
    simp only [MatchAt, ConcatAt] at h9 ⊢
    exact ⟨pos', n', by omega, h8, ⟨_, h5, h9⟩, h10⟩
  | altNil hi => intro n pos _ hr; exact absurd (raccN_fail hi hr) id
  | altOne _ ih =>
    intro n pos hp hr
    obtain ⟨pos1, n1, h3, h4, h5, h6⟩ := ih n pos hp hr
    simp only [MatchAt, AlternateAt]
    exact ⟨pos1, n1, h3, h4, .inl h5, h6⟩
  | altCons hi ha _ _ ih1 ih2 =>
    intro n pos hp hr
    obtain ⟨m, h1, h2⟩ := raccN_alt hi ha hr
    simp only [MatchAt, AlternateAt] at ih2 ⊢
    rcases h2 with h2 | h2
    · obtain ⟨pos1, n1, h3, h4, h5, h6⟩ := ih1 m pos hp h2
      exact ⟨pos1, n1, by omega, h4, .inl h5, h6⟩
    · obtain ⟨pos1, n1, h3, h4, h5, h6⟩ := ih2 m pos hp h2
      exact ⟨pos1, n1, by omega, h4, .inr h5, h6⟩
  | simplify hq _ ih =>
    intro n pos hp hr
    obtain ⟨pos1, n1, h3, h4, h5, h6⟩ := ih n pos hp hr
    exact ⟨pos1, n1, h3, h4, (hq _ _ _).mpr h5, h6⟩

theorem thompson_complete (h : LineAt w s e) {re : Re} {a k : Nat} (ht : Thompson orbit p.inst re a k) :
    ∀ i j, s ≤ i → i ≤ e → j ≤ e → MatchAt orbit w re i j →
      RAcc orbit (slice w s e) (s == 0) (e == w.length) p (j - s) k →
      RAcc orbit (slice w s e) (s == 0) (e == w.length) p (i - s) a := by
  have he := h.2.1
  have hlen := slice_length (s := s) he
  have hse := h.1
  have rune : ∀ {ins : Inst} {i j pc out : Nat} {r : Rune}, p.inst[pc]? = some ins → runeOut ins = some out →
      s ≤ i → j ≤ e → InstHas orbit ins r → RuneAt w r i j →
      RAcc orbit (slice w s e) (s == 0) (e == w.length) p (j - s) out →
      RAcc orbit (slice w s e) (s == 0) (e == w.length) p (i - s) pc := by
    intro ins i j pc out r h1 h2 h3 h4 h5 h6 h7
    have hle := runeAt_le h6
    refine racc_rune h1 h2 h5 ((runeAt_line he (by omega)).mpr ?_) h7
    rw [show s + (i - s) = i by omega, show s + (j - s) = j by omega]
    exact h6
  induction ht with
  | fail => intro i j _ _ _ hm; simp [MatchAt] at hm
  | emptyMatch => intro i j _ _ _ hm hr; simp only [MatchAt] at hm; subst hm; exact hr
  | skip hi hs _ ih => intro i j a b c d f; exact racc_skip hi hs (ih i j a b c d f)
  | skipEnd hi hs _ ih => intro i j a b c d f; exact ih i j a b c d (racc_skip hi hs f)
  | litNil => intro i j _ _ _ hm hr; simp only [MatchAt, LitAt] at hm; subst hm; exact hr
  | litCons hi ho hh _ ih =>
    intro i j a b c hm hr
    simp only [MatchAt, LitAt] at hm
    obtain ⟨r, m, h1, h2, h3⟩ := hm
    have h4 := runeAt_le h2
    have hle : m ≤ j := (matchAt_forward orbit w (.literal _ _) m j (by omega) (by simp only [MatchAt]; exact h3)).1
    exact rune hi ho a (by omega) ((hh r).mpr h1) h2 (ih m j (by omega) (by omega) c (by simp only [MatchAt]; exact h3) hr)
  | charClass hi ho hh =>
    intro i j a b c hm hr
    simp only [MatchAt] at hm
    obtain ⟨q, hq, r, h1, h2, h3⟩ := hm
    exact rune hi ho a c ((hh r).mpr ⟨q, hq, h1, h2⟩) h3 hr
  | anyCharNotNL hi ho hh =>
    intro i j a b c hm hr
    simp only [MatchAt] at hm
    obtain ⟨r, h1, h3⟩ := hm
    exact rune hi ho a c ((hh r).mpr h1) h3 hr
  | anyChar hi ho hh =>
    intro i j a b c hm hr
    simp only [MatchAt] at hm
    obtain ⟨r, h3⟩ := hm
    exact rune hi ho a c (hh r) h3 hr
  | beginLine hi =>
    intro i j a b c hm hr
    simp only [MatchAt] at hm
    obtain ⟨rfl, h1⟩ := hm
    refine racc_empty hi ?_ hr
    have := (line_bol h (pos := i - s) (by omega)).mpr (by rw [show s + (i - s) = i by omega]; exact h1)
    simp [Asserted, flagsAt, this]
  | endLine hi =>
    intro i j a b c hm hr
    simp only [MatchAt] at hm
    obtain ⟨rfl, h1⟩ := hm
    refine racc_empty hi ?_ hr
    have := (line_eol h (pos := i - s) (by omega)).mpr (by rw [show s + (i - s) = i by omega]; exact h1)
    simp [Asserted, flagsAt, this]
  | beginText hi =>
    intro i j a b c hm hr
    simp only [MatchAt] at hm
    obtain ⟨rfl, h1⟩ := hm
    refine racc_empty hi ?_ hr
    have h2 : s = 0 := by omega
    have h3 : i - s = 0 := by omega
    simp [Asserted, flagsAt, h2, h1]
  | endText hi =>
    intro i j a b c hm hr
    simp only [MatchAt] at hm
    obtain ⟨rfl, h1⟩ := hm
    refine racc_empty hi ?_ hr
    have h2 : e = w.length := by omega
    have h3 : i - s = (slice w s e).length := by omega
    have h4 : (e == w.length) = true := by simp [h2]
    simp only [Asserted, flagsAt, h3, h4]
    simp
  | wordBoundary hi =>
    intro i j a b c hm hr
    simp only [MatchAt] at hm
    obtain ⟨rfl, h1⟩ := hm
    refine racc_empty hi ?_ hr
    have := line_wb h (pos := i - s) (by omega)
    rw [show s + (i - s) = i by omega, h1] at this
    simp [Asserted, flagsAt, this]
  | noWordBoundary hi =>
    intro i j a b c hm hr
    simp only [MatchAt] at hm
    obtain ⟨rfl, h1⟩ := hm
    refine racc_empty hi ?_ hr
    have := line_wb h (pos := i - s) (by omega)
    rw [show s + (i - s) = i by omega, h1] at this
    simp [Asserted, flagsAt, this]
  | capture _ ih =>
    intro i j a b c hm hr
    simp only [MatchAt] at hm
    exact ih i j a b c hm hr
  | star hi ha _ ih =>
    intro i j a b c hm hr
    simp only [MatchAt] at hm
    obtain ⟨n, hm⟩ := hm
    induction n generalizing i with
    | zero => simp only [Iter] at hm; subst hm; exact racc_alt hi ha (.inr hr)
    | succ n ihn =>
      obtain ⟨m, h1, h2⟩ := hm
      have h3 := matchAt_forward orbit w _ i m (by omega) h1
      have h4 := Iter.forward (matchAt_forward orbit w _) n m j h3.2 h2
      exact racc_alt hi ha (.inl (ih i m a b (by omega) h1 (ihn m (by omega) (by omega) h2)))
  | plus hi ha _ ih =>
    rename_i r ins b l k hf
    intro i j a b c hm hr
    simp only [MatchAt] at hm
    obtain ⟨n, hm⟩ := hm
    induction n generalizing i with
    | zero =>
      obtain ⟨m, h1, h2⟩ := hm
      simp only [Iter] at h2; subst h2
      exact ih i m a b c h1 (racc_alt hi ha (.inr hr))
    | succ n ihn =>
      obtain ⟨m, h1, h2⟩ := hm
      have h3 := matchAt_forward orbit w _ i m (by omega) h1
      have h4 := Iter.forward (matchAt_forward orbit w _) (n + 1) m j h3.2 h2
      exact ih i m a b (by omega) h1 (racc_alt hi ha (.inl (ihn m (by omega) (by omega) h2)))
  | quest hi ha _ ih =>
    intro i j a b c hm hr
    simp only [MatchAt] at hm
    rcases hm with rfl | hm
    · exact racc_alt hi ha (.inr hr)
    · exact racc_alt hi ha (.inl (ih i j a b c hm hr))
  | concatNil => intro i j _ _ _ hm hr; simp only [MatchAt, ConcatAt] at hm; subst hm; exact hr
  | concatCons _ _ ih1 ih2 =>
    rename_i r rs e1 m1 k1 _ _
    intro i j a b c hm hr
    simp only [MatchAt, ConcatAt] at hm ih2
    obtain ⟨m, h1, h2⟩ := hm
    have h3 := matchAt_forward orbit w _ i m (by omega) h1
    have h4 := (matchAt_forward orbit w (.concat rs) m j h3.2 (by simp only [MatchAt]; exact h2)).1
    exact ih1 i m a b (by omega) h1 (ih2 m j (by omega) (by omega) c h2 hr)
  | altNil => intro i j _ _ _ hm; simp [MatchAt, AlternateAt] at hm
  | altOne _ ih =>
    intro i j a b c hm hr
    simp only [MatchAt, AlternateAt, or_false] at hm
    exact ih i j a b c hm hr
  | altCons hi ha _ _ ih1 ih2 =>
    intro i j a b c hm hr
    simp only [MatchAt, AlternateAt] at hm ih2
    rcases hm with hm | hm
    · exact racc_alt hi ha (.inl (ih1 i j a b c hm hr))
    · exact racc_alt hi ha (.inr (ih2 i j a b c hm hr))
  | simplify hq _ ih =>
    intro i j a b c hm hr
    exact ih i j a b c ((hq _ _ _).mp hm) hr

/-- A program of the shape `syntax.Compile` builds is faithful to its expression. -/
theorem compiles_faithful {re : Re} (hc : Compiles orbit re p) : Faithful orbit re p := by
  obtain ⟨k, ht, hk⟩ := hc
  intro w s e h
  have hlen := slice_length (s := s) h.2.1
  have hse := h.1
  constructor
  · rintro ⟨i, j, pc, hi, hp, ha⟩
    obtain ⟨n, hr⟩ := raccN_iff_path.mpr ⟨j, pc, hp, ha⟩
    obtain ⟨pos', n', _, h2, h3, _⟩ := thompson_sound h ht n i (by omega) hr
    have := (matchAt_forward orbit w re _ _ (by have := h.2.1; omega) h3).1
    exact ⟨s + i, s + pos', by omega, this, h2, h3⟩
  · rintro ⟨i, j, h1, h2, h3, h4⟩
    have hr := thompson_complete h ht i j h1 (by omega) h3 h4 ⟨0, .accept hk⟩
    obtain ⟨j', pc, h5, h6⟩ := raccN_iff_path.mp hr
    exact ⟨i - s, j', pc, by omega, h5, h6⟩

end

end Hound
