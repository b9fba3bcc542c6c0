import Verif.Proofs.Search
import Verif.Proofs.Thompson
import Verif.Props.Matcher

/-! # Lemmas for the completeness of a whole search (C01) -/

namespace Hound
open Spec

/-! ## A line given by its positions, and its number -/

theorem pieces_append_newline (x y : Bytes) : pieces (x ++ NL :: y) = pieces x ++ pieces y := by
  induction x with
  | nil => simp [pieces, NL]
  | cons c cs ih =>
    simp only [List.cons_append, pieces, ih]
    split
    · simp
    · have hne := pieces_ne_nil cs
      cases hp : pieces cs with
      | nil => exact absurd hp hne
      | cons a as => simp

theorem pieces_len (x : Bytes) : (pieces x).length = x.count NL + 1 := by
  induction x with
  | nil => simp [pieces]
  | cons c cs ih =>
    simp only [pieces]
    split
    · rename_i h
      subst h
      rw [List.length_cons, ih]
      have : List.count NL (10 :: cs) = List.count NL cs + 1 := List.count_cons_self
      omega
    · rename_i h
      have hne := pieces_ne_nil cs
      have hc : List.count NL (c :: cs) = List.count NL cs := List.count_cons_of_ne (by simpa using h)
      cases hp : pieces cs with
      | nil => exact absurd hp hne
      | cons a as => rw [hc, ← ih, hp]; rfl

theorem slice_split {w : Bytes} {s e : Nat} (h1 : s ≤ e) :
    w = w.take s ++ (slice w s e ++ w.drop e) := by
  unfold slice
  conv => lhs; rw [← List.take_append_drop s w, ← List.take_append_drop (e - s) (w.drop s)]
  rw [List.drop_drop, show s + (e - s) = e by omega]

/-- The line between `s` and `e` is piece number (newlines before it), and it is the last piece exactly if it
reaches the end of the text. -/
theorem line_is_piece {w : Bytes} {s e : Nat} (h : LineAt w s e) :
    (pieces w)[(w.take s).count NL]? = some (slice w s e) ∧
      ((w.take s).count NL + 1 = (pieces w).length ↔ e = w.length) := by
  obtain ⟨h1, h2, h3, h4, h5⟩ := h
  have tail : ∃ ps, pieces (slice w s e ++ w.drop e) = slice w s e :: ps ∧ (ps = [] ↔ e = w.length) := by
    rcases h5 with h5 | h5
    · refine ⟨[], ?_, by simp [h5]⟩
      rw [List.drop_eq_nil_of_le (by omega), List.append_nil, pieces_of_nlfree h3]
    · have hlt : e < w.length := (List.getElem?_eq_some_iff.mp h5).1
      refine ⟨pieces (w.drop (e + 1)), ?_, ?_⟩
      · rw [List.drop_eq_getElem_cons hlt, (List.getElem?_eq_some_iff.mp h5).2, pieces_append_newline,
          pieces_of_nlfree h3]
        rfl
      · constructor
        · intro hh; exact absurd hh (pieces_ne_nil _)
        · intro hh; omega
  obtain ⟨ps, hp, hps⟩ := tail
  have hw := slice_split (w := w) h1
  have fin : ∀ pre : List Bytes, pre.length = (w.take s).count NL → pieces w = pre ++ (slice w s e :: ps) →
      (pieces w)[(w.take s).count NL]? = some (slice w s e) ∧
      ((w.take s).count NL + 1 = (pieces w).length ↔ e = w.length) := by
    intro pre hpre hpw
    rw [hpw, ← hpre, ← hps]
    refine ⟨by simp, ?_⟩
    rw [List.length_append, List.length_cons]
    constructor
    · intro hh; exact List.length_eq_zero_iff.mp (by omega)
    · rintro rfl; simp
  by_cases hs : s = 0
  · subst hs
    refine fin [] (by simp) ?_
    have : w = slice w 0 e ++ w.drop e := by simpa using hw
    rw [List.nil_append, ← hp, ← this]
  · have h4 : w[s - 1]? = some NL := h4.resolve_left hs
    have hlt : s - 1 < w.length := (List.getElem?_eq_some_iff.mp h4).1
    have htk : w.take s = w.take (s - 1) ++ [NL] := by
      rw [show s = (s - 1) + 1 by omega, List.take_add_one, show s - 1 + 1 - 1 = s - 1 by omega, h4]
      rfl
    refine fin (pieces (w.take (s - 1))) ?_ ?_
    · rw [pieces_len, htk, List.count_append]
      simp
    · rw [← hp, ← pieces_append_newline]
      congr 1
      conv => lhs; rw [hw, htk]
      simp

theorem count_nlTerm {ps : List Bytes} (h : ∀ p ∈ ps, NL ∉ p) : (nlTerm ps).count NL = ps.length := by
  induction ps with
  | nil => simp [nlTerm]
  | cons p ps ih =>
    rw [nlTerm, List.count_append, List.count_cons_self, ih (fun q hq => h q (by simp [hq])),
      List.count_eq_zero.mpr (h p (by simp)), List.length_cons]
    omega

/-- Every piece is a line given by its positions. -/
theorem piece_is_line {w : Bytes} {k : Nat} {l : Bytes} (h : (pieces w)[k]? = some l) :
    ∃ s e, LineAt w s e ∧ slice w s e = l ∧ (w.take s).count NL = k ∧ (k + 1 = (pieces w).length ↔ e = w.length) := by
  obtain ⟨hk, hg⟩ := List.getElem?_eq_some_iff.mp h
  have hsplit : pieces w = (pieces w).take k ++ l :: (pieces w).drop (k + 1) := by
    conv => lhs; rw [← List.take_append_drop k (pieces w)]
    rw [List.drop_eq_getElem_cons hk, hg]
  have hlk : ((pieces w).take k).length = k := by rw [List.length_take]; omega
  have hnl := pieces_nlfree w
  have hpl : ∀ p ∈ (pieces w).take k, NL ∉ p := fun p hp => hnl p (List.mem_of_mem_take hp)
  have hll : NL ∉ l := hnl l (List.mem_of_getElem? h)
  have hw : w = nlTerm ((pieces w).take k) ++ unpieces (l :: (pieces w).drop (k + 1)) := by
    conv => lhs; rw [← unpieces_pieces w, hsplit]
    rw [unpieces_append (by simp)]
  generalize hpre : (pieces w).take k = pre at *
  generalize hpost : (pieces w).drop (k + 1) = post at *
  clear hpre hpost
  have hrest : ∃ r, unpieces (l :: post) = l ++ r ∧ (post = [] → r = []) ∧ (post ≠ [] → ∃ r', r = NL :: r') := by
    cases post with
    | nil => exact ⟨[], by simp [unpieces], fun _ => rfl, fun h => absurd rfl h⟩
    | cons q qs => exact ⟨NL :: unpieces (q :: qs), rfl, by simp, fun _ => ⟨_, rfl⟩⟩
  obtain ⟨r, hr1, hr2, hr3⟩ := hrest
  rw [hr1] at hw
  have hsl : slice w (nlTerm pre).length ((nlTerm pre).length + l.length) = l := by
    rw [hw]; unfold slice; rw [List.drop_left]; simp
  have htk : w.take (nlTerm pre).length = nlTerm pre := by rw [hw, List.take_left]
  have hwl : w.length = (nlTerm pre).length + (l.length + r.length) := by
    conv => lhs; rw [hw]
    simp only [List.length_append]
  have hend : post = [] ↔ (nlTerm pre).length + l.length = w.length := by
    constructor
    · intro hp; rw [hwl, hr2 hp]; simp
    · intro he
      apply Classical.byContradiction
      intro hp
      obtain ⟨r', hr'⟩ := hr3 hp
      rw [hwl, hr', List.length_cons] at he
      omega
  refine ⟨(nlTerm pre).length, (nlTerm pre).length + l.length, ⟨by omega, by omega, ?_, ?_, ?_⟩, hsl, ?_, ?_⟩
  · rw [hsl]; exact hll
  · rcases List.eq_nil_or_concat pre with rfl | ⟨ps, p, rfl⟩
    · exact .inl rfl
    · right
      rw [List.concat_eq_append, nlTerm_concat] at hw ⊢
      rw [hw]
      simp
  · by_cases hp : post = []
    · exact .inl (hend.mp hp)
    · right
      obtain ⟨r', hr'⟩ := hr3 hp
      rw [hw, hr']
      rw [List.getElem?_append_right (by omega), List.getElem?_append_right (by omega)]
      simp
  · rw [htk, count_nlTerm hpl, hlk]
  · rw [← hend, hsplit, List.length_append, List.length_cons, hlk]
    constructor
    · intro hh; exact List.length_eq_zero_iff.mp (by omega)
    · rintro rfl; simp

/-! ## Grep reports every accepted line -/

theorem hitsFrom_complete {acc : LineAcc} (hmono : ∀ eot l, acc false eot l = true → acc true eot l = true)
    (nctx : Nat) : ∀ (ps seen : List Bytes) (n k : Nat) (l : Bytes) (bot : Bool), ps[k]? = some l →
      acc bot (decide (k + 1 = ps.length)) l = true → (bot = true → k = 0 ∧ seen = []) →
      ¬ (k + 1 = ps.length ∧ l = []) →
      ∃ m ∈ hitsFrom acc nctx seen ps n, m.lineno = n + k + 1 ∧ m.line = l := by
  have up : ∀ {bot b eot l}, acc bot eot l = true → (bot = true → b = true) → acc b eot l = true := by
    intro bot b eot l h hb
    cases bot
    · cases b
      · exact h
      · exact hmono _ _ h
    · rw [hb rfl]; exact h
  intro ps
  induction ps with
  | nil => intro seen n k l bot h; simp at h
  | cons p ps ih =>
    intro seen n k l bot hk ha hb hl
    cases ps with
    | nil =>
      have k0 : k = 0 := by
        have := (List.getElem?_eq_some_iff.mp hk).1
        simp at this; omega
      subst k0
      simp only [List.getElem?_cons_zero, Option.some.injEq] at hk
      subst hk
      have hp : ¬ (p = [] ∧ seen = []) := fun h => hl ⟨rfl, h.1⟩
      have ha' : acc seen.isEmpty true p = true := by
        refine up (by simpa using ha) ?_
        intro h; simp [(hb h).2]
      simp only [hitsFrom, if_neg hp, ha', if_true, List.mem_singleton]
      exact ⟨_, rfl, by simp⟩
    | cons q ps =>
      cases k with
      | zero =>
        simp only [List.getElem?_cons_zero, Option.some.injEq] at hk
        subst hk
        have ha' : acc seen.isEmpty false p = true := by
          refine up (by simpa using ha) ?_
          intro h; simp [(hb h).2]
        simp only [hitsFrom, ha', if_true]
        exact ⟨_, List.mem_cons_self .., by simp⟩
      | succ k =>
        have hbf : bot = false := by
          cases bot
          · rfl
          · have := (hb rfl).1; omega
        subst hbf
        have hk' : (q :: ps)[k]? = some l := by simpa using hk
        have ha' : acc false (decide (k + 1 = (q :: ps).length)) l = true := by
          simpa [Nat.add_right_cancel_iff] using ha
        have hl' : ¬ (k + 1 = (q :: ps).length ∧ l = []) := by
          intro hh; exact hl ⟨by rw [List.length_cons]; omega, hh.2⟩
        have go : ∀ seen', ∃ m ∈ hitsFrom acc nctx seen' (q :: ps) (n + 1), m.lineno = n + (k + 1) + 1 ∧ m.line = l := by
          intro seen'
          obtain ⟨m, h1, h2, h3⟩ := ih seen' (n + 1) k l false hk' ha' (by simp) hl'
          exact ⟨m, h1, by omega, h3⟩
        simp only [hitsFrom]
        split
        · obtain ⟨m, h1, h2⟩ := go []
          exact ⟨m, List.mem_cons_of_mem _ h1, h2⟩
        · exact go _

/-- Every line that the pattern accepts is reported under its number, for patterns that accept no less at the start
of the text than elsewhere. -/
theorem grepAll_complete {mt : Bytes → Option Nat} {acc : LineAcc} (hmt : IsLineMatcher mt acc)
    (hmono : ∀ eot l, acc false eot l = true → acc true eot l = true) (nctx : Nat) {w : Bytes} {s e : Nat}
    (h : LineAt w s e) (hs : s < w.length) (ha : acc (s == 0) (e == w.length) (slice w s e) = true) :
    ∃ m ∈ grepAll mt nctx w, m.lineno = (w.take s).count NL + 1 ∧ m.line = slice w s e := by
  rw [grepAll_eq hmt]
  obtain ⟨h1, h2⟩ := line_is_piece h
  have heot : decide ((w.take s).count NL + 1 = (pieces w).length) = (e == w.length) := by
    rw [Bool.eq_iff_iff]; simp [h2]
  obtain ⟨m, h3, h4, h5⟩ := hitsFrom_complete hmono nctx (pieces w) [] 0 _ _ (s == 0) h1 (by rw [heot]; exact ha)
    (by intro h0; simp only [beq_iff_eq] at h0; subst h0; simp)
    (by
      rintro ⟨h6, h7⟩
      have h8 := h2.mp h6
      have h9 := slice_length (w := w) (s := s) (e := e) (by omega)
      rw [h7] at h9
      simp at h9
      omega)
  exact ⟨m, h3, by omega, h5⟩

/-! ## Programs accept no less at the start of the text -/

theorem accepts_bot_mono {p : Prog} {l : Bytes} {eot : Bool} (h : Accepts p false eot l) : Accepts p true eot l := by
  obtain ⟨i, j, pc, h1, h2, h3⟩ := h
  refine ⟨i, j, pc, h1, ?_, h3⟩
  have step : ∀ {a b}, PStep p l false eot a b → PStep p l true eot a b := by
    intro a b hs
    cases hs with
    | capture h => exact .capture h
    | nop h => exact .nop h
    | altOut h => exact .altOut h
    | altArg h => exact .altArg h
    | altMatchOut h => exact .altMatchOut h
    | altMatchArg h => exact .altMatchArg h
    | empty h hf =>
      refine .empty h ?_
      simp only [Asserted, flagsAt] at hf ⊢
      exact ⟨hf.1, hf.2.1, fun hb => absurd (hf.2.2.1 hb) (by simp), hf.2.2.2⟩
    | byte h hc hr => exact .byte h hc hr
  have go : ∀ {a b}, PPath p l false eot a b → PPath p l true eot a b := by
    intro a b hp
    induction hp with
    | refl => exact .refl _
    | tail _ s ih => exact ih.tail (step s)
  exact go h2

end Hound
