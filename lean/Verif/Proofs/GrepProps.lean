import Verif.Proofs.Grep

namespace Hound
open Spec

theorem dropEmptyLast_drop (ps : List Bytes) (k : Nat) :
    dropEmptyLast (ps.drop k) = (dropEmptyLast ps).drop k := by
  rcases List.eq_nil_or_concat ps with rfl | ⟨qs, q, rfl⟩
  · simp [dropEmptyLast]
  · simp only [List.concat_eq_append]
    by_cases hk : k ≤ qs.length
    · rw [List.drop_append_of_le_length hk]
      by_cases hq : q = []
      · simp [dropEmptyLast, hq]
      · simp [dropEmptyLast, hq, List.drop_append_of_le_length hk]
    · rw [List.drop_of_length_le (by simp; omega)]
      by_cases hq : q = []
      · simp [dropEmptyLast, hq]; omega
      · simp [dropEmptyLast, hq]; omega

theorem dropEmptyLast_take (ps : List Bytes) (k : Nat) (h : k + 1 ≤ ps.length) :
    ps.take k = (dropEmptyLast ps).take k := by
  rcases List.eq_nil_or_concat ps with rfl | ⟨qs, q, rfl⟩
  · simp at h
  · simp only [List.concat_eq_append, List.length_append, List.length_singleton] at *
    by_cases hq : q = []
    · simp [dropEmptyLast, hq, List.take_append_of_le_length (show k ≤ qs.length by omega)]
    · simp [dropEmptyLast, hq]

/-- All facts about one reported match. -/
structure HitFacts (acc : LineAcc) (nctx : Nat) (whole : List Bytes) (prev : Nat)
    (m : LineMatch) : Prop where
  lt : prev < m.lineno
  le : m.lineno ≤ whole.length
  line : whole[m.lineno - 1]? = some m.line
  accepted : acc (m.lineno = prev + 1) (m.lineno = whole.length) m.line = true
  before : m.before = takeLast nctx (dropEmptyHead ((whole.take (m.lineno - 1)).drop prev))
  after : m.after = (dropEmptyLast (whole.drop m.lineno)).take nctx
  phantom : m.line = [] → m.lineno = whole.length → prev + 1 < m.lineno

theorem mkFacts (acc : LineAcc) (nctx : Nat) (base seen : List Bytes) (p : Bytes)
    (rest : List Bytes) (n : Nat) (hn : n = base.length + seen.length)
    (hacc : acc seen.isEmpty rest.isEmpty p = true) (hph : ¬ (p = [] ∧ seen = [] ∧ rest = [])) :
    HitFacts acc nctx (base ++ seen ++ p :: rest) base.length
      { line := p, lineno := n + 1, before := takeLast nctx (dropEmptyHead seen),
        after := (dropEmptyLast rest).take nctx } where
  lt := by simp only; omega
  le := by simp only [List.length_append, List.length_cons]; omega
  line := by simp [hn]
  accepted := by
    have e1 : seen.isEmpty = decide (n + 1 = base.length + 1) := by
      cases seen <;> simp at hn ⊢ <;> omega
    have e2 : rest.isEmpty = decide (n + 1 = (base ++ seen ++ p :: rest).length) := by
      cases rest <;> simp at hn ⊢ <;> omega
    rw [e1, e2] at hacc; exact hacc
  before := by
    have : ((base ++ seen ++ p :: rest).take n).drop base.length = seen := by
      rw [show n = (base ++ seen).length by simp [hn], List.take_left, List.drop_left]
    simp only [Nat.add_sub_cancel, this]
  after := by
    have : (base ++ seen ++ p :: rest).drop (n + 1) = rest := by
      rw [show base ++ seen ++ p :: rest = (base ++ seen ++ [p]) ++ rest by simp,
        show n + 1 = (base ++ seen ++ [p]).length by simp; omega, List.drop_left]
    simp only [this]
  phantom := by
    simp only [List.length_append, List.length_cons]
    intro hp hl
    have hr : rest = [] := by cases rest <;> simp at hl ⊢; omega
    have : seen ≠ [] := fun e => hph ⟨hp, e, hr⟩
    cases seen with
    | nil => exact absurd rfl this
    | cons a s => simp at hn; omega

theorem hitsFrom_facts (acc : LineAcc) (nctx : Nat) (ps : List Bytes) :
    ∀ (base seen : List Bytes) (n : Nat) (_ : n = base.length + seen.length)
      (l1 : List LineMatch) (m : LineMatch) (l2 : List LineMatch),
      hitsFrom acc nctx seen ps n = l1 ++ m :: l2 →
      HitFacts acc nctx (base ++ seen ++ ps)
        ((l1.getLast?.map (·.lineno)).getD base.length) m := by
  induction ps with
  | nil => intro base seen n hn l1 m l2 h; simp [hitsFrom] at h
  | cons p ps ih =>
    intro base seen n hn l1 m l2 h
    cases ps with
    | nil =>
      simp only [hitsFrom] at h
      split at h
      · simp at h
      · rename_i hph
        split at h
        · rename_i hacc
          cases l1 with
          | nil =>
            simp only [List.nil_append, List.cons.injEq] at h
            obtain ⟨h, -⟩ := h
            subst h
            simpa [dropEmptyLast] using
              mkFacts acc nctx base seen p [] n hn hacc (fun e => hph ⟨e.1, e.2.1⟩)
          | cons a l1 => simp at h
        · simp at h
    | cons q ps =>
      simp only [hitsFrom] at h
      split at h
      · rename_i hacc
        cases l1 with
        | nil =>
          simp only [List.nil_append, List.cons.injEq] at h
          obtain ⟨h, -⟩ := h
          subst h
          exact mkFacts acc nctx base seen p (q :: ps) n hn hacc (by simp)
        | cons a l1 =>
          simp only [List.cons_append, List.cons.injEq] at h
          obtain ⟨ha, h⟩ := h
          have := ih (base ++ seen ++ [p]) [] (n + 1) (by simp; omega) l1 m l2 h
          have e : (Option.map (fun x : LineMatch => x.lineno) (a :: l1).getLast?).getD base.length
              = (Option.map (fun x : LineMatch => x.lineno) l1.getLast?).getD
                  (base ++ seen ++ [p]).length := by
            cases l1 with
            | nil => simp [← ha, hn]; omega
            | cons b l1 => simp [List.getLast?_cons]
          rw [e]
          simpa using this
      · have := ih base (seen ++ [p]) (n + 1) (by simp; omega) l1 m l2 h
        simpa using this

theorem grepAll_facts {mt : Bytes → Option Nat} {acc : LineAcc}
    (hmt : IsLineMatcher mt acc) (nctx : Nat) (buf : Bytes)
    (l1 : List LineMatch) (m : LineMatch) (l2 : List LineMatch)
    (h : grepAll mt nctx buf = l1 ++ m :: l2) :
    HitFacts acc nctx (pieces buf) ((l1.getLast?.map (·.lineno)).getD 0) m := by
  rw [grepAll_eq hmt] at h
  simpa using hitsFrom_facts acc nctx (pieces buf) [] [] 0 rfl l1 m l2 h

/-- Accepted pieces (the piece-level counterpart of `acceptedLines`). -/
def accPieces (acc : LineAcc) : Bool → Nat → List Bytes → List (Nat × Bytes)
  | _, _, [] => []
  | bot, n, [l] => if acc bot true l then [(n, l)] else []
  | bot, n, l :: m :: ls =>
    if acc bot false l then (n, l) :: accPieces acc false (n + 1) (m :: ls)
    else accPieces acc false (n + 1) (m :: ls)

/-- The empty piece after a final newline is reported when it is accepted and the last real line
was not reported. -/
def phantomAt (acc : LineAcc) : Bool → Nat → List Bytes → List (Nat × Bytes)
  | _, _, [] => []
  | cut, n, [l] => if l = [] ∧ ¬ cut ∧ acc false true [] then [(n, [])] else []
  | _, n, l :: m :: ls => phantomAt acc (acc false false l) (n + 1) (m :: ls)

theorem acceptedFrom_bot {acc : LineAcc} (hb : ∀ e l, acc true e l = acc false e l)
    (z b c : Bool) (n : Nat) (ls : List Bytes) :
    acceptedFrom acc z b n ls = acceptedFrom acc z c n ls := by
  have : ∀ b e l, acc b e l = acc false e l := by
    intro b e l; cases b
    · rfl
    · exact hb e l
  cases ls with
  | nil => rfl
  | cons l ls =>
    cases ls with
    | nil => simp only [acceptedFrom, this b, this c]
    | cons m ls => simp only [acceptedFrom, this b, this c]

theorem hitsFrom_pairs {acc : LineAcc} (hb : ∀ e l, acc true e l = acc false e l) (nctx : Nat)
    (ps : List Bytes) : ∀ (seen : List Bytes) (n : Nat), ps ≠ [] →
    (hitsFrom acc nctx seen ps n).map (fun m => (m.lineno, m.line)) =
      acceptedFrom acc (ps.getLast? = some []) false (n + 1) (dropEmptyLast ps) ++
      phantomAt acc seen.isEmpty (n + 1) ps := by
  have hb' : ∀ b e l, acc b e l = acc false e l := by
    intro b e l; cases b
    · rfl
    · exact hb e l
  induction ps with
  | nil => intro _ _ h; exact absurd rfl h
  | cons p ps ih =>
    intro seen n _
    cases ps with
    | nil =>
      by_cases hp : p = []
      · subst hp
        cases seen with
        | nil => simp [hitsFrom, dropEmptyLast, acceptedFrom, phantomAt]
        | cons s seen =>
          simp only [hitsFrom, dropEmptyLast, phantomAt]
          by_cases ha : acc false true [] <;> simp [ha, acceptedFrom]
      · simp only [hitsFrom, hp, false_and, if_false, phantomAt, List.append_nil, hb']
        by_cases ha : acc false true p <;> simp [ha, dropEmptyLast, hp, acceptedFrom]
    | cons q ps =>
      have hd : dropEmptyLast (p :: q :: ps) = p :: dropEmptyLast (q :: ps) := by
        by_cases hl : (q :: ps).getLast? = some [] <;> simp [dropEmptyLast] at hl ⊢ <;> simp [hl]
      have hg : ((p :: q :: ps).getLast? = some []) = ((q :: ps).getLast? = some []) := by
        simp [List.getLast?_cons]
      simp only [hitsFrom, hb', phantomAt, hd, hg]
      -- the accepted-from equation for a head line
      have hacc : acceptedFrom acc (decide ((q :: ps).getLast? = some [])) false (n + 1)
            (p :: dropEmptyLast (q :: ps)) =
          (if acc false false p then [(n + 1, p)] else []) ++
            acceptedFrom acc (decide ((q :: ps).getLast? = some [])) false (n + 2)
              (dropEmptyLast (q :: ps)) := by
        rcases hdl : dropEmptyLast (q :: ps) with _ | ⟨r, rs⟩
        · have hgl : (q :: ps).getLast? = some [] := by
            by_cases hl : (q :: ps).getLast? = some []
            · exact hl
            · unfold dropEmptyLast at hdl; rw [if_neg hl] at hdl; simp at hdl
          simp only [acceptedFrom, hgl, decide_true, Bool.not_true, List.append_nil]
        · simp only [acceptedFrom]
          split <;> simp
      rw [hacc]
      by_cases ha : acc false false p
      · simp only [ha, if_true, List.map_cons]
        rw [ih [] (n + 1) (by simp)]
        simp
      · simp only [ha]
        have := ih (seen ++ [p]) (n + 1) (by simp)
        have he : (seen ++ [p]).isEmpty = false := by simp
        rw [he] at this
        simpa using this

theorem getLast_pieces (buf : Bytes) :
    ((pieces buf).getLast? = some []) ↔ (buf = [] ∨ buf.getLast? = some NL) := by
  induction buf with
  | nil => simp [pieces]
  | cons c cs ih =>
    simp only [pieces]
    rcases hp : pieces cs with _ | ⟨l, ls⟩
    · exact absurd hp (pieces_ne_nil cs)
    · rw [hp] at ih
      have hcs : cs = [] → l = [] ∧ ls = [] := by
        rintro rfl; simp [pieces] at hp; simp [hp]
      split
      · rename_i hc
        rw [List.getLast?_cons_cons, ih]
        cases cs with
        | nil => simp [hc]
        | cons d ds => simp [List.getLast?_cons_cons]
      · rename_i hc
        cases cs with
        | nil =>
          obtain ⟨rfl, rfl⟩ := hcs rfl
          simp [hc]
        | cons d ds =>
          cases ls with
          | nil =>
            simp only [List.getLast?_singleton, Option.some.injEq, List.getLast?_cons_cons] at ih ⊢
            have hun := unpieces_pieces (d :: ds)
            rw [hp] at hun; simp [unpieces] at hun
            have hl : l ≠ [] := by simp [hun]
            simp [hl] at ih ⊢
            exact ih
          | cons m ms =>
            simp only [List.getLast?_cons_cons] at ih ⊢
            simp at ih ⊢
            exact ih

theorem phantomAt_eq (acc : LineAcc) (ps : List Bytes) : ∀ (cut : Bool) (n : Nat), ps ≠ [] →
    (phantomAt acc cut n ps =
      if ps.getLast? = some [] ∧ acc false true [] = true ∧
        (match (dropEmptyLast ps).getLast? with
          | none => cut
          | some l => acc false false l) = false then [(n + ps.length - 1, [])] else []) := by
  induction ps with
  | nil => intro _ _ h; exact absurd rfl h
  | cons p ps ih =>
    intro cut n _
    cases ps with
    | nil =>
      by_cases hp : p = []
      · subst hp; simp [phantomAt, dropEmptyLast, and_comm]
      · simp [phantomAt, hp]
    | cons q ps =>
      simp only [phantomAt]
      rw [ih _ _ (by simp)]
      have hd : dropEmptyLast (p :: q :: ps) = p :: dropEmptyLast (q :: ps) := by
        by_cases hl : (q :: ps).getLast? = some [] <;> simp [dropEmptyLast] at hl ⊢ <;> simp [hl]
      have : n + 1 + (q :: ps).length - 1 = n + (p :: q :: ps).length - 1 := by simp; omega
      rw [hd, List.getLast?_cons_cons, this]
      rcases hx : dropEmptyLast (q :: ps) with _ | ⟨r, rs⟩
      · simp only [List.getLast?_nil, List.getLast?_singleton]
        rfl
      · rw [List.getLast?_cons_cons]
        obtain ⟨z, hz⟩ : ∃ z, (r :: rs).getLast? = some z := by
          cases h : (r :: rs).getLast? with
          | none => simp at h
          | some z => exact ⟨z, rfl⟩
        simp only [hz]

theorem grepAll_pairs {mt : Bytes → Option Nat} {acc : LineAcc}
    (hmt : IsLineMatcher mt acc) (hb : ∀ e l, acc true e l = acc false e l)
    (nctx : Nat) (buf : Bytes) :
    (grepAll mt nctx buf).map (fun m => (m.lineno, m.line)) =
      acceptedLines acc buf ++ phantom acc buf := by
  rw [grepAll_eq hmt, hitsFrom_pairs hb nctx _ _ _ (pieces_ne_nil buf)]
  by_cases he : buf = []
  · subst he
    simp [pieces, dropEmptyLast, acceptedFrom, acceptedLines, lines, phantom, phantomAt]
  · have hg := getLast_pieces buf
    simp only [he, false_or] at hg
    rw [← lines_eq]
    congr 1
    · unfold acceptedLines
      rw [acceptedFrom_bot hb _ true false]
      simp only [hg]
    · rw [phantomAt_eq _ _ _ _ (pieces_ne_nil buf), ← lines_eq]
      unfold phantom
      have hl : lines buf ≠ [] := by
        cases buf with
        | nil => exact absurd rfl he
        | cons c cs => exact lines_cons_ne c cs
      rcases hl' : (lines buf).getLast? with _ | l
      · simp at hl'; exact absurd hl' hl
      · simp only [hg]
        by_cases hn : buf.getLast? = some NL
        · have : (pieces buf).length = (lines buf).length + 1 := by
            rw [lines_eq, dropEmptyLast, if_pos (hg.2 hn), List.length_dropLast]
            have := pieces_ne_nil buf
            have := List.length_pos_iff.2 this
            omega
          rw [show 0 + 1 + (pieces buf).length - 1 = (lines buf).length + 1 by omega]
        · simp [hn]

end Hound
