import Verif.Proofs.QuerySem
import Verif.Spec.Queries

/-! # `andOr` has enough fuel, and builds no empty AND node -/

namespace Hound
open Spec Query

theorem weight_eq (q : Query) : weight q = q.trigram.length + weightList q.sub := by
  cases q; simp [weight, Query.trigram, Query.sub]

theorem weightList_append (a b : List Query) : weightList (a ++ b) = weightList a + weightList b := by
  induction a with
  | nil => simp [weightList]
  | cons q a ih => simp [weightList, ih]; omega

theorem weight_unwrap (q : Query) : weight q.unwrap ≤ weight q := by
  obtain ⟨o, t, s⟩ := q
  match t, s with
  | [], [s] => simp [Query.unwrap, weight, weightList]
  | [], [] => exact Nat.le_refl _
  | [], _ :: _ :: _ => exact Nat.le_refl _
  | _ :: _, _ => exact Nat.le_refl _

theorem factor_length : ∀ (n : Nat) (qs rs : List Bytes),
    (Query.factor n qs rs).1.length + (Query.factor n qs rs).2.2.length = qs.length ∧
    (Query.factor n qs rs).2.1.length + (Query.factor n qs rs).2.2.length = rs.length := by
  intro n
  induction n with
  | zero => intro qs rs; simp [Query.factor]
  | succ n ih =>
    intro qs rs
    match qs, rs with
    | [], rs => simp [Query.factor]
    | q :: qs, [] => simp [Query.factor]
    | q :: qs, r :: rs =>
      have i1 := ih qs (r :: rs)
      have i2 := ih (q :: qs) rs
      have i3 := ih qs rs
      simp only [Query.factor]
      split
      · grind
      split
      · grind
      · grind

theorem length_unionSet (s t : List Bytes) (b : Bool) :
    (unionSet s t b).length ≤ s.length + t.length := by
  have := length_cleanSet (l := s ++ t) (b := b)
  simpa [unionSet] using this

theorem weight_andOrF : ∀ (fuel : Nat) (q r : Query) (op : QOp),
    weight (andOrF fuel q r op) ≤ weight q + weight r := by
  intro fuel
  induction fuel with
  | zero => intro q r op; simp [andOrF, weight, weightList]
  | succ fuel ih =>
    intro q0 r0 op
    refine Nat.le_trans ?_ (Nat.add_le_add (weight_unwrap q0) (weight_unwrap r0))
    simp only [andOrF]
    generalize q0.unwrap = q
    generalize r0.unwrap = r
    have hq := weight_eq q
    have hr := weight_eq r
    have hu := length_unionSet q.trigram r.trigram false
    have hu' := length_unionSet r.trigram q.trigram false
    split
    · split <;> omega
    split
    · split <;> omega
    split
    · simp only [weight, weightList_append]; omega
    split
    · simp only [weight]; omega
    split
    · rename_i _ _ _ _ h; simp only [weight, List.length_append]; omega
    split
    · simp only [weight, weightList_append, weightList]; omega
    split
    · simp only [weight, weightList_append, weightList]; omega
    have hf := factor_length (q.trigram.length + r.trigram.length) q.trigram r.trigram
    generalize Query.factor (q.trigram.length + r.trigram.length) q.trigram r.trigram = F at hf
    obtain ⟨qt, rt, common⟩ := F
    simp only at hf ⊢
    split
    · refine Nat.le_trans (ih _ _ _) ?_
      have := ih (.mk q.op qt q.sub) (.mk r.op rt r.sub) op
      simp only [weight, weightList] at this ⊢; omega
    · simp only [weight, weightList, List.length_nil]; omega

/-- With more fuel than trigrams, more fuel changes nothing. -/
theorem andOrF_stable : ∀ (fuel : Nat) (q r : Query) (op : QOp), weight q + weight r < fuel →
    ∀ n, andOrF (fuel + n) q r op = andOrF fuel q r op := by
  intro fuel
  induction fuel with
  | zero => intro q r op h; omega
  | succ fuel ih =>
    intro q0 r0 op hw n
    rw [show fuel + 1 + n = (fuel + n) + 1 by omega]
    have hw' : weight q0.unwrap + weight r0.unwrap < fuel + 1 := by
      have := weight_unwrap q0; have := weight_unwrap r0; omega
    simp only [andOrF]
    generalize q0.unwrap = q at hw'
    generalize r0.unwrap = r at hw'
    have hq := weight_eq q
    have hr := weight_eq r
    have hf := factor_length (q.trigram.length + r.trigram.length) q.trigram r.trigram
    generalize Query.factor (q.trigram.length + r.trigram.length) q.trigram r.trigram = F at hf
    obtain ⟨qt, rt, common⟩ := F
    simp only at hf ⊢
    by_cases hc : common.length > 0
    · have e1 : andOrF (fuel + n) (.mk q.op qt q.sub) (.mk r.op rt r.sub) op =
          andOrF fuel (.mk q.op qt q.sub) (.mk r.op rt r.sub) op := by
        apply ih; simp only [weight]; omega
      have hw2 := weight_andOrF fuel (.mk q.op qt q.sub) (.mk r.op rt r.sub) op
      have e2 : andOrF (fuel + n) (.mk (otherOp op) common [])
            (andOrF fuel (.mk q.op qt q.sub) (.mk r.op rt r.sub) op) (otherOp op) =
          andOrF fuel (.mk (otherOp op) common [])
            (andOrF fuel (.mk q.op qt q.sub) (.mk r.op rt r.sub) op) (otherOp op) := by
        apply ih; simp only [weight, weightList] at hw2 ⊢; omega
      rw [e1, e2]
    · simp only [hc, if_false]

theorem noEmptyAndL_iff {qs : List Query} : NoEmptyAndL qs ↔ ∀ q ∈ qs, NoEmptyAnd q := by
  induction qs with
  | nil => simp [NoEmptyAndL]
  | cons q qs ih => simp [NoEmptyAndL, ih]

theorem noEmptyAnd_iff {q : Query} : NoEmptyAnd q ↔
    (q.op = .and → q.trigram ≠ [] ∨ q.sub ≠ []) ∧ ∀ s ∈ q.sub, NoEmptyAnd s := by
  obtain ⟨o, t, s⟩ := q
  simp [NoEmptyAnd, Query.op, Query.trigram, Query.sub, noEmptyAndL_iff]

theorem noEmptyAnd_mk {o t s} : NoEmptyAnd (.mk o t s) ↔
    (o = .and → t ≠ [] ∨ s ≠ []) ∧ ∀ x ∈ s, NoEmptyAnd x := noEmptyAnd_iff

theorem _root_.Hound.Spec.NoEmptyAnd.unwrap {q : Query} (h : NoEmptyAnd q) : NoEmptyAnd q.unwrap := by
  obtain ⟨o, t, s⟩ := q
  match t, s with
  | [], [s] => exact (noEmptyAnd_iff.1 h).2 s (by simp [Query.sub])
  | [], [] => exact h
  | [], _ :: _ :: _ => exact h
  | _ :: _, _ => exact h

/-- The empty AND node. -/
def emptyAnd : Query := .mk .and [] []

theorem implies_emptyAnd {q : Query} (h : q.op = .and) : q.implies emptyAnd = true := by
  obtain ⟨o, t, s⟩ := q
  simp only [Query.op] at h; subst h
  simp [Query.implies, emptyAnd, Query.op, Query.trigramsImply, Query.allTrigramsImply, isSubsetOf]

/-- An OR that an AND node always implies, because it offers the empty AND. -/
def Absorb (q : Query) : Prop := q = emptyAnd ∨ (q.op = .or ∧ emptyAnd ∈ q.sub)

theorem not_atom_emptyAnd :
    (emptyAnd.trigram.length == 1 && emptyAnd.sub.length == 0) = false := rfl

theorem or_emptyAnd_aux {u : Query} (hu : ¬ u.implies emptyAnd = true)
    (hu2 : ¬ emptyAnd.implies u = true) : u.op = .or := by
  obtain ⟨h, _⟩ := ops_of_not_implies hu hu2
  rcases h with h | h
  · exact absurd (implies_emptyAnd h) hu
  · exact h

/-- When one side of an OR is the empty AND, the result is fine or absorbable. -/
theorem andOrF_emptyAnd {fuel : Nat} {q r : Query}
    (hqn : NoEmptyAnd q ∨ q = emptyAnd) (hrn : NoEmptyAnd r ∨ r = emptyAnd)
    (he : q = emptyAnd ∨ r = emptyAnd) :
    NoEmptyAnd (andOrF (fuel + 1) q r .or) ∨ Absorb (andOrF (fuel + 1) q r .or) := by
  have hqn' : NoEmptyAnd q.unwrap ∨ q.unwrap = emptyAnd := by
    rcases hqn with h | h
    · exact Or.inl h.unwrap
    · right; rw [h]; rfl
  have hrn' : NoEmptyAnd r.unwrap ∨ r.unwrap = emptyAnd := by
    rcases hrn with h | h
    · exact Or.inl h.unwrap
    · right; rw [h]; rfl
  have he' : q.unwrap = emptyAnd ∨ r.unwrap = emptyAnd := by
    rcases he with h | h
    · left; rw [h]; rfl
    · right; rw [h]; rfl
  simp only [andOrF]
  generalize q.unwrap = u at *
  generalize r.unwrap = v at *
  by_cases h1 : u.implies v = true
  · simp only [h1, if_true]
    rcases hrn' with h | h
    · left; simpa using h
    · right; left; simpa using h
  by_cases h2 : v.implies u = true
  · simp only [h1, h2, if_true, Bool.false_eq_true, if_false]
    rcases hqn' with h | h
    · left; simpa using h
    · right; left; simpa using h
  simp only [h1, h2, if_false, Bool.false_eq_true]
  right; right
  rcases he' with h | h
  · subst h
    have ho := or_emptyAnd_aux h2 h1
    have h0 : ¬ emptyAnd.op = .or := by simp [emptyAnd, Query.op]
    rw [if_neg (by simp [h0]), if_neg (by simp [not_atom_emptyAnd]),
      if_neg (by simp [not_atom_emptyAnd]), if_neg h0, if_pos ho]
    exact ⟨ho, by simp [Query.sub]⟩
  · subst h
    have ho := or_emptyAnd_aux h1 h2
    have h0 : ¬ emptyAnd.op = .or := by simp [emptyAnd, Query.op]
    rw [if_neg (by simp [h0, not_atom_emptyAnd]), if_neg (by simp [h0]),
      if_neg (by simp [not_atom_emptyAnd]), if_pos ho]
    exact ⟨ho, by simp [Query.sub]⟩

theorem anyTrigramsImply_of_mem {t : List Bytes} {qs : List Query} (h : emptyAnd ∈ qs) :
    anyTrigramsImply t qs = true := by
  induction qs with
  | nil => simp at h
  | cons q qs ih =>
    simp only [anyTrigramsImply, Bool.or_eq_true]
    rcases List.mem_cons.1 h with h | h
    · left; rw [← h]; simp [emptyAnd, trigramsImply, allTrigramsImply, isSubsetOf]
    · right; exact ih h

theorem implies_absorb {q s : Query} (hq : q.op = .and) (h : Absorb s) : q.implies s = true := by
  rcases h with rfl | ⟨h1, h2⟩
  · exact implies_emptyAnd hq
  · obtain ⟨o, t, ss⟩ := s
    simp only [Query.op] at h1; subst h1
    have : trigramsImply q.trigram (.mk .or t ss) = true := by
      simp only [trigramsImply, Bool.or_eq_true]
      left; exact anyTrigramsImply_of_mem h2
    obtain ⟨qo, qt, qs⟩ := q
    simp only [Query.op] at hq; subst hq
    simp only [Query.trigram] at this
    simp [Query.implies, Query.op, Query.trigram, this]

theorem Absorb.unwrap {s : Query} (h : Absorb s) : Absorb s.unwrap := by
  rcases h with rfl | ⟨h1, h2⟩
  · left; rfl
  · obtain ⟨o, t, ss⟩ := s
    match t, ss with
    | [], [s] => left; simpa [Query.sub, Query.unwrap, eq_comm] using h2
    | [], [] => exact Or.inr ⟨h1, h2⟩
    | [], _ :: _ :: _ => exact Or.inr ⟨h1, h2⟩
    | _ :: _, _ => exact Or.inr ⟨h1, h2⟩

theorem andOrF_of_implies {f : Nat} {q r : Query} (h : q.unwrap.implies r.unwrap = true) :
    andOrF (f + 1) q r .and = q.unwrap := by simp [andOrF, h]

theorem noEmptyAnd_andOrF : ∀ (fuel : Nat) (q r : Query) (op : QOp),
    (op = .and ∨ op = .or) → weight q + weight r < fuel → NoEmptyAnd q → NoEmptyAnd r →
    NoEmptyAnd (andOrF fuel q r op) := by
  intro fuel
  induction fuel with
  | zero => intro q r op _ h; omega
  | succ fuel ih =>
    intro q0 r0 op hop hw hq0 hr0
    have hw' : weight q0.unwrap + weight r0.unwrap < fuel + 1 := by
      have := weight_unwrap q0; have := weight_unwrap r0; omega
    have hq := hq0.unwrap
    have hr := hr0.unwrap
    simp only [andOrF]
    generalize q0.unwrap = q at hw' hq
    generalize r0.unwrap = r at hw' hr
    have hq' := noEmptyAnd_iff.1 hq
    have hr' := noEmptyAnd_iff.1 hr
    have wq := weight_eq q
    have wr := weight_eq r
    by_cases h1 : q.implies r = true
    · simp only [h1, if_true]; split <;> assumption
    by_cases h2 : r.implies q = true
    · simp only [h1, h2, if_true, Bool.false_eq_true, if_false]; split <;> assumption
    simp only [h1, h2, if_false, Bool.false_eq_true]
    obtain ⟨hqo, hro⟩ := ops_of_not_implies h1 h2
    have neU : ∀ (s t : List Bytes), (s ≠ [] ∨ t ≠ []) → unionSet s t false ≠ [] := by
      intro s t h hu
      have : ∀ x, x ∈ s ∨ x ∈ t → False := by
        intro x hx
        have := mem_unionSet (b := false).2 hx
        rw [hu] at this; simp at this
      rcases h with h | h
      · obtain ⟨x, hx⟩ := List.exists_mem_of_ne_nil _ h; exact this x (Or.inl hx)
      · obtain ⟨x, hx⟩ := List.exists_mem_of_ne_nil _ h; exact this x (Or.inr hx)
    split
    · rename_i hc
      rw [noEmptyAnd_mk]
      refine ⟨?_, ?_⟩
      · intro ho
        rcases hq'.1 ho with h | h
        · exact Or.inl (neU _ _ (Or.inl h))
        · exact Or.inr (by simp [h])
      · intro x hx; rcases List.mem_append.1 hx with h | h
        · exact hq'.2 x h
        · exact hr'.2 x h
    split
    · rename_i _ hc
      rw [noEmptyAnd_mk]
      refine ⟨?_, hr'.2⟩
      intro ho
      rcases hr'.1 ho with h | h
      · exact Or.inl (neU _ _ (Or.inl h))
      · exact Or.inr h
    split
    · rename_i _ _ hc
      rw [noEmptyAnd_mk]
      refine ⟨?_, hq'.2⟩
      intro _
      left
      have := hc.1
      simp only [Bool.and_eq_true, beq_iff_eq] at this
      intro h
      have h0 : q.trigram = [] := (List.append_eq_nil_iff.1 h).1
      rw [h0] at this; simp at this
    split
    · rw [noEmptyAnd_mk]
      refine ⟨fun _ => Or.inr (by simp), ?_⟩
      intro x hx; rcases List.mem_append.1 hx with h | h
      · exact hq'.2 x h
      · simp at h; rw [h]; exact hr
    split
    · rw [noEmptyAnd_mk]
      refine ⟨fun _ => Or.inr (by simp), ?_⟩
      intro x hx; rcases List.mem_append.1 hx with h | h
      · exact hr'.2 x h
      · simp at h; rw [h]; exact hq
    rename_i hn1 hn2 hn3 hn4 hn5
    have hf := factor_length (q.trigram.length + r.trigram.length) q.trigram r.trigram
    generalize Query.factor (q.trigram.length + r.trigram.length) q.trigram r.trigram = F at hf
    obtain ⟨qt, rt, common⟩ := F
    simp only at hf ⊢
    have hqop : q.op = otherOp op := by
      rcases hop with rfl | rfl <;> rcases hqo with h | h <;> simp_all [otherOp]
    have hrop : r.op = otherOp op := by
      rcases hop with rfl | rfl <;> rcases hro with h | h <;> simp_all [otherOp]
    have hoth : otherOp op = .and ∨ otherOp op = .or := by
      rcases hop with rfl | rfl <;> simp [otherOp]
    -- the two sides after factoring: fine, or the empty AND
    have side : ∀ (x : Query) (xt : List Bytes), NoEmptyAnd x →
        NoEmptyAnd (.mk x.op xt x.sub) ∨ (Query.mk x.op xt x.sub = emptyAnd) := by
      intro x xt hx
      have hx' := noEmptyAnd_iff.1 hx
      by_cases he : x.op = .and ∧ xt = [] ∧ x.sub = []
      · right; rw [he.1, he.2.1, he.2.2]; rfl
      · left; rw [noEmptyAnd_mk]
        refine ⟨?_, hx'.2⟩
        intro ho; grind
    split
    · rename_i hcom
      have hcne : common ≠ [] := by intro h; simp [h] at hcom
      have tne : NoEmptyAnd (.mk (otherOp op) common []) := by
        rw [noEmptyAnd_iff]; simp [Query.trigram, Query.sub, hcne]
      have hwS := weight_andOrF fuel (.mk q.op qt q.sub) (.mk r.op rt r.sub) op
      have hwT : weight (.mk (otherOp op) common []) +
          weight (andOrF fuel (.mk q.op qt q.sub) (.mk r.op rt r.sub) op) < fuel := by
        simp only [weight, weightList] at hwS ⊢; omega
      have sok : NoEmptyAnd (andOrF fuel (.mk q.op qt q.sub) (.mk r.op rt r.sub) op) ∨
          (op = .or ∧ Absorb (andOrF fuel (.mk q.op qt q.sub) (.mk r.op rt r.sub) op)) := by
        rcases side q qt hq with a | a <;> rcases side r rt hr with b | b
        · left; apply ih _ _ _ hop _ a b; simp only [weight]; omega
        all_goals
          -- some side is the empty AND, so `op = or`
          have hor : op = .or := by
            rcases hop with rfl | rfl
            · first
              | (exfalso; rw [hrop] at b; simp [emptyAnd, otherOp] at b; done)
              | (exfalso; rw [hqop] at a; simp [emptyAnd, otherOp] at a; done)
            · rfl
          subst hor
          obtain ⟨f', rfl⟩ : ∃ f', fuel = f' + 1 := ⟨fuel - 1, by omega⟩
        · rcases andOrF_emptyAnd (fuel := f') (Or.inl a) (Or.inr b) (Or.inr b) with h | h
          · exact Or.inl h
          · exact Or.inr ⟨rfl, h⟩
        · rcases andOrF_emptyAnd (fuel := f') (Or.inr a) (Or.inl b) (Or.inl a) with h | h
          · exact Or.inl h
          · exact Or.inr ⟨rfl, h⟩
        · rcases andOrF_emptyAnd (fuel := f') (Or.inr a) (Or.inr b) (Or.inl a) with h | h
          · exact Or.inl h
          · exact Or.inr ⟨rfl, h⟩
      rcases sok with h | ⟨rfl, h⟩
      · exact ih _ _ _ hoth hwT tne h
      · obtain ⟨f', rfl⟩ : ∃ f', fuel = f' + 1 := ⟨fuel - 1, by omega⟩
        generalize andOrF (f' + 1) (.mk q.op qt q.sub) (.mk r.op rt r.sub) .or = S at h
        have hu : (Query.mk .and common []).unwrap = .mk .and common [] := by
          cases common <;> rfl
        simp only [otherOp] at tne ⊢
        rw [andOrF_of_implies (by rw [hu]; exact implies_absorb rfl h.unwrap), hu]
        exact tne
    · rename_i hcom
      have hc0 : common = [] := by cases common <;> simp_all
      subst hc0
      rw [noEmptyAnd_mk]
      refine ⟨fun _ => Or.inr (by simp), ?_⟩
      have fin : ∀ (x : Query) (xt : List Bytes), NoEmptyAnd x → xt.length = x.trigram.length →
          NoEmptyAnd (.mk x.op xt x.sub) := by
        intro x xt hx hl
        have hx' := noEmptyAnd_iff.1 hx
        rw [noEmptyAnd_mk]
        refine ⟨?_, hx'.2⟩
        intro ho
        rcases hx'.1 ho with h | h
        · left; intro h0; subst h0; simp at hl
          exact h (List.length_eq_zero_iff.1 hl.symm)
        · exact Or.inr h
      simp only [List.length_nil] at hf
      intro x hx
      simp only [List.mem_cons, List.not_mem_nil, or_false] at hx
      rcases hx with rfl | rfl
      · exact fin q qt hq (by omega)
      · exact fin r rt hr (by omega)

end Hound
