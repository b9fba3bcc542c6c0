import Verif.Proofs.Query

/-! # `andOr` means AND / OR; fuel; no empty AND node -/

namespace Hound
open Spec Query

mutual
/-- In the whole tree, ALL and NONE nodes are leaves. -/
def LeafyH : Query → Prop
  | .mk op t s => ((op = .all ∨ op = .none) → t = [] ∧ s = []) ∧ LeafyHL s
def LeafyHL : List Query → Prop
  | [] => True
  | q :: qs => LeafyH q ∧ LeafyHL qs
end

theorem leafyHL_iff {qs : List Query} : LeafyHL qs ↔ ∀ q ∈ qs, LeafyH q := by
  induction qs with
  | nil => simp [LeafyHL]
  | cons q qs ih => simp [LeafyHL, ih]

theorem leafyH_iff {q : Query} : LeafyH q ↔
    ((q.op = .all ∨ q.op = .none) → q.trigram = [] ∧ q.sub = []) ∧ ∀ s ∈ q.sub, LeafyH s := by
  obtain ⟨o, t, s⟩ := q
  simp [LeafyH, Query.op, Query.trigram, Query.sub, leafyHL_iff]

theorem LeafyH.leafy {q : Query} (h : LeafyH q) : Leafy q := fun ho => ((leafyH_iff.1 h).1 ho).symm

theorem LeafyH.unwrap {q : Query} (h : LeafyH q) : LeafyH q.unwrap := by
  obtain ⟨o, t, s⟩ := q
  match t, s with
  | [], [s] => exact (leafyH_iff.1 h).2 s (by simp [Query.sub])
  | [], [] => exact h
  | [], _ :: _ :: _ => exact h
  | _ :: _, _ => exact h

theorem mk_eta (q : Query) : Query.mk q.op q.trigram q.sub = q := by cases q; rfl

theorem implies_of_all {q r : Query} (h : r.op = .all) : q.implies r = true := by
  simp [Query.implies, h]

theorem implies_of_none {q r : Query} (h : q.op = .none) : q.implies r = true := by
  simp [Query.implies, h]

/-- Neither side ALL or NONE once both `implies` tests failed. -/
theorem ops_of_not_implies {q r : Query} (h1 : ¬ q.implies r = true) (h2 : ¬ r.implies q = true) :
    (q.op = .and ∨ q.op = .or) ∧ (r.op = .and ∨ r.op = .or) := by
  constructor
  · rcases hq : q.op with _ | _ | _ | _
    · exact absurd (implies_of_all hq) h2
    · exact absurd (implies_of_none hq) h1
    · simp
    · simp
  · rcases hq : r.op with _ | _ | _ | _
    · exact absurd (implies_of_all hq) h1
    · exact absurd (implies_of_none hq) h2
    · simp
    · simp

theorem sat_op {T : Bytes → Prop} {op : QOp} (hop : op = .and ∨ op = .or) {tri sub} :
    Sat T (.mk op tri sub) ↔
      (if op = .and then (∀ t ∈ tri, T t) ∧ ∀ q ∈ sub, Sat T q
       else (∃ t ∈ tri, T t) ∨ ∃ q ∈ sub, Sat T q) := by
  rcases hop with rfl | rfl
  · simp [sat_and]
  · simp [sat_or]

theorem sat_atom {T : Bytes → Prop} {q : Query} (h : q.op = .and ∨ q.op = .or)
    (ha : (q.trigram.length == 1 && q.sub.length == 0) = true) :
    ∃ x, q.trigram = [x] ∧ q.sub = [] ∧ (Sat T q ↔ T x) := by
  obtain ⟨o, t, s⟩ := q
  simp only [Query.trigram, Query.sub, Bool.and_eq_true, beq_iff_eq, List.length_eq_one_iff,
    List.length_eq_zero_iff] at ha
  obtain ⟨⟨x, rfl⟩, rfl⟩ := ha
  refine ⟨x, rfl, rfl, ?_⟩
  simp only [Query.op] at h
  rcases h with rfl | rfl
  · simp [sat_and]
  · simp [sat_or]

theorem sat_iff {T : Bytes → Prop} {q : Query} (h : q.op = .and ∨ q.op = .or) :
    Sat T q ↔ (if q.op = .and then (∀ t ∈ q.trigram, T t) ∧ ∀ s ∈ q.sub, Sat T s
       else (∃ t ∈ q.trigram, T t) ∨ ∃ s ∈ q.sub, Sat T s) := by
  obtain ⟨o, t, s⟩ := q
  exact sat_op h

theorem andOrF_sem (T : Bytes → Prop) : ∀ (fuel : Nat) (q r : Query) (op : QOp),
    (op = .and ∨ op = .or) → LeafyH q → LeafyH r →
    LeafyH (andOrF fuel q r op) ∧
      (Sat T (andOrF fuel q r op) ↔ opSat op (Sat T q) (Sat T r)) := by
  intro fuel
  induction fuel with
  | zero =>
    intro q r op hop hq hr
    simp only [andOrF]
    refine ⟨?_, ?_⟩
    · rw [leafyH_iff]; simp [Query.op, Query.trigram, Query.sub, hq, hr]
      rcases hop with rfl | rfl <;> simp
    · rcases hop with rfl | rfl
      · simp [sat_and, opSat]
      · simp [sat_or, opSat]
  | succ fuel ih =>
    intro q0 r0 op hop hq0 hr0
    rw [← sat_unwrap hq0.leafy, ← sat_unwrap hr0.leafy]
    have hq := hq0.unwrap
    have hr := hr0.unwrap
    simp only [andOrF]
    generalize q0.unwrap = q at hq
    generalize r0.unwrap = r at hr
    have hq' := leafyH_iff.1 hq
    have hr' := leafyH_iff.1 hr
    by_cases h1 : q.implies r = true
    · simp only [h1, if_true]
      have := implies_sound (T := T) h1
      rcases hop with rfl | rfl <;> simp [opSat, hq, hr] <;> grind
    by_cases h2 : r.implies q = true
    · simp only [h1, h2, if_true]
      have := implies_sound (T := T) h2
      rcases hop with rfl | rfl <;> simp [opSat, hq, hr] <;> grind
    simp only [h1, h2, if_false, Bool.false_eq_true]
    obtain ⟨hqo, hro⟩ := ops_of_not_implies h1 h2
    have lop : ∀ (o : QOp) (t : List Bytes) (s : List Query), (o = .and ∨ o = .or) →
        (∀ x ∈ s, LeafyH x) → LeafyH (.mk o t s) := by
      intro o t s ho hs
      rw [leafyH_iff]
      refine ⟨?_, hs⟩
      intro h; simp only [Query.op] at h; rcases ho with rfl | rfl <;> simp at h
    have sq := sat_iff (T := T) hqo
    have sr := sat_iff (T := T) hro
    split
    · rename_i hc
      obtain ⟨hc1, hc2⟩ := hc
      refine ⟨lop _ _ _ hqo ?_, ?_⟩
      · intro x hx; rcases List.mem_append.1 hx with h | h
        · exact hq'.2 x h
        · exact hr'.2 x h
      · rw [sat_op hqo]
        rcases hc2 with hc2 | hc2
        · rw [sq, sr, hc1, hc2]
          rcases hop with rfl | rfl
          · simp only [opSat, if_true, mem_unionSet, List.mem_append]; grind
          · simp only [opSat, mem_unionSet, List.mem_append]; simp; grind
        · obtain ⟨x, hx1, hx2, hx3⟩ := sat_atom (T := T) hro hc2
          rw [sq, hx3, hc1, hx1, hx2]
          rcases hop with rfl | rfl
          · simp only [opSat, if_true, mem_unionSet, List.mem_append]; simp; grind
          · simp only [opSat, mem_unionSet, List.mem_append]; simp; grind
    split
    · rename_i _ hc
      obtain ⟨hc1, hc2⟩ := hc
      refine ⟨lop _ _ _ hro hr'.2, ?_⟩
      rw [sat_op hro]
      obtain ⟨x, hx1, hx2, hx3⟩ := sat_atom (T := T) hqo hc2
      rw [sr, hx3, hc1, hx1]
      rcases hop with rfl | rfl
      · simp only [opSat, if_true, mem_unionSet]; simp; grind
      · simp only [opSat, mem_unionSet]; simp; grind
    split
    · rename_i _ _ hc
      obtain ⟨hc1, hc2⟩ := hc
      refine ⟨lop _ _ _ hop hq'.2, ?_⟩
      rw [sat_op hop]
      obtain ⟨x, hx1, hx2, hx3⟩ := sat_atom (T := T) hqo hc1
      obtain ⟨y, hy1, hy2, hy3⟩ := sat_atom (T := T) hro hc2
      rw [hx3, hy3, hx1, hx2, hy1]
      rcases hop with rfl | rfl <;> simp [opSat]
    split
    · rename_i _ _ _ hc
      refine ⟨lop _ _ _ hqo ?_, ?_⟩
      · intro x hx; rcases List.mem_append.1 hx with h | h
        · exact hq'.2 x h
        · simp at h; rw [h]; exact hr
      · rw [sat_op hqo, sq, hc]
        rcases hop with rfl | rfl
        · simp [opSat]; grind
        · simp [opSat]; grind
    split
    · rename_i _ _ _ _ hc
      refine ⟨lop _ _ _ hro ?_, ?_⟩
      · intro x hx; rcases List.mem_append.1 hx with h | h
        · exact hr'.2 x h
        · simp at h; rw [h]; exact hq
      · rw [sat_op hro, sr, hc]
        rcases hop with rfl | rfl
        · simp [opSat]; grind
        · simp [opSat]; grind
    rename_i hn1 hn2 hn3 hn4 hn5
    have hfs := factor_spec (q.trigram.length + r.trigram.length) q.trigram r.trigram
    generalize Query.factor (q.trigram.length + r.trigram.length) q.trigram r.trigram = F at hfs
    obtain ⟨qt, rt, common⟩ := F
    simp only at hfs ⊢
    obtain ⟨hf1, hf2⟩ := hfs
    have hqop : q.op = otherOp op := by
      rcases hop with rfl | rfl <;> rcases hqo with h | h <;> simp_all [otherOp]
    have hrop : r.op = otherOp op := by
      rcases hop with rfl | rfl <;> rcases hro with h | h <;> simp_all [otherOp]
    have hoth : otherOp op = .and ∨ otherOp op = .or := by rcases hop with rfl | rfl <;> simp [otherOp]
    have lq := lop q.op qt q.sub hqo hq'.2
    have lr := lop r.op rt r.sub hro hr'.2
    split
    · rename_i hcom
      obtain ⟨i1, i2⟩ := ih (.mk q.op qt q.sub) (.mk r.op rt r.sub) op hop lq lr
      obtain ⟨j1, j2⟩ := ih (.mk (otherOp op) common []) _ (otherOp op) hoth
        (lop _ _ _ hoth (by simp)) i1
      refine ⟨j1, j2.trans ?_⟩
      rw [sq, sr]
      rcases hop with rfl | rfl
      · simp only [otherOp] at *
        rw [hqop, hrop] at i2
        simp only [opSat, i2, hqop, hrop, sat_or]
        simp; grind
      · simp only [otherOp] at *
        rw [hqop, hrop] at i2
        simp only [opSat, i2, hqop, hrop, sat_and]
        simp; grind
    · rename_i hcom
      have hc0 : common = [] := by cases common <;> simp_all
      subst hc0
      refine ⟨lop _ _ _ hop (by simp [lq, lr]), ?_⟩
      rw [sat_op hop, sq, sr, hqop, hrop]
      rcases hop with rfl | rfl
      · simp only [otherOp, opSat] at *; simp; grind [sat_or]
      · simp only [otherOp, opSat] at *; simp; grind [sat_and]

end Hound
