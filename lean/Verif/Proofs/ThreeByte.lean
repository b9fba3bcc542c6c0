import Verif.Proofs.QueryFuel

/-! # All trigrams of a query have three bytes -/

namespace Hound
open Spec Query

theorem threeByteL_iff {qs : List Query} : ThreeByteL qs ↔ ∀ q ∈ qs, ThreeByte q := by
  induction qs with
  | nil => simp [ThreeByteL]
  | cons q qs ih => simp [ThreeByteL, ih]

theorem threeByte_mk {o t s} : ThreeByte (.mk o t s) ↔ (∀ x ∈ t, x.length = 3) ∧ ∀ q ∈ s, ThreeByte q := by
  simp [ThreeByte, threeByteL_iff]

theorem threeByte_iff {q : Query} : ThreeByte q ↔ (∀ x ∈ q.trigram, x.length = 3) ∧ ∀ s ∈ q.sub, ThreeByte s := by
  obtain ⟨o, t, s⟩ := q
  exact threeByte_mk

theorem threeByte_unwrap {q : Query} (h : ThreeByte q) : ThreeByte q.unwrap := by
  obtain ⟨o, t, s⟩ := q
  match t, s with
  | [], [s] => exact (threeByte_mk.1 h).2 s (by simp)
  | [], [] => exact h
  | [], _ :: _ :: _ => exact h
  | _ :: _, _ => exact h

theorem mem_factor : ∀ (n : Nat) (qs rs : List Bytes) (x : Bytes),
    (x ∈ (factor n qs rs).1 → x ∈ qs) ∧ (x ∈ (factor n qs rs).2.1 → x ∈ rs) ∧ (x ∈ (factor n qs rs).2.2 → x ∈ qs)
  | 0, qs, rs, x => by simp [factor]
  | _ + 1, [], rs, x => by simp [factor]
  | _ + 1, q :: qs, [], x => by simp [factor]
  | n + 1, qt :: qs, rt :: rs, x => by
    unfold factor
    split
    · obtain ⟨a, b, c⟩ := mem_factor n qs (rt :: rs) x
      simp only [List.mem_cons]
      refine ⟨?_, ?_, fun h => Or.inr (c h)⟩
      · rintro (h | h)
        · exact Or.inl h
        · exact Or.inr (a h)
      · intro h; simpa using b h
    · split
      · obtain ⟨a, b, c⟩ := mem_factor n (qt :: qs) rs x
        simp only [List.mem_cons] at a c ⊢
        refine ⟨a, ?_, c⟩
        rintro (h | h)
        · exact Or.inl h
        · exact Or.inr (b h)
      · obtain ⟨a, b, c⟩ := mem_factor n qs rs x
        simp only [List.mem_cons]
        refine ⟨fun h => Or.inr (a h), fun h => Or.inr (b h), ?_⟩
        rintro (h | h)
        · exact Or.inl h
        · exact Or.inr (c h)

theorem threeByte_andOrF : ∀ (fuel : Nat) (q r : Query) (op : QOp), ThreeByte q → ThreeByte r →
    ThreeByte (andOrF fuel q r op)
  | 0, q, r, op, hq, hr => by
    unfold andOrF
    rw [threeByte_mk]
    refine ⟨by simp, ?_⟩
    intro s hs
    simp only [List.mem_cons, List.not_mem_nil, or_false] at hs
    rcases hs with rfl | rfl
    · exact hq
    · exact hr
  | fuel + 1, q, r, op, hq, hr => by
    have hq' := threeByte_unwrap hq
    have hr' := threeByte_unwrap hr
    unfold andOrF
    generalize q.unwrap = q at hq'
    generalize r.unwrap = r at hr'
    obtain ⟨q1, q2⟩ := threeByte_iff.1 hq'
    obtain ⟨r1, r2⟩ := threeByte_iff.1 hr'
    have hun : ∀ {a b : Query}, ThreeByte a → ThreeByte b → ∀ x ∈ unionSet a.trigram b.trigram false, x.length = 3 := by
      intro a b ha hb x hx
      unfold unionSet at hx
      rw [mem_cleanSet, List.mem_append] at hx
      rcases hx with hx | hx
      · exact (threeByte_iff.1 ha).1 x hx
      · exact (threeByte_iff.1 hb).1 x hx
    simp only
    split
    · split <;> assumption
    split
    · split <;> assumption
    split
    · rw [threeByte_mk]
      refine ⟨hun hq' hr', fun s hs => ?_⟩
      rcases List.mem_append.1 hs with hs | hs
      · exact q2 s hs
      · exact r2 s hs
    split
    · rw [threeByte_mk]
      exact ⟨hun hr' hq', r2⟩
    split
    · rw [threeByte_mk]
      refine ⟨fun x hx => ?_, q2⟩
      rcases List.mem_append.1 hx with hx | hx
      · exact q1 x hx
      · exact r1 x hx
    split
    · rw [threeByte_mk]
      refine ⟨q1, fun s hs => ?_⟩
      rcases List.mem_append.1 hs with hs | hs
      · exact q2 s hs
      · rw [List.mem_singleton] at hs; rw [hs]; exact hr'
    split
    · rw [threeByte_mk]
      refine ⟨r1, fun s hs => ?_⟩
      rcases List.mem_append.1 hs with hs | hs
      · exact r2 s hs
      · rw [List.mem_singleton] at hs; rw [hs]; exact hq'
    have hf := mem_factor (q.trigram.length + r.trigram.length) q.trigram r.trigram
    generalize factor (q.trigram.length + r.trigram.length) q.trigram r.trigram = p at hf
    have h1 : ThreeByte (.mk q.op p.1 q.sub) := threeByte_mk.2 ⟨fun x hx => q1 x ((hf x).1 hx), q2⟩
    have h2 : ThreeByte (.mk r.op p.2.1 r.sub) := threeByte_mk.2 ⟨fun x hx => r1 x ((hf x).2.1 hx), r2⟩
    have h3 : ThreeByte (.mk (otherOp op) p.2.2 []) :=
      threeByte_mk.2 ⟨fun x hx => q1 x ((hf x).2.2 hx), by simp⟩
    split
    · exact threeByte_andOrF fuel _ _ _ h3 (threeByte_andOrF fuel _ _ _ h1 h2)
    · rw [threeByte_mk]
      refine ⟨by simp, ?_⟩
      intro s hs
      simp only [List.mem_cons, List.not_mem_nil, or_false] at hs
      rcases hs with rfl | rfl
      · exact h1
      · exact h2

end Hound
