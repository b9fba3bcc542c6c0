import Verif.Proofs.Ratio
import Verif.Proofs.BuildIndex
import Verif.Proofs.Complete

/-!
# A text whose share of different trigrams is rounded down to 10%
-/

namespace Hound
open Spec

/-- The float32 comparison for all sizes that occur. -/
theorem ratioAboveTenth_iff {a b : Nat} (hb : b ≤ 2 ^ 25) (ha : a < 2 ^ 24) :
    ratioAboveTenth a b = true ↔ b < 10 * a ∧ ¬ (2 ^ 24 < b ∧ b % 4 = 3 ∧ b + 1 = 10 * a) := by
  unfold ratioAboveTenth
  rw [float32OfNat_small ha]
  by_cases h1 : b < 2 ^ 24
  · rw [float32OfNat_small h1]
    simp only [Bool.and_eq_true, Bool.or_eq_true, decide_eq_true_eq]
    omega
  by_cases h2 : b = 2 ^ 25
  · subst h2
    rw [show float32OfNat (2 ^ 25) = 2 ^ 25 from by decide]
    simp only [Bool.and_eq_true, Bool.or_eq_true, decide_eq_true_eq]
    omega
  have hl : Nat.log2 b = 24 := by
    have := (Nat.le_log2 (n := b) (k := 24) (by omega)).2 (by omega)
    have : Nat.log2 b < 25 := (Nat.log2_lt (by omega)).2 (by omega)
    omega
  have hf : float32OfNat b = (if b % 4 = 3 then b / 2 + 1 else b / 2) * 2 := by
    unfold float32OfNat
    rw [if_neg h1]
    simp only [hl, show 24 - 23 = 1 from rfl, Nat.pow_one]
    by_cases hu : (decide (2 * (b % 2) > 2) || 2 * (b % 2) == 2 && b / 2 % 2 == 1) = true
    · rw [if_pos hu]
      simp only [Bool.or_eq_true, decide_eq_true_eq, Bool.and_eq_true, beq_iff_eq] at hu
      rw [if_pos (by omega)]
    · rw [if_neg hu]
      simp only [Bool.or_eq_true, decide_eq_true_eq, Bool.and_eq_true, beq_iff_eq] at hu
      rw [if_neg (by omega)]
  rw [hf]
  simp only [Bool.and_eq_true, Bool.or_eq_true, decide_eq_true_eq]
  split <;> omega

theorem nodup_subset_length : ∀ {l m : List Nat}, l.Nodup → (∀ x ∈ l, x ∈ m) → l.length ≤ m.length
  | [], _, _, _ => Nat.zero_le _
  | x :: l, m, hn, hs => by
    have hn' := List.nodup_cons.1 hn
    have ih := nodup_subset_length (l := l) (m := m.erase x) hn'.2 (fun y hy => by
      have hne : y ≠ x := fun e => hn'.1 (e ▸ hy)
      exact (List.mem_erase_of_ne hne).2 (hs y (by simp [hy])))
    rw [List.length_erase_of_mem (hs x (by simp))] at ih
    have : 0 < m.length := List.length_pos_of_mem (hs x (by simp))
    simp only [List.length_cons]
    omega

/-- How many different trigrams a text has. -/
def triCount (w : Bytes) : Nat := (trigramsOf w).length

theorem triCount_of_subset {v w : Bytes} (h : ∀ x ∈ blocks3 v, x ∈ blocks3 w) : triCount v ≤ triCount w :=
  nodup_subset_length (nodup_firsts _) fun x hx => mem_firsts.2 (h x (mem_firsts.1 hx))

theorem blocks3_cons (c : UInt8) (w : Bytes) : (∃ x, blocks3 (c :: w) = x :: blocks3 w) ∨ blocks3 (c :: w) = blocks3 w := by
  match w with
  | [] => exact .inr rfl
  | [_] => exact .inr rfl
  | _ :: _ :: _ => exact .inl ⟨_, rfl⟩

theorem triCount_cons (c : UInt8) (w : Bytes) : triCount (c :: w) ≤ triCount w + 1 := by
  unfold triCount trigramsOf
  rcases blocks3_cons c w with ⟨x, h⟩ | h
  · rw [h, firsts, List.length_cons]
    have := List.length_filter_le (· ≠ x) (firsts (blocks3 w))
    omega
  · rw [h]; omega

theorem blocks3_append_right : ∀ (v w : Bytes), ∀ x ∈ blocks3 w, x ∈ blocks3 (v ++ w)
  | [], _, _, h => h
  | c :: v, w, x, h => by
    have ih := blocks3_append_right v w x h
    rcases blocks3_cons c (v ++ w) with ⟨y, e⟩ | e
    · rw [List.cons_append, e]; exact List.mem_cons_of_mem _ ih
    · rw [List.cons_append, e]; exact ih

theorem blocks3_pad (k : Nat) : ∀ s : Bytes,
    blocks3 (s ++ List.replicate (k + 3) 10) = blocks3 (s ++ List.replicate 3 10) ++ List.replicate k (triVal 10 10 10)
  | [] => by
    simp only [List.nil_append]
    induction k with
    | zero => rfl
    | succ k ih =>
      have e : blocks3 (List.replicate (k + 1 + 3) (10 : UInt8)) = triVal 10 10 10 :: blocks3 (List.replicate (k + 3) (10 : UInt8)) := rfl
      rw [e, ih]
      rfl
  | [c] => by
    have ih := blocks3_pad k []
    have e : ∀ j, blocks3 ([c] ++ List.replicate (j + 3) (10 : UInt8)) = triVal c 10 10 :: blocks3 ([] ++ List.replicate (j + 3) (10 : UInt8)) :=
      fun j => rfl
    rw [e k, ih]
    exact (congrArg (· ++ _) (e 0)).symm
  | c :: d :: s => by
    have ih := blocks3_pad k (d :: s)
    have e : ∀ j, ∃ x, blocks3 (c :: d :: s ++ List.replicate (j + 3) (10 : UInt8)) =
        x :: blocks3 (d :: s ++ List.replicate (j + 3) (10 : UInt8)) ∧
        x = (match s with | [] => triVal c d 10 | b :: _ => triVal c d b) := by
      intro j
      cases s with
      | nil => exact ⟨_, rfl, rfl⟩
      | cons b s => exact ⟨_, rfl, rfl⟩
    obtain ⟨x, h1, h2⟩ := e k
    obtain ⟨y, h3, h4⟩ := e 0
    rw [h1, ih, show blocks3 (c :: d :: s ++ List.replicate 3 (10 : UInt8)) = _ from h3, h2, h4]
    rfl

/-- More newlines at the end bring no new trigram. -/
theorem triCount_pad (s : Bytes) (k : Nat) : triCount (s ++ List.replicate (k + 3) 10) = triCount (s ++ List.replicate 3 10) := by
  have hm : triVal 10 10 10 ∈ blocks3 (s ++ List.replicate 3 (10 : UInt8)) :=
    blocks3_append_right _ _ _ (by simp [List.replicate, blocks3])
  refine Nat.le_antisymm (triCount_of_subset fun x hx => ?_) (triCount_of_subset fun x hx => ?_)
  · rw [blocks3_pad, List.mem_append] at hx
    rcases hx with hx | hx
    · exact hx
    · rw [(List.mem_replicate.1 hx).2]; exact hm
  · rw [blocks3_pad, List.mem_append]; exact .inl hx

/-- Taking bytes away from the front changes the count by at most one at a time, so every count is met. -/
theorem suffix_with_count (t : Nat) (z : Bytes) : ∀ u : Bytes, triCount z ≤ t → t ≤ triCount (u ++ z) →
    ∃ s, s <:+ u ∧ triCount (s ++ z) = t
  | [], h1, h2 => ⟨[], List.suffix_refl _, Nat.le_antisymm h1 h2⟩
  | c :: u, h1, h2 => by
    have hc := triCount_cons c (u ++ z)
    by_cases h : t ≤ triCount (u ++ z)
    · obtain ⟨s, hs, e⟩ := suffix_with_count t z u h1 h
      exact ⟨s, hs.trans (List.suffix_cons _ _), e⟩
    · exact ⟨c :: u, List.suffix_refl _, by simp only [List.cons_append] at h2 hc ⊢; omega⟩

/-- Three ASCII bytes and a newline. -/
def quad (v : Nat) : Bytes := [UInt8.ofNat (v / 16384), UInt8.ofNat (v / 128 % 128), UInt8.ofNat (v % 128), 10]

/-- All sequences of three ASCII bytes, one per line. -/
def allQuads (n : Nat) : Bytes := (List.range n).flatMap quad

theorem flatMap_quad_length (l : List Nat) : (l.flatMap quad).length = 4 * l.length := by
  induction l with
  | nil => rfl
  | cons x l ih => simp [List.flatMap_cons, quad, ih]; omega

theorem blocks3_quads (l : List Nat) (z : Bytes) : ∀ v ∈ l, triVal (UInt8.ofNat (v / 16384)) (UInt8.ofNat (v / 128 % 128))
    (UInt8.ofNat (v % 128)) ∈ blocks3 (l.flatMap quad ++ z) := by
  induction l with
  | nil => intro v hv; simp at hv
  | cons x l ih =>
    intro v hv
    rw [List.flatMap_cons, List.append_assoc]
    rcases List.mem_cons.1 hv with rfl | hv
    · simp [quad, blocks3]
    · exact blocks3_append_right _ _ _ (ih v hv)

theorem toNat_ofNat_small {n : Nat} (h : n < 256) : (UInt8.ofNat n).toNat = n := by
  rw [UInt8.toNat_ofNat']; exact Nat.mod_eq_of_lt h

theorem quad_val {v : Nat} (h : v < 2097152) : triVal (UInt8.ofNat (v / 16384)) (UInt8.ofNat (v / 128 % 128))
    (UInt8.ofNat (v % 128)) = v / 16384 * 65536 + v / 128 % 128 * 256 + v % 128 := by
  unfold triVal
  rw [toNat_ofNat_small (by omega), toNat_ofNat_small (by omega),
    toNat_ofNat_small (by omega)]

theorem triCount_allQuads {n : Nat} (hn : n ≤ 2097152) (z : Bytes) : n ≤ triCount (allQuads n ++ z) := by
  have h : ((List.range n).map fun v => v / 16384 * 65536 + v / 128 % 128 * 256 + v % 128).length ≤
      (trigramsOf (allQuads n ++ z)).length := by
    refine nodup_subset_length ?_ fun x hx => ?_
    · refine List.Pairwise.map _ ?_ (List.pairwise_lt_range (n := n))
      intro a b e
      omega
    · obtain ⟨v, hv, rfl⟩ := List.mem_map.1 hx
      rw [← quad_val (by have := List.mem_range.1 hv; omega)]
      exact mem_firsts.2 (blocks3_quads _ _ v hv)
  simpa [triCount] using h

theorem looksUtf8_ascii : ∀ (a : UInt8) (w : Bytes), a < 128 → (∀ b ∈ w, b < 128) → looksUtf8 a w = true
  | _, [], _, _ => rfl
  | a, b :: w, ha, h => by
    have hb := h b (by simp)
    rw [looksUtf8, looksUtf8_ascii b w hb fun c hc => h c (by simp [hc])]
    have e1 : isAscii a = true := by simpa [isAscii] using ha
    have e2 : isAscii b = true := by simpa [isAscii] using hb
    simp [pairOk, e1, e2]

theorem pieces_le_length : ∀ (x : Bytes), ∀ l ∈ pieces x, l.length ≤ x.length
  | [], l, h => by simp [pieces] at h; simp [h]
  | c :: x, l, h => by
    have ih := pieces_le_length x
    rw [pieces] at h
    split at h
    · rcases List.mem_cons.1 h with rfl | h
      · simp
      · have := ih l h; simp; omega
    · cases hp : pieces x with
      | nil => rw [hp] at h; simp only [List.mem_singleton] at h; subst h; simp
      | cons a as =>
        rw [hp] at h ih
        rcases List.mem_cons.1 h with rfl | h
        · have := ih a (by simp); simp only [List.length_cons]; omega
        · have := ih l (by simp [h]); simp only [List.length_cons]; omega

theorem pieces_tail {M : Nat} (c : UInt8) (w : Bytes) (h : ∀ l ∈ pieces (c :: w), l.length ≤ M) :
    ∀ l ∈ pieces w, l.length ≤ M := by
  rw [pieces] at h
  split at h
  · exact fun l hl => h l (by simp [hl])
  · cases hp : pieces w with
    | nil => simp
    | cons a as =>
      rw [hp] at h
      intro l hl
      rcases List.mem_cons.1 hl with rfl | hl
      · have := h (c :: l) (by simp); simp only [List.length_cons] at this; omega
      · exact h l (by simp [hl])

theorem pieces_suffix {M : Nat} {s : Bytes} : ∀ {w : Bytes}, s <:+ w → (∀ l ∈ pieces w, l.length ≤ M) →
    ∀ l ∈ pieces s, l.length ≤ M
  | [], hs, h => by rw [List.suffix_nil.1 hs]; exact h
  | c :: w, hs, h => by
    rcases List.suffix_cons_iff.1 hs with rfl | hs
    · exact h
    · exact pieces_suffix hs (pieces_tail c w h)

theorem pieces_quads (l : List Nat) : ∀ p ∈ pieces (l.flatMap quad), p.length ≤ 3 := by
  induction l with
  | nil => intro p hp; simp [pieces] at hp; simp [hp]
  | cons x l ih =>
    intro p hp
    have e : (x :: l).flatMap quad = [UInt8.ofNat (x / 16384), UInt8.ofNat (x / 128 % 128), UInt8.ofNat (x % 128)] ++
        NL :: l.flatMap quad := rfl
    rw [e, pieces_append_newline, List.mem_append] at hp
    rcases hp with hp | hp
    · exact pieces_le_length _ p hp
    · exact ih p hp

theorem pieces_newlines : ∀ k, ∀ p ∈ pieces (List.replicate k 10), p.length ≤ 3
  | 0, p, h => by simp [pieces] at h; simp [h]
  | k + 1, p, h => by
    rw [List.replicate_succ, pieces, if_pos rfl] at h
    rcases List.mem_cons.1 h with rfl | h
    · simp
    · exact pieces_newlines k p h

/-- There is a text of 16777219 bytes with 1677722 different trigrams that breaks no other rule. -/
theorem edge_text : ∃ w : Bytes, w.length = 16777219 ∧ (trigramsOf w).length = 1677722 ∧ looksUtf8 0 w = true ∧
    longEndedLines w = [] := by
  obtain ⟨s, hs, hc⟩ := suffix_with_count 1677722 (List.replicate 3 10) (allQuads 2097152)
    (by decide) (Nat.le_trans (by omega) (triCount_allQuads (Nat.le_refl _) _))
  have hlen : s.length ≤ 4 * 2097152 := by
    have := hs.length_le
    rw [allQuads, flatMap_quad_length, List.length_range] at this
    exact this
  refine ⟨s ++ List.replicate (16777216 - s.length + 3) 10, ?_, ?_, ?_, ?_⟩
  · rw [List.length_append, List.length_replicate]; omega
  · exact (triCount_pad s _).trans hc
  · refine looksUtf8_ascii _ _ (by decide) fun b hb => ?_
    rcases List.mem_append.1 hb with hb | hb
    · have := hs.subset hb
      simp only [allQuads, List.mem_flatMap, List.mem_range, quad, List.mem_cons, List.not_mem_nil, or_false] at this
      obtain ⟨v, hv, h⟩ := this
      rw [UInt8.lt_iff_toNat_lt]
      rcases h with rfl | rfl | rfl | rfl
      · rw [toNat_ofNat_small (by omega)]; show _ < 128; omega
      · rw [toNat_ofNat_small (by omega)]; show _ < 128; omega
      · rw [toNat_ofNat_small (by omega)]; show _ < 128; omega
      · decide
    · rw [(List.mem_replicate.1 hb).2]; decide
  · unfold longEndedLines endedLines
    refine List.filter_eq_nil_iff.2 fun l hl => ?_
    have hl := List.dropLast_subset _ hl
    rw [List.replicate_succ, show (10 : UInt8) = NL from rfl, pieces_append_newline, List.mem_append] at hl
    have : l.length ≤ 3 := by
      rcases hl with hl | hl
      · exact pieces_suffix hs (pieces_quads _) l hl
      · exact pieces_newlines _ l hl
    simp only [decide_eq_true_eq]
    omega

end Hound
