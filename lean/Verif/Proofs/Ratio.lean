import Verif.Model.IndexWrite

namespace Hound

theorem float32OfNat_small {n : Nat} (h : n < 2 ^ 24) : float32OfNat n = n := by
  simp [float32OfNat, h]

theorem float32OfNat_big {n : Nat} (h : 2 ^ 24 ≤ n) : 2 ^ 24 ≤ float32OfNat n := by
  unfold float32OfNat
  rw [if_neg (by omega)]
  simp only
  have hl : 24 ≤ Nat.log2 n := (Nat.le_log2 (by omega)).2 h
  have h2 : 2 ^ Nat.log2 n ≤ n := Nat.log2_self_le (by omega)
  generalize Nat.log2 n = l at *
  obtain ⟨s, rfl⟩ : ∃ s, l = 23 + s := ⟨l - 23, by omega⟩
  rw [show 23 + s - 23 = s from by omega]
  have hq : 2 ^ 23 ≤ n / 2 ^ s := (Nat.le_div_iff_mul_le (Nat.two_pow_pos s)).2 (by rw [← Nat.pow_add]; exact h2)
  have hs : 2 ^ 1 ≤ 2 ^ s := Nat.pow_le_pow_right (by omega) (by omega)
  calc 2 ^ 24 = 2 ^ 23 * 2 ^ 1 := rfl
    _ ≤ n / 2 ^ s * 2 ^ s := Nat.mul_le_mul hq hs
    _ ≤ _ := Nat.mul_le_mul_right _ (by split <;> omega)

/-- **Ratio test, exact case**: for counts below 2^24 the float32 comparison is the exact one. -/
theorem ratioAboveTenth_exact {a b : Nat} (ha : a < 2 ^ 24) (hb : b < 2 ^ 24) :
    ratioAboveTenth a b = decide (b < 10 * a) := by
  unfold ratioAboveTenth
  rw [float32OfNat_small ha, float32OfNat_small hb, Bool.eq_iff_iff]
  simp only [Bool.and_eq_true, Bool.or_eq_true, decide_eq_true_eq]
  omega

theorem ratioAboveTenth_many {a b : Nat} (ha : a * 2001 ≤ 2 ^ 25) (hb : 2 ^ 24 ≤ b) :
    ratioAboveTenth a b = false := by
  have hn := float32OfNat_big hb
  unfold ratioAboveTenth
  rw [float32OfNat_small (by omega), ← Bool.not_eq_true]
  generalize float32OfNat b = fb at *
  simp only [Bool.and_eq_true, Bool.or_eq_true, decide_eq_true_eq]
  omega

end Hound
