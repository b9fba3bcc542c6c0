import Verif.Proofs.ByteRange
import Verif.Spec.RuneProg

/-! Encodings of code points are distinct, and valid code points contain no encoded surrogate. -/

namespace Hound
open Spec

theorem ofNat_eq_ofNat {a b : Nat} (ha : a < 256) (hb : b < 256) (h : UInt8.ofNat a = UInt8.ofNat b) : a = b := by
  have := (ofNat_inj_iff hb).mp h
  rw [toNat_ofNat_lt ha] at this
  exact this

theorem encodeRaw_inj {r s : Nat} (hr : r ≤ 0x10FFFF) (hs : s ≤ 0x10FFFF) (h : encodeRaw r = encodeRaw s) : r = s := by
  rw [encodeRaw_nat, encodeRaw_nat] at h
  by_cases r1 : r < 0x80
  · rw [if_pos r1] at h
    by_cases s1 : s < 0x80
    · rw [if_pos s1] at h
      simp only [List.cons.injEq, and_true] at h
      exact ofNat_eq_ofNat (by omega) (by omega) h
    · rw [if_neg s1] at h
      split at h
      · simp at h
      · split at h <;> simp at h
  · rw [if_neg r1] at h
    by_cases r2 : r < 0x800
    · rw [if_pos r2] at h
      by_cases s1 : s < 0x80
      · rw [if_pos s1] at h; simp at h
      · rw [if_neg s1] at h
        by_cases s2 : s < 0x800
        · rw [if_pos s2] at h
          simp only [List.cons.injEq, and_true] at h
          have h1 := ofNat_eq_ofNat (by omega) (by omega) h.1
          have h2 := ofNat_eq_ofNat (by omega) (by omega) h.2
          omega
        · rw [if_neg s2] at h
          split at h <;> simp at h
    · rw [if_neg r2] at h
      by_cases r3 : r < 0x10000
      · rw [if_pos r3] at h
        by_cases s1 : s < 0x80
        · rw [if_pos s1] at h; simp at h
        · rw [if_neg s1] at h
          by_cases s2 : s < 0x800
          · rw [if_pos s2] at h; simp at h
          · rw [if_neg s2] at h
            by_cases s3 : s < 0x10000
            · rw [if_pos s3] at h
              simp only [List.cons.injEq, and_true] at h
              have h1 := ofNat_eq_ofNat (by omega) (by omega) h.1
              have h2 := ofNat_eq_ofNat (by omega) (by omega) h.2.1
              have h3 := ofNat_eq_ofNat (by omega) (by omega) h.2.2
              omega
            · rw [if_neg s3] at h; simp at h
      · rw [if_neg r3] at h
        by_cases s1 : s < 0x80
        · rw [if_pos s1] at h; simp at h
        · rw [if_neg s1] at h
          by_cases s2 : s < 0x800
          · rw [if_pos s2] at h; simp at h
          · rw [if_neg s2] at h
            by_cases s3 : s < 0x10000
            · rw [if_pos s3] at h; simp at h
            · rw [if_neg s3] at h
              simp only [List.cons.injEq, and_true] at h
              have h1 := ofNat_eq_ofNat (by omega) (by omega) h.1
              have h2 := ofNat_eq_ofNat (by omega) (by omega) h.2.1
              have h3 := ofNat_eq_ofNat (by omega) (by omega) h.2.2.1
              have h4 := ofNat_eq_ofNat (by omega) (by omega) h.2.2.2
              omega

theorem surrogate_raw {s : Nat} (h1 : 0xD800 ≤ s) (h2 : s < 0xE000) :
    ∃ b : Nat, 0xA0 ≤ b ∧ b < 0xC0 ∧ ∃ c : Nat, encodeRaw s = [UInt8.ofNat 0xED, UInt8.ofNat b, UInt8.ofNat c] := by
  refine ⟨0x80 + s / 64 % 64, by omega, by omega, 0x80 + s % 64, ?_⟩
  rw [encodeRaw_nat, if_neg (by omega), if_neg (by omega), if_pos (by omega)]
  have : 0xE0 + s / 64 / 64 = 0xED := by omega
  rw [this]

theorem prefix_drop_get {α : Type} {a b : α} {w l : List α} {i : Nat} (h : a :: b :: w <+: l.drop i) :
    l[i]? = some a ∧ l[i + 1]? = some b := by
  obtain ⟨t, ht⟩ := h
  have h0 : (l.drop i)[0]? = some a := by rw [← ht]; rfl
  have h1 : (l.drop i)[1]? = some b := by rw [← ht]; rfl
  rw [List.getElem?_drop] at h0 h1
  exact ⟨h0, h1⟩

theorem noSurrogate_valid {r : Nat} (hr : r < 0xD800 ∨ (0xE000 ≤ r ∧ r ≤ 0x10FFFF)) : NoSurrogate (encodeRaw r) := by
  intro s h1 h2 i hp
  obtain ⟨b, hb1, hb2, c, hs⟩ := surrogate_raw h1 h2
  rw [hs] at hp
  obtain ⟨g0, g1⟩ := prefix_drop_get hp
  have hlen := hp.length_le
  rw [encodeRaw_nat] at g0 g1
  rw [List.length_drop, encodeRaw_nat] at hlen
  by_cases r1 : r < 0x80
  · rw [if_pos r1] at hlen; simp at hlen; omega
  · rw [if_neg r1] at hlen g0 g1
    by_cases r2 : r < 0x800
    · rw [if_pos r2] at hlen; simp at hlen; omega
    · rw [if_neg r2] at hlen g0 g1
      by_cases r3 : r < 0x10000
      · rw [if_pos r3] at hlen g0 g1
        simp at hlen
        have hi : i = 0 := by omega
        subst hi
        simp only [List.getElem?_cons_zero, Option.some.injEq, Nat.zero_add, List.getElem?_cons_succ] at g0 g1
        have e0 := ofNat_eq_ofNat (by omega) (by omega) g0
        have e1 := ofNat_eq_ofNat (by omega) (by omega) g1
        omega
      · rw [if_neg r3] at hlen g0 g1
        simp at hlen
        have hi : i = 0 ∨ i = 1 := by omega
        rcases hi with rfl | rfl
        · simp only [List.getElem?_cons_zero, Option.some.injEq] at g0
          have e0 := ofNat_eq_ofNat (by omega) (by omega) g0
          omega
        · simp only [List.getElem?_cons_zero, Option.some.injEq, List.getElem?_cons_succ] at g0
          have e0 := ofNat_eq_ofNat (by omega) (by omega) g0
          omega

end Hound
