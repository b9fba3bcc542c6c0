import Verif.Model.Coding

namespace Hound

theorem toNat_byteOf (x : Nat) : (byteOf x).toNat = x % 256 := by
  simp [byteOf]

theorem or128 (x : Nat) : (byteOf (x ||| 0x80)).toNat = x % 128 + 128 := by
  rw [toNat_byteOf]
  have h1 : (x ||| 128) % 2 ^ 8 = (x % 2 ^ 8) ||| (128 % 2 ^ 8) := Nat.or_mod_two_pow
  have h2 : ∀ y : Fin 256, y.val ||| 128 = y.val % 128 + 128 := by decide +kernel
  have h3 := h2 ⟨x % 256, Nat.mod_lt _ (by decide)⟩
  simp only at h3
  simp only [show (2 : Nat) ^ 8 = 256 from rfl, show 128 % 256 = 128 from rfl] at h1
  rw [h1, h3]; omega

theorem or_shift {x y s : Nat} (h : x < 2 ^ s) : x ||| y <<< s = x + y * 2 ^ s := by
  rw [Nat.or_comm, ← Nat.shiftLeft_add_eq_or_of_lt h, Nat.shiftLeft_eq, Nat.add_comm]

theorem and7f (y : Nat) : y &&& 0x7f = y % 128 := Nat.and_two_pow_sub_one_eq_mod y 7

theorem getUint32_put {x : Nat} (h : x < 2 ^ 32) (rest : Bytes) :
    getUint32 (putUint32 x ++ rest) = some x := by
  simp only [putUint32, List.cons_append, List.nil_append, getUint32, toNat_byteOf,
    Nat.shiftRight_eq_div_pow]
  rw [or_shift (s := 8) (by omega), or_shift (s := 16) (by omega), or_shift (s := 24) (by omega)]
  congr 1; omega

theorem getTrigram_put {x : Nat} (h : x < 2 ^ 24) (rest : Bytes) :
    getTrigram (putTrigram x ++ rest) = some x := by
  simp only [putTrigram, List.cons_append, List.nil_append, getTrigram, toNat_byteOf,
    Nat.shiftRight_eq_div_pow]
  rw [Nat.or_assoc, ← Nat.shiftLeft_add_eq_or_of_lt (i := 8) (by omega), ← Nat.shiftLeft_add_eq_or_of_lt (i := 16) (by
    simp only [Nat.shiftLeft_eq]; omega)]
  simp only [Nat.shiftLeft_eq]
  congr 1; omega

theorem putTrigram_get {a b c : UInt8} {rest : Bytes} {t : Nat}
    (h : getTrigram (a :: b :: c :: rest) = some t) : putTrigram t = [a, b, c] ∧ t < 2 ^ 24 := by
  have ha := a.toNat_lt; have hb := b.toNat_lt; have hc := c.toNat_lt
  simp only [getTrigram, Option.some.injEq] at h
  rw [Nat.or_assoc, ← Nat.shiftLeft_add_eq_or_of_lt (i := 8) (by omega), ← Nat.shiftLeft_add_eq_or_of_lt (i := 16) (by
    simp only [Nat.shiftLeft_eq]; omega)] at h
  simp only [Nat.shiftLeft_eq] at h
  subst h
  refine ⟨?_, by omega⟩
  simp only [putTrigram, Nat.shiftRight_eq_div_pow, byteOf]
  simp only [List.cons.injEq, and_true]
  refine ⟨?_, ?_, ?_⟩ <;> · apply UInt8.toNat_inj.1; simp only [UInt8.toNat_ofNat']; omega

theorem putTrigram_length (t : Nat) : (putTrigram t).length = 3 := rfl
theorem putUint32_length (t : Nat) : (putUint32 t).length = 4 := rfl

theorem putTrigram_inj {s t : Nat} (hs : s < 2 ^ 24) (ht : t < 2 ^ 24) (h : putTrigram s = putTrigram t) :
    s = t := by
  have h1 := getTrigram_put hs []
  rw [h, getTrigram_put ht] at h1
  injection h1 with h1; exact h1.symm

theorem uvarintLoop_last {i x : Nat} {b : UInt8} {rest : Bytes} (hi : i < 9) (hx : x < 2 ^ (7 * i))
    (hb : b.toNat < 128) :
    uvarintLoop i x (b :: rest) = some ((x + b.toNat * 2 ^ (7 * i)) % 2 ^ 64, i + 1) := by
  rw [uvarintLoop, if_neg (by omega), if_pos (by rw [UInt8.lt_iff_toNat_lt]; exact hb),
    if_neg (by omega), or_shift hx]

theorem uvarintLoop_more {i x : Nat} {b : UInt8} {rest : Bytes} (hi : i < 9) (hx : x < 2 ^ (7 * i))
    (hb : 128 ≤ b.toNat) :
    uvarintLoop i x (b :: rest) =
      uvarintLoop (i + 1) ((x + b.toNat % 128 * 2 ^ (7 * i)) % 2 ^ 64) rest := by
  rw [uvarintLoop, if_neg (by omega),
    if_neg (by rw [UInt8.lt_iff_toNat_lt]; show ¬ b.toNat < 128; omega), and7f, or_shift hx]

theorem uvarint_put {x : Nat} (h : x < 2 ^ 32) (rest : Bytes) :
    uvarint (putUvarint x ++ rest) = some (x, (putUvarint x).length) := by
  unfold uvarint putUvarint
  simp only [Nat.shiftLeft_eq, Nat.one_mul]
  have e1 := or128 x
  have e2 := or128 (x >>> 7)
  have e3 := or128 (x >>> 14)
  have e4 := or128 (x >>> 21)
  have f1 := toNat_byteOf x
  have f2 := toNat_byteOf (x >>> 7)
  have f3 := toNat_byteOf (x >>> 14)
  have f4 := toNat_byteOf (x >>> 21)
  have f5 := toNat_byteOf (x >>> 28)
  simp only [Nat.shiftRight_eq_div_pow] at *
  split
  · rw [List.cons_append, uvarintLoop_last (by omega) (by omega) (by omega), f1]
    simp; omega
  split
  · rw [List.cons_append, List.cons_append,
      uvarintLoop_more (by omega) (by omega) (by omega), e1,
      uvarintLoop_last (by omega) (by omega) (by omega), f2]
    simp; omega
  split
  · rw [List.cons_append, List.cons_append, List.cons_append,
      uvarintLoop_more (by omega) (by omega) (by omega), e1,
      uvarintLoop_more (by omega) (by omega) (by omega), e2,
      uvarintLoop_last (by omega) (by omega) (by omega), f3]
    simp; omega
  split
  · rw [List.cons_append, List.cons_append, List.cons_append, List.cons_append,
      uvarintLoop_more (by omega) (by omega) (by omega), e1,
      uvarintLoop_more (by omega) (by omega) (by omega), e2,
      uvarintLoop_more (by omega) (by omega) (by omega), e3,
      uvarintLoop_last (by omega) (by omega) (by omega), f4]
    simp; omega
  · rw [List.cons_append, List.cons_append, List.cons_append, List.cons_append, List.cons_append,
      uvarintLoop_more (by omega) (by omega) (by omega), e1,
      uvarintLoop_more (by omega) (by omega) (by omega), e2,
      uvarintLoop_more (by omega) (by omega) (by omega), e3,
      uvarintLoop_more (by omega) (by omega) (by omega), e4,
      uvarintLoop_last (by omega) (by omega) (by omega), f5]
    simp; omega

theorem makePostEntry_eq {t f : Nat} (ht : t < 2 ^ 32) (hf : f < 2 ^ 32) :
    makePostEntry t f = t * 2 ^ 32 + f := by
  unfold makePostEntry
  rw [Nat.mod_eq_of_lt (by rw [Nat.shiftLeft_eq]; omega), ← Nat.shiftLeft_add_eq_or_of_lt hf,
    Nat.shiftLeft_eq]

theorem entryTrigram_make {t f : Nat} (ht : t < 2 ^ 32) (hf : f < 2 ^ 32) :
    entryTrigram (makePostEntry t f) = t := by
  rw [makePostEntry_eq ht hf, entryTrigram, Nat.shiftRight_eq_div_pow]; omega

theorem entryFileid_make {t f : Nat} (ht : t < 2 ^ 32) (hf : f < 2 ^ 32) :
    entryFileid (makePostEntry t f) = f := by
  rw [makePostEntry_eq ht hf, entryFileid]; omega

end Hound
