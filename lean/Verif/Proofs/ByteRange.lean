import Verif.Model.ByteProg
import Verif.Proofs.Coding

/-! Splitting a rune range into ranges whose encodings are products of byte ranges. -/

namespace Hound

theorem mask_eq (i : Nat) : 1 <<< (6 * i) - 1 = 2 ^ (6 * i) - 1 := by rw [Nat.shiftLeft_eq, Nat.one_mul]

theorem and_mask (a k : Nat) : a &&& (2 ^ k - 1) = a % 2 ^ k := Nat.and_two_pow_sub_one_eq_mod a k

theorem or_mask (a k : Nat) : a ||| (2 ^ k - 1) = 2 ^ k * (a / 2 ^ k) + (2 ^ k - 1) := by
  have h1 : a = 2 ^ k * (a / 2 ^ k) ||| a % 2 ^ k := by
    rw [← Nat.two_pow_add_eq_or_of_lt (Nat.mod_lt _ (Nat.two_pow_pos k)), Nat.div_add_mod]
  have h2 : a % 2 ^ k ||| (2 ^ k - 1) = 2 ^ k - 1 := by
    apply Nat.eq_of_testBit_eq
    intro j
    rw [Nat.testBit_or, Nat.testBit_two_pow_sub_one, Nat.testBit_mod_two_pow]
    cases decide (j < k) <;> simp
  conv => lhs; rw [h1]
  rw [Nat.or_assoc, h2, ← Nat.two_pow_add_eq_or_of_lt]
  have := Nat.two_pow_pos k
  omega

theorem andNot_eq (a k : Nat) : andNot a (2 ^ k - 1) = a - a % 2 ^ k := by
  unfold andNot; rw [and_mask]

/-- The range agrees on the leading bytes or covers whole sections, at the `k` low bits. -/
def Aligned (lo hi k : Nat) : Prop :=
  lo / 2 ^ k = hi / 2 ^ k ∨ (lo % 2 ^ k = 0 ∧ hi % 2 ^ k = 2 ^ k - 1)

theorem andNot_div {a b k : Nat} : andNot a (2 ^ k - 1) = andNot b (2 ^ k - 1) ↔ a / 2 ^ k = b / 2 ^ k := by
  rw [andNot_eq, andNot_eq]
  have h1 := Nat.div_add_mod a (2 ^ k)
  have h2 := Nat.div_add_mod b (2 ^ k)
  have hp := Nat.two_pow_pos k
  constructor
  · intro h
    have : 2 ^ k * (a / 2 ^ k) = 2 ^ k * (b / 2 ^ k) := by omega
    exact Nat.eq_of_mul_eq_mul_left hp this
  · intro h
    rw [h] at h1
    omega

/-- Everything needed about a split by a mask. -/
theorem maskSplit_some {lo hi : Nat} (hle : lo ≤ hi) : ∀ {is : List Nat} {e s : Nat}, maskSplit lo hi is = some (e, s) →
    ∃ i ∈ is, lo / 2 ^ (6 * i) < hi / 2 ^ (6 * i) ∧ s = e + 1 ∧
      ((lo % 2 ^ (6 * i) ≠ 0 ∧ e = 2 ^ (6 * i) * (lo / 2 ^ (6 * i)) + (2 ^ (6 * i) - 1)) ∨
       (hi % 2 ^ (6 * i) ≠ 2 ^ (6 * i) - 1 ∧ s = 2 ^ (6 * i) * (hi / 2 ^ (6 * i)))) := by
  intro is
  induction is with
  | nil => intro e s h; simp [maskSplit] at h
  | cons i is ih =>
    intro e s h
    have hdiv : lo / 2 ^ (6 * i) ≤ hi / 2 ^ (6 * i) := Nat.div_le_div_right hle
    have hp := Nat.two_pow_pos (6 * i)
    simp only [maskSplit, mask_eq, ne_eq, andNot_div, and_mask, or_mask] at h
    split at h
    · rename_i hne
      have hlt : lo / 2 ^ (6 * i) < hi / 2 ^ (6 * i) := by omega
      split at h
      · rename_i h0
        cases h
        exact ⟨i, List.mem_cons_self, hlt, rfl, Or.inl ⟨h0, rfl⟩⟩
      · split at h
        · rename_i h1
          rw [andNot_eq] at h
          cases h
          have h2 := Nat.div_add_mod hi (2 ^ (6 * i))
          have h3 : 0 < 2 ^ (6 * i) * (hi / 2 ^ (6 * i)) := Nat.mul_pos hp (Nat.lt_of_le_of_lt (Nat.zero_le _) hlt)
          exact ⟨i, List.mem_cons_self, hlt, by omega, Or.inr ⟨h1, by omega⟩⟩
        · obtain ⟨j, hj, h'⟩ := ih h
          exact ⟨j, List.mem_cons_of_mem _ hj, h'⟩
    · obtain ⟨j, hj, h'⟩ := ih h
      exact ⟨j, List.mem_cons_of_mem _ hj, h'⟩

theorem maskSplit_none {lo hi : Nat} : ∀ {is : List Nat}, maskSplit lo hi is = none →
    ∀ i ∈ is, Aligned lo hi (6 * i) := by
  intro is
  induction is with
  | nil => simp
  | cons i is ih =>
    intro h
    simp only [maskSplit, mask_eq, ne_eq, andNot_div, and_mask, or_mask] at h
    intro j hj
    split at h
    · rename_i hne
      split at h
      · simp at h
      · rename_i h0
        split at h
        · simp at h
        · rename_i h1
          rcases List.mem_cons.mp hj with rfl | hj
          · exact Or.inr ⟨Classical.not_not.mp h0, Classical.not_not.mp h1⟩
          · exact ih h j hj
    · rename_i hne
      rcases List.mem_cons.mp hj with rfl | hj
      · exact Or.inl (by omega)
      · exact ih h j hj

theorem lengthSplit_some {lo hi mx : Nat} (h : lengthSplit lo hi = some mx) :
    lo ≤ mx ∧ mx < hi ∧ (mx = 0x7F ∨ mx = 0x7FF ∨ mx = 0xFFFF) := by
  simp only [lengthSplit, Option.map_eq_some_iff] at h
  obtain ⟨i, hi, rfl⟩ := h
  have h1 := List.find?_some hi
  have h2 := List.mem_of_find?_eq_some hi
  simp only [Bool.and_eq_true, decide_eq_true_eq] at h1
  refine ⟨h1.1, h1.2, ?_⟩
  simp only [List.mem_cons, List.not_mem_nil, or_false] at h2
  rcases h2 with rfl | rfl | rfl <;> simp [maxRune]

theorem lengthSplit_none {lo hi : Nat} (h : lengthSplit lo hi = none) :
    (0x7F < lo ∨ hi ≤ 0x7F) ∧ (0x7FF < lo ∨ hi ≤ 0x7FF) ∧ (0xFFFF < lo ∨ hi ≤ 0xFFFF) := by
  simp only [lengthSplit, Option.map_eq_none_iff, List.find?_eq_none] at h
  have h1 := h 1 (by simp)
  have h2 := h 2 (by simp)
  have h3 := h 3 (by simp)
  simp [maxRune] at h1 h2 h3
  refine ⟨?_, ?_, ?_⟩
  · rcases Nat.lt_or_ge 0x7F lo with h | h
    · exact Or.inl h
    · exact Or.inr (h1 h)
  · rcases Nat.lt_or_ge 0x7FF lo with h | h
    · exact Or.inl h
    · exact Or.inr (h2 h)
  · rcases Nat.lt_or_ge 0xFFFF lo with h | h
    · exact Or.inl h
    · exact Or.inr (h3 h)

/-- Ranges that `addRange` compiles correctly: they avoid the surrogates U+D800..U+DFFF, or contain all of the
two 4096-blocks U+D000..U+EFFF that border on and include them. -/
def GoodRange (lo hi : Nat) : Prop := hi < 0xD800 ∨ 0xE000 ≤ lo ∨ (lo ≤ 0xD000 ∧ 0xEFFF ≤ hi)

/-- A word that lies in a product of byte ranges. -/
def InProd : List (UInt8 × UInt8) → Bytes → Prop
  | [], w => w = []
  | (lo, hi) :: rs, w => ∃ c w', w = c :: w' ∧ lo ≤ c ∧ c ≤ hi ∧ InProd rs w'

theorem toNat_ofNat_lt {n : Nat} (h : n < 256) : (UInt8.ofNat n).toNat = n := by
  simp [UInt8.toNat_ofNat', Nat.mod_eq_of_lt h]

theorem ofNat_inj_iff {n : Nat} (h : n < 256) {c : UInt8} : c = UInt8.ofNat n ↔ c.toNat = n := by
  rw [← UInt8.toNat_inj, toNat_ofNat_lt h]

theorem encodeRaw_nat (r : Nat) : encodeRaw r =
    if r < 0x80 then [UInt8.ofNat r]
    else if r < 0x800 then [UInt8.ofNat (0xC0 + r / 64), UInt8.ofNat (0x80 + r % 64)]
    else if r < 0x10000 then
      [UInt8.ofNat (0xE0 + r / 64 / 64), UInt8.ofNat (0x80 + r / 64 % 64), UInt8.ofNat (0x80 + r % 64)]
    else
      [UInt8.ofNat (0xF0 + r / 64 / 64 / 64), UInt8.ofNat (0x80 + r / 64 / 64 % 64),
       UInt8.ofNat (0x80 + r / 64 % 64), UInt8.ofNat (0x80 + r % 64)] := by
  simp only [Nat.div_div_eq_div_mul]
  rfl

theorem encodeRune_eq_raw {r : Nat} (h1 : ¬ (0xD800 ≤ r ∧ r < 0xE000)) (h2 : r ≤ 0x10FFFF) :
    encodeRune r = encodeRaw r := by
  unfold encodeRune
  rw [if_pos]
  simp only [validRune, Bool.or_eq_true, Bool.and_eq_true, decide_eq_true_eq]
  rcases Nat.lt_or_ge r 0xD800 with h | h
  · exact Or.inl h
  · exact Or.inr ⟨Nat.le_of_not_lt (fun h' => h1 ⟨h, h'⟩), h2⟩

/-- One digit: in an aligned range the last digit varies independently of the others. -/
theorem digit {lo hi : Nat} (ha : Aligned lo hi 6) (q d : Nat) (hd : d < 64) :
    (lo ≤ 64 * q + d ∧ 64 * q + d ≤ hi) ↔
      (lo / 64 ≤ q ∧ q ≤ hi / 64) ∧ lo % 64 ≤ d ∧ d ≤ hi % 64 := by
  simp only [Aligned, show (2:Nat)^6 = 64 by rfl] at ha
  omega

theorem aligned_div12 {lo hi : Nat} (h : Aligned lo hi 12) : Aligned (lo / 64) (hi / 64) 6 := by
  simp only [Aligned, show (2:Nat)^6 = 64 by rfl, show (2:Nat)^12 = 4096 by rfl] at h ⊢
  omega

theorem aligned_div18 {lo hi : Nat} (h : Aligned lo hi 18) : Aligned (lo / 64) (hi / 64) 12 := by
  simp only [Aligned, show (2:Nat)^12 = 4096 by rfl, show (2:Nat)^18 = 262144 by rfl] at h ⊢
  omega

/-- A byte between two bytes given as numbers. -/
theorem byte_between {c : UInt8} {base a b : Nat} (ha : base + a < 256) (hb : base + b < 256) :
    (UInt8.ofNat (base + a) ≤ c ∧ c ≤ UInt8.ofNat (base + b)) ↔ ∃ d, a ≤ d ∧ d ≤ b ∧ c = UInt8.ofNat (base + d) := by
  rw [UInt8.le_iff_toNat_le, UInt8.le_iff_toNat_le, toNat_ofNat_lt ha, toNat_ofNat_lt hb]
  constructor
  · rintro ⟨h1, h2⟩
    exact ⟨c.toNat - base, by omega, by omega, (ofNat_inj_iff (by omega)).mpr (by omega)⟩
  · rintro ⟨d, h1, h2, rfl⟩
    rw [toNat_ofNat_lt (by omega)]
    omega

/-- Words in a product, spelled with digits. -/
theorem inProd_cons {base a b : Nat} (ha : base + a < 256) (hb : base + b < 256) {rs : List (UInt8 × UInt8)}
    {w : Bytes} :
    InProd ((UInt8.ofNat (base + a), UInt8.ofNat (base + b)) :: rs) w ↔
      ∃ d w', a ≤ d ∧ d ≤ b ∧ w = UInt8.ofNat (base + d) :: w' ∧ InProd rs w' := by
  simp only [InProd]
  constructor
  · rintro ⟨c, w', rfl, h1, h2, h3⟩
    obtain ⟨d, h4, h5, rfl⟩ := (byte_between ha hb).mp ⟨h1, h2⟩
    exact ⟨d, w', h4, h5, rfl, h3⟩
  · rintro ⟨d, w', h4, h5, rfl, h3⟩
    have := (byte_between (c := UInt8.ofNat (base + d)) ha hb).mpr ⟨d, h4, h5, rfl⟩
    exact ⟨_, w', rfl, this.1, this.2, h3⟩

theorem leaf_ascii {lo hi : Nat} (hh : hi < 0x80) (hle : lo ≤ hi) (w : Bytes) :
    InProd [(byteOf lo, byteOf hi)] w ↔ ∃ r : Nat, lo ≤ r ∧ r ≤ hi ∧ w = encodeRaw r := by
  have h := inProd_cons (base := 0) (a := lo) (b := hi) (by omega) (by omega) (rs := []) (w := w)
  simp only [Nat.zero_add] at h
  unfold byteOf
  rw [h]
  constructor
  · rintro ⟨d, w', h1, h2, rfl, rfl⟩
    exact ⟨d, h1, h2, by rw [encodeRaw_nat, if_pos (by omega)]⟩
  · rintro ⟨d, h1, h2, rfl⟩
    exact ⟨d, [], h1, h2, by rw [encodeRaw_nat, if_pos (by omega)], rfl⟩

theorem leaf_two {lo hi : Nat} (hl : 0x80 ≤ lo) (hh : hi < 0x800) (hle : lo ≤ hi) (ha : Aligned lo hi 6)
    (w : Bytes) :
    InProd ((encodeRaw lo).zip (encodeRaw hi)) w ↔ ∃ r : Nat, lo ≤ r ∧ r ≤ hi ∧ w = encodeRaw r := by
  have e : ∀ r : Nat, 0x80 ≤ r → r < 0x800 →
      encodeRaw r = [UInt8.ofNat (0xC0 + r / 64), UInt8.ofNat (0x80 + r % 64)] := by
    intro r h1 h2
    rw [encodeRaw_nat, if_neg (by omega), if_pos h2]
  rw [e lo hl (by omega), e hi (by omega) hh]
  simp only [List.zip_cons_cons, List.zip_nil_left]
  rw [inProd_cons (by omega) (by omega)]
  constructor
  · rintro ⟨q, _, h1, h2, rfl, h⟩
    rw [inProd_cons (by omega) (by omega)] at h
    obtain ⟨d, _, h3, h4, rfl, rfl⟩ := h
    have hd : d < 64 := by omega
    obtain ⟨k1, k2⟩ := (digit ha q d hd).mpr ⟨⟨h1, h2⟩, h3, h4⟩
    refine ⟨64 * q + d, k1, k2, ?_⟩
    rw [e _ (by omega) (by omega)]
    rw [show (64 * q + d) / 64 = q by omega, show (64 * q + d) % 64 = d by omega]
  · rintro ⟨r, h1, h2, rfl⟩
    have hr : 64 * (r / 64) + r % 64 = r := by omega
    obtain ⟨⟨k1, k2⟩, k3, k4⟩ := (digit ha (r / 64) (r % 64) (by omega)).mp (by rw [hr]; exact ⟨h1, h2⟩)
    rw [e r (by omega) (by omega)]
    refine ⟨r / 64, _, k1, k2, rfl, ?_⟩
    rw [inProd_cons (by omega) (by omega)]
    exact ⟨r % 64, _, k3, k4, rfl, rfl⟩

theorem leaf_three {lo hi : Nat} (hl : 0x800 ≤ lo) (hh : hi < 0x10000) (hle : lo ≤ hi) (ha : Aligned lo hi 6)
    (hb : Aligned lo hi 12) (w : Bytes) :
    InProd ((encodeRaw lo).zip (encodeRaw hi)) w ↔ ∃ r : Nat, lo ≤ r ∧ r ≤ hi ∧ w = encodeRaw r := by
  have e : ∀ r : Nat, 0x800 ≤ r → r < 0x10000 →
      encodeRaw r = [UInt8.ofNat (0xE0 + r / 64 / 64), UInt8.ofNat (0x80 + r / 64 % 64),
        UInt8.ofNat (0x80 + r % 64)] := by
    intro r h1 h2
    rw [encodeRaw_nat, if_neg (by omega), if_neg (by omega), if_pos h2]
  have hb' := aligned_div12 hb
  rw [e lo hl (by omega), e hi (by omega) hh]
  simp only [List.zip_cons_cons, List.zip_nil_left]
  rw [inProd_cons (by omega) (by omega)]
  constructor
  · rintro ⟨q, _, h1, h2, rfl, h⟩
    rw [inProd_cons (by omega) (by omega)] at h
    obtain ⟨d, _, h3, h4, rfl, h⟩ := h
    rw [inProd_cons (by omega) (by omega)] at h
    obtain ⟨f, _, h5, h6, rfl, rfl⟩ := h
    have hd : d < 64 := by omega
    have hf : f < 64 := by omega
    obtain ⟨j1, j2⟩ := (digit hb' q d hd).mpr ⟨⟨h1, h2⟩, h3, h4⟩
    obtain ⟨k1, k2⟩ := (digit ha (64 * q + d) f hf).mpr ⟨⟨j1, j2⟩, h5, h6⟩
    refine ⟨64 * (64 * q + d) + f, k1, k2, ?_⟩
    rw [e _ (by omega) (by omega)]
    rw [show (64 * (64 * q + d) + f) / 64 = 64 * q + d by omega, show (64 * (64 * q + d) + f) % 64 = f by omega,
      show (64 * q + d) / 64 = q by omega, show (64 * q + d) % 64 = d by omega]
  · rintro ⟨r, h1, h2, rfl⟩
    have hr : 64 * (r / 64) + r % 64 = r := by omega
    have hr2 : 64 * (r / 64 / 64) + r / 64 % 64 = r / 64 := by omega
    obtain ⟨⟨k1, k2⟩, k3, k4⟩ := (digit ha (r / 64) (r % 64) (by omega)).mp (by rw [hr]; exact ⟨h1, h2⟩)
    obtain ⟨⟨j1, j2⟩, j3, j4⟩ := (digit hb' (r / 64 / 64) (r / 64 % 64) (by omega)).mp (by rw [hr2]; exact ⟨k1, k2⟩)
    rw [e r (by omega) (by omega)]
    refine ⟨r / 64 / 64, _, j1, j2, rfl, ?_⟩
    rw [inProd_cons (by omega) (by omega)]
    refine ⟨r / 64 % 64, _, j3, j4, rfl, ?_⟩
    rw [inProd_cons (by omega) (by omega)]
    exact ⟨r % 64, _, k3, k4, rfl, rfl⟩

theorem leaf_four {lo hi : Nat} (hl : 0x10000 ≤ lo) (hh : hi ≤ 0x10FFFF) (hle : lo ≤ hi) (ha : Aligned lo hi 6)
    (hb : Aligned lo hi 12) (hc : Aligned lo hi 18) (w : Bytes) :
    InProd ((encodeRaw lo).zip (encodeRaw hi)) w ↔ ∃ r : Nat, lo ≤ r ∧ r ≤ hi ∧ w = encodeRaw r := by
  have e : ∀ r : Nat, 0x10000 ≤ r →
      encodeRaw r = [UInt8.ofNat (0xF0 + r / 64 / 64 / 64), UInt8.ofNat (0x80 + r / 64 / 64 % 64),
        UInt8.ofNat (0x80 + r / 64 % 64), UInt8.ofNat (0x80 + r % 64)] := by
    intro r h1
    rw [encodeRaw_nat, if_neg (by omega), if_neg (by omega), if_neg (by omega)]
  have hb' := aligned_div12 hb
  have hc' := aligned_div12 (aligned_div18 hc)
  rw [e lo hl, e hi (by omega)]
  simp only [List.zip_cons_cons, List.zip_nil_left]
  rw [inProd_cons (by omega) (by omega)]
  constructor
  · rintro ⟨q, _, h1, h2, rfl, h⟩
    rw [inProd_cons (by omega) (by omega)] at h
    obtain ⟨d, _, h3, h4, rfl, h⟩ := h
    rw [inProd_cons (by omega) (by omega)] at h
    obtain ⟨f, _, h5, h6, rfl, h⟩ := h
    rw [inProd_cons (by omega) (by omega)] at h
    obtain ⟨g, _, h7, h8, rfl, rfl⟩ := h
    have hd : d < 64 := by omega
    have hf : f < 64 := by omega
    have hg : g < 64 := by omega
    obtain ⟨i1, i2⟩ := (digit hc' q d hd).mpr ⟨⟨h1, h2⟩, h3, h4⟩
    obtain ⟨j1, j2⟩ := (digit hb' (64 * q + d) f hf).mpr ⟨⟨i1, i2⟩, h5, h6⟩
    obtain ⟨k1, k2⟩ := (digit ha (64 * (64 * q + d) + f) g hg).mpr ⟨⟨j1, j2⟩, h7, h8⟩
    refine ⟨64 * (64 * (64 * q + d) + f) + g, k1, k2, ?_⟩
    rw [e _ (by omega)]
    rw [show (64 * (64 * (64 * q + d) + f) + g) / 64 = 64 * (64 * q + d) + f by omega,
      show (64 * (64 * (64 * q + d) + f) + g) % 64 = g by omega,
      show (64 * (64 * q + d) + f) / 64 = 64 * q + d by omega,
      show (64 * (64 * q + d) + f) % 64 = f by omega,
      show (64 * q + d) / 64 = q by omega, show (64 * q + d) % 64 = d by omega]
  · rintro ⟨r, h1, h2, rfl⟩
    have hr : 64 * (r / 64) + r % 64 = r := by omega
    have hr2 : 64 * (r / 64 / 64) + r / 64 % 64 = r / 64 := by omega
    have hr3 : 64 * (r / 64 / 64 / 64) + r / 64 / 64 % 64 = r / 64 / 64 := by omega
    obtain ⟨⟨k1, k2⟩, k3, k4⟩ := (digit ha (r / 64) (r % 64) (by omega)).mp (by rw [hr]; exact ⟨h1, h2⟩)
    obtain ⟨⟨j1, j2⟩, j3, j4⟩ := (digit hb' (r / 64 / 64) (r / 64 % 64) (by omega)).mp (by rw [hr2]; exact ⟨k1, k2⟩)
    obtain ⟨⟨i1, i2⟩, i3, i4⟩ := (digit hc' (r / 64 / 64 / 64) (r / 64 / 64 % 64) (by omega)).mp
      (by rw [hr3]; exact ⟨j1, j2⟩)
    rw [e r (by omega)]
    refine ⟨r / 64 / 64 / 64, _, i1, i2, rfl, ?_⟩
    rw [inProd_cons (by omega) (by omega)]
    refine ⟨r / 64 / 64 % 64, _, i3, i4, rfl, ?_⟩
    rw [inProd_cons (by omega) (by omega)]
    refine ⟨r / 64 % 64, _, j3, j4, rfl, ?_⟩
    rw [inProd_cons (by omega) (by omega)]
    exact ⟨r % 64, _, k3, k4, rfl, rfl⟩

end Hound
