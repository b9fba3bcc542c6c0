import Verif.Model.TextFile
import Verif.Spec.Text
import Verif.Proofs.RawInj

namespace Hound
open Spec

theorem validRune_of {r : Nat} (h : r < 0xD800 ∨ (0xE000 ≤ r ∧ r ≤ 0x10FFFF)) : validRune r = true := by
  simpa [validRune, Bool.or_eq_true, Bool.and_eq_true] using h

theorem accepted_iff {b b1 : UInt8} : accepted b b1 = true ↔ 0x80 ≤ b1.toNat ∧ b1.toNat ≤ 0xBF ∧
    (b.toNat = 0xE0 → 0xA0 ≤ b1.toNat) ∧ (b.toNat = 0xED → b1.toNat ≤ 0x9F) ∧
    (b.toNat = 0xF0 → 0x90 ≤ b1.toNat) ∧ (b.toNat = 0xF4 → b1.toNat ≤ 0x8F) := by
  simp only [accepted, Bool.and_eq_true, decide_eq_true_eq]
  have : acceptRange b.toNat = if b.toNat = 0xE0 then (0xA0, 0xBF)
    else if b.toNat = 0xED then (0x80, 0x9F)
    else if b.toNat = 0xF0 then (0x90, 0xBF)
    else if b.toNat = 0xF4 then (0x80, 0x8F)
    else (0x80, 0xBF) := rfl
  rw [this]
  repeat' split
  all_goals (simp only []; omega)

theorem decode2 {b b1 : UInt8} {t : Bytes} (h1 : 0xC2 ≤ b.toNat) (h2 : b.toNat < 0xE0) (ha : accepted b b1 = true) :
    decodeRune (b :: b1 :: t) = ((b.toNat - 0xC0) * 64 + (b1.toNat - 0x80), 2) := by
  simp only [decodeRune]
  rw [if_neg (by omega), if_neg (by omega), if_pos h2, if_pos ha]

theorem decode3 {b b1 b2 : UInt8} {t : Bytes} (h1 : 0xE0 ≤ b.toNat) (h2 : b.toNat < 0xF0)
    (ha : (accepted b b1 && isCont b2) = true) : decodeRune (b :: b1 :: b2 :: t) =
      ((b.toNat - 0xE0) * 4096 + (b1.toNat - 0x80) * 64 + (b2.toNat - 0x80), 3) := by
  simp only [decodeRune]
  rw [if_neg (by omega), if_neg (by omega), if_neg (by omega), if_pos h2, if_pos ha]

theorem decode4 {b b1 b2 b3 : UInt8} {t : Bytes} (h1 : 0xF0 ≤ b.toNat) (h2 : b.toNat < 0xF5)
    (ha : (accepted b b1 && isCont b2 && isCont b3) = true) : decodeRune (b :: b1 :: b2 :: b3 :: t) =
      ((b.toNat - 0xF0) * 262144 + (b1.toNat - 0x80) * 4096 + (b2.toNat - 0x80) * 64 + (b3.toNat - 0x80), 4) := by
  simp only [decodeRune]
  rw [if_neg (by omega), if_neg (by omega), if_neg (by omega), if_neg (by omega), if_pos h2, if_pos ha]

/-- A rune is decoded from its encoding, whatever follows. -/
theorem decode_encode {r : Nat} (h : validRune r = true) (t : Bytes) :
    decodeRune (encodeRaw r ++ t) = (r, (encodeRaw r).length) := by
  have hv : r < 0xD800 ∨ (0xE000 ≤ r ∧ r ≤ 0x10FFFF) := by
    simpa [validRune, Bool.or_eq_true, Bool.and_eq_true] using h
  rw [encodeRaw_nat]
  by_cases h1 : r < 0x80
  · rw [if_pos h1]
    simp only [List.cons_append, List.nil_append, decodeRune, List.length_cons, List.length_nil]
    rw [toNat_ofNat_lt (by omega), if_pos h1]
  rw [if_neg h1]
  by_cases h2 : r < 0x800
  · rw [if_pos h2]
    have e0 := toNat_ofNat_lt (n := 0xC0 + r / 64) (by omega)
    have e1 := toNat_ofNat_lt (n := 0x80 + r % 64) (by omega)
    have := decode2 (b := UInt8.ofNat (0xC0 + r / 64)) (b1 := UInt8.ofNat (0x80 + r % 64)) (t := t)
      (by omega) (by omega) (accepted_iff.mpr (by omega))
    simp only [List.cons_append, List.nil_append, this, List.length_cons, List.length_nil, e0, e1, Prod.mk.injEq]
    exact ⟨by omega, trivial⟩
  rw [if_neg h2]
  by_cases h3 : r < 0x10000
  · rw [if_pos h3]
    have e0 := toNat_ofNat_lt (n := 0xE0 + r / 64 / 64) (by omega)
    have e1 := toNat_ofNat_lt (n := 0x80 + r / 64 % 64) (by omega)
    have e2 := toNat_ofNat_lt (n := 0x80 + r % 64) (by omega)
    have := decode3 (b := UInt8.ofNat (0xE0 + r / 64 / 64)) (b1 := UInt8.ofNat (0x80 + r / 64 % 64))
      (b2 := UInt8.ofNat (0x80 + r % 64)) (t := t) (by omega) (by omega) (by
        simp only [Bool.and_eq_true, accepted_iff, isCont, decide_eq_true_eq]; omega)
    simp only [List.cons_append, List.nil_append, this, List.length_cons, List.length_nil, e0, e1, e2, Prod.mk.injEq]
    exact ⟨by omega, trivial⟩
  rw [if_neg h3]
  have e0 := toNat_ofNat_lt (n := 0xF0 + r / 64 / 64 / 64) (by omega)
  have e1 := toNat_ofNat_lt (n := 0x80 + r / 64 / 64 % 64) (by omega)
  have e2 := toNat_ofNat_lt (n := 0x80 + r / 64 % 64) (by omega)
  have e3 := toNat_ofNat_lt (n := 0x80 + r % 64) (by omega)
  have := decode4 (b := UInt8.ofNat (0xF0 + r / 64 / 64 / 64)) (b1 := UInt8.ofNat (0x80 + r / 64 / 64 % 64))
    (b2 := UInt8.ofNat (0x80 + r / 64 % 64)) (b3 := UInt8.ofNat (0x80 + r % 64)) (t := t) (by omega) (by omega) (by
      simp only [Bool.and_eq_true, accepted_iff, isCont, decide_eq_true_eq]; omega)
  simp only [List.cons_append, List.nil_append, this, List.length_cons, List.length_nil, e0, e1, e2, e3, Prod.mk.injEq]
  exact ⟨by omega, trivial⟩

theorem encodeRaw_of_bytes2 {b0 b1 : UInt8} {r : Nat} (h : 0x80 ≤ r) (h' : r < 0x800)
    (h0 : b0.toNat = 0xC0 + r / 64) (h1 : b1.toNat = 0x80 + r % 64) : encodeRaw r = [b0, b1] := by
  rw [encodeRaw_nat, if_neg (by omega), if_pos (by omega), ← h0, ← h1]
  simp

theorem encodeRaw_of_bytes3 {b0 b1 b2 : UInt8} {r : Nat} (h : 0x800 ≤ r) (h' : r < 0x10000)
    (h0 : b0.toNat = 0xE0 + r / 64 / 64) (h1 : b1.toNat = 0x80 + r / 64 % 64) (h2 : b2.toNat = 0x80 + r % 64) :
    encodeRaw r = [b0, b1, b2] := by
  rw [encodeRaw_nat, if_neg (by omega), if_neg (by omega), if_pos (by omega), ← h0, ← h1, ← h2]
  simp

theorem encodeRaw_of_bytes4 {b0 b1 b2 b3 : UInt8} {r : Nat} (h : 0x10000 ≤ r)
    (h0 : b0.toNat = 0xF0 + r / 64 / 64 / 64) (h1 : b1.toNat = 0x80 + r / 64 / 64 % 64)
    (h2 : b2.toNat = 0x80 + r / 64 % 64) (h3 : b3.toNat = 0x80 + r % 64) :
    encodeRaw r = [b0, b1, b2, b3] := by
  rw [encodeRaw_nat, if_neg (by omega), if_neg (by omega), if_neg (by omega), ← h0, ← h1, ← h2, ← h3]
  simp

/-- What is decoded without an error is the encoding of a rune. -/
theorem decode_sound {b : UInt8} {t : Bytes} (h : b.toNat < 0x80 ∨ (decodeRune (b :: t)).2 ≠ 1) :
    ∃ r, validRune r = true ∧ encodeRaw r = (b :: t).take (decodeRune (b :: t)).2 ∧
      (decodeRune (b :: t)).2 ≤ (b :: t).length ∧ 0 < (decodeRune (b :: t)).2 := by
  by_cases g0 : b.toNat < 0x80
  · refine ⟨b.toNat, validRune_of (by omega), ?_, ?_, ?_⟩
    · simp only [decodeRune, if_pos g0]
      rw [encodeRaw_nat, if_pos g0]
      simp
    · simp [decodeRune, g0]
    · simp [decodeRune, g0]
  have h := h.resolve_left g0
  by_cases g1 : b.toNat < 0xC2
  · simp [decodeRune, g0, g1] at h
  by_cases g2 : b.toNat < 0xE0
  · cases t with
    | nil => simp [decodeRune, g0, g1, g2] at h
    | cons b1 t =>
      by_cases ha : accepted b b1 = true
      · have e : decodeRune (b :: b1 :: t) = ((b.toNat - 0xC0) * 64 + (b1.toNat - 0x80), 2) := by
          simp [decodeRune, g0, g1, g2, ha]
        rw [e]
        rw [accepted_iff] at ha
        refine ⟨(b.toNat - 0xC0) * 64 + (b1.toNat - 0x80), ?_, ?_, by simp, by simp⟩
        · exact validRune_of (by omega)
        · exact encodeRaw_of_bytes2 (by omega) (by omega) (by omega) (by omega)
      · simp [decodeRune, g0, g1, g2, ha] at h
  by_cases g3 : b.toNat < 0xF0
  · match t, h with
    | [], h => simp [decodeRune, g0, g1, g2, g3] at h
    | [_], h => simp [decodeRune, g0, g1, g2, g3] at h
    | b1 :: b2 :: t, h =>
      by_cases ha : (accepted b b1 && isCont b2) = true
      · have e : decodeRune (b :: b1 :: b2 :: t) =
            ((b.toNat - 0xE0) * 4096 + (b1.toNat - 0x80) * 64 + (b2.toNat - 0x80), 3) := by
          simp only [decodeRune, if_neg g0, if_neg g1, if_neg g2, if_pos g3, if_pos ha]
        rw [e]
        simp only [accepted_iff, isCont, Bool.and_eq_true, decide_eq_true_eq] at ha
        refine ⟨(b.toNat - 0xE0) * 4096 + (b1.toNat - 0x80) * 64 + (b2.toNat - 0x80), ?_, ?_, by simp, by simp⟩
        · exact validRune_of (by omega)
        · exact encodeRaw_of_bytes3 (by omega) (by omega) (by omega) (by omega) (by omega)
      · simp only [decodeRune, if_neg g0, if_neg g1, if_neg g2, if_pos g3, if_neg ha] at h
        exact absurd rfl h
  by_cases g4 : b.toNat < 0xF5
  · match t, h with
    | [], h => simp [decodeRune, g0, g1, g2, g3, g4] at h
    | [_], h => simp [decodeRune, g0, g1, g2, g3, g4] at h
    | [_, _], h => simp [decodeRune, g0, g1, g2, g3, g4] at h
    | b1 :: b2 :: b3 :: t, h =>
      by_cases ha : (accepted b b1 && isCont b2 && isCont b3) = true
      · have e : decodeRune (b :: b1 :: b2 :: b3 :: t) =
            ((b.toNat - 0xF0) * 262144 + (b1.toNat - 0x80) * 4096 + (b2.toNat - 0x80) * 64 + (b3.toNat - 0x80), 4) := by
          simp only [decodeRune, if_neg g0, if_neg g1, if_neg g2, if_neg g3, if_pos g4, if_pos ha]
        rw [e]
        simp only [accepted_iff, isCont, Bool.and_eq_true, decide_eq_true_eq] at ha
        refine ⟨(b.toNat - 0xF0) * 262144 + (b1.toNat - 0x80) * 4096 + (b2.toNat - 0x80) * 64 + (b3.toNat - 0x80),
          ?_, ?_, by simp, by simp⟩
        · exact validRune_of (by omega)
        · exact encodeRaw_of_bytes4 (by omega) (by omega) (by omega) (by omega) (by omega)
      · simp only [decodeRune, if_neg g0, if_neg g1, if_neg g2, if_neg g3, if_pos g4, if_neg ha] at h
        exact absurd rfl h
  · simp [decodeRune, g0, g1, g2, g3, g4] at h

theorem encodeRaw_ne_nil (r : Nat) : encodeRaw r ≠ [] := by
  rw [encodeRaw_nat]; repeat' split
  all_goals simp

theorem encodeRaw_length_le (r : Nat) : (encodeRaw r).length ≤ 4 := by
  rw [encodeRaw_nat]; repeat' split
  all_goals simp

theorem encodeRaw_head {r : Nat} {b : UInt8} {t : Bytes} (h : validRune r = true) (e : encodeRaw r = b :: t) :
    (b.toNat < 0x80 ∧ t = []) ∨ 0xC0 ≤ b.toNat := by
  have hv : r < 0xD800 ∨ (0xE000 ≤ r ∧ r ≤ 0x10FFFF) := by
    simpa [validRune, Bool.or_eq_true, Bool.and_eq_true] using h
  rw [encodeRaw_nat] at e
  by_cases h1 : r < 0x80
  · rw [if_pos h1] at e
    simp only [List.cons.injEq] at e
    exact .inl ⟨by rw [← e.1, toNat_ofNat_lt (by omega)]; exact h1, e.2.symm⟩
  rw [if_neg h1] at e
  right
  by_cases h2 : r < 0x800
  · rw [if_pos h2] at e
    simp only [List.cons.injEq] at e
    rw [← e.1, toNat_ofNat_lt (by omega)]; omega
  rw [if_neg h2] at e
  by_cases h3 : r < 0x10000
  · rw [if_pos h3] at e
    simp only [List.cons.injEq] at e
    rw [← e.1, toNat_ofNat_lt (by omega)]; omega
  · rw [if_neg h3] at e
    simp only [List.cons.injEq] at e
    rw [← e.1, toNat_ofNat_lt (by omega)]; omega

/-- What the loop computes: the bytes are runes followed by nothing, or by a rest that does not begin with a rune and
passes the final test. -/
theorem validLoop_iff {e : Bytes → Bool} : ∀ {fuel : Nat} {p : Bytes}, p.length ≤ fuel →
    (validLoop e fuel p = true ↔ ∃ (rs : List Rune) (rest : Bytes), (∀ r ∈ rs, validRune r = true) ∧
      p = rs.flatMap encodeRaw ++ rest ∧
      (rest = [] ∨ ∃ b t, rest = b :: t ∧ 0x80 ≤ b.toNat ∧ (decodeRune rest).2 = 1 ∧ e rest = true))
  | fuel, [], _ => by
    simp only [validLoop, true_iff]
    exact ⟨[], [], by simp, by simp, .inl rfl⟩
  | 0, _ :: _, h => by simp at h
  | fuel + 1, b :: t, h => by
    -- the two ways on
    have hgo : ∀ k, (decodeRune (b :: t)).2 = k → (b.toNat < 0x80 ∨ k ≠ 1) →
        (validLoop e fuel ((b :: t).drop k) = true ↔ ∃ (rs : List Rune) (rest : Bytes), (∀ r ∈ rs, validRune r = true) ∧
          (b :: t) = rs.flatMap encodeRaw ++ rest ∧
          (rest = [] ∨ ∃ b t, rest = b :: t ∧ 0x80 ≤ b.toNat ∧ (decodeRune rest).2 = 1 ∧ e rest = true)) := by
      intro k hk hne
      obtain ⟨r, hr, henc, hle, hpos⟩ := decode_sound (b := b) (t := t) (by rw [hk]; exact hne)
      rw [hk] at henc hle hpos
      rw [validLoop_iff (p := (b :: t).drop k) (by rw [List.length_drop]; simp at h ⊢; omega)]
      constructor
      · rintro ⟨rs, rest, h1, h2, h3⟩
        refine ⟨r :: rs, rest, ?_, ?_, h3⟩
        · intro x hx
          rcases List.mem_cons.mp hx with rfl | hx
          · exact hr
          · exact h1 x hx
        · rw [List.flatMap_cons, List.append_assoc, ← h2, henc, List.take_append_drop]
      · rintro ⟨rs, rest, h1, h2, h3⟩
        cases rs with
        | nil =>
          simp only [List.flatMap_nil, List.nil_append] at h2
          rcases h3 with h3 | ⟨b', t', h4, h5, h6, _⟩
          · rw [h3] at h2; simp at h2
          · rw [← h2] at h4 h6
            simp only [List.cons.injEq] at h4
            rw [← h4.1] at h5
            rcases hne with hne | hne
            · omega
            · rw [hk] at h6; exact absurd h6 hne
        | cons r' rs =>
          have hd := decode_encode (h1 r' (by simp)) (rs.flatMap encodeRaw ++ rest)
          have h2' := h2
          rw [List.flatMap_cons, List.append_assoc] at h2'
          rw [← h2'] at hd
          have hk' : k = (encodeRaw r').length := by rw [← hk, hd]
          refine ⟨rs, rest, fun x hx => h1 x (by simp [hx]), ?_, h3⟩
          rw [h2', hk', List.drop_left]
    simp only [validLoop]
    by_cases hb : b.toNat < 0x80
    · rw [if_pos hb]
      have := hgo 1 (by simp [decodeRune, hb]) (.inl hb)
      simpa using this
    · rw [if_neg hb]
      by_cases hs : (decodeRune (b :: t)).2 = 1
      · rw [if_pos hs]
        constructor
        · intro he
          exact ⟨[], b :: t, by simp, by simp, .inr ⟨b, t, rfl, by omega, hs, he⟩⟩
        · rintro ⟨rs, rest, h1, h2, h3⟩
          cases rs with
          | nil =>
            simp only [List.flatMap_nil, List.nil_append] at h2
            rcases h3 with h3 | ⟨b', t', h4, h5, h6, h7⟩
            · rw [h3] at h2; simp at h2
            · rw [h2]; exact h7
          | cons r' rs =>
            exfalso
            have hv := h1 r' (by simp)
            have hd := decode_encode hv (rs.flatMap encodeRaw ++ rest)
            rw [List.flatMap_cons, List.append_assoc] at h2
            rw [← h2, ] at hd
            have hl : (encodeRaw r').length = 1 := by rw [← hs, hd]
            cases he : encodeRaw r' with
            | nil => exact encodeRaw_ne_nil _ he
            | cons b' t' =>
              rw [he] at h2 hl
              simp only [List.cons_append, List.cons.injEq] at h2
              rcases encodeRaw_head hv he with ⟨h', _⟩ | h'
              · rw [← h2.1] at h'; exact hb h'
              · have ht : t' = [] := by simpa using hl
                subst ht
                have hd' := decode_encode hv []
                rw [he] at hd'
                have : b'.toNat < 0x80 := by
                  apply Classical.byContradiction
                  intro hge
                  rw [encodeRaw_nat] at he
                  by_cases g1 : r' < 0x80
                  · rw [if_pos g1] at he
                    simp only [List.cons.injEq] at he
                    rw [← he.1, toNat_ofNat_lt (Nat.lt_trans g1 (by decide))] at hge
                    exact hge g1
                  · rw [if_neg g1] at he
                    revert he
                    repeat' split
                    all_goals simp
                rw [← h2.1] at this
                exact hb this
      · rw [if_neg hs]
        exact hgo _ rfl (.inr hs)

/-- A proper beginning of an encoding does not begin with a rune. -/
theorem cut_rune {r : Nat} (hr : validRune r = true) {n : Nat} (h0 : 0 < n) (h1 : n < (encodeRaw r).length) :
    ∃ b t, (encodeRaw r).take n = b :: t ∧ 0xC0 ≤ b.toNat ∧ (b :: t).length < 4 ∧ (decodeRune (b :: t)).2 = 1 := by
  cases he : encodeRaw r with
  | nil => exact absurd he (encodeRaw_ne_nil r)
  | cons b t =>
    have hb : 0xC0 ≤ b.toNat := by
      rcases encodeRaw_head hr he with ⟨_, ht⟩ | h
      · rw [he, ht] at h1; simp at h1; omega
      · exact h
    obtain ⟨m, rfl⟩ : ∃ m, n = m + 1 := ⟨n - 1, by omega⟩
    refine ⟨b, t.take m, by simp, hb, ?_, ?_⟩
    · have := encodeRaw_length_le r
      rw [he] at this h1
      simp at this h1 ⊢
      omega
    · apply Classical.byContradiction
      intro hne
      obtain ⟨r', hr', henc, hle, hpos⟩ := decode_sound (b := b) (t := t.take m) (.inr hne)
      have hd := decode_encode hr []
      rw [List.append_nil, he] at hd
      -- the encoding of `r` begins with that of `r'`
      have hpre : encodeRaw r' <+: b :: t := by
        rw [henc]
        exact (List.take_prefix _ _).trans (by
          have := List.take_prefix (m + 1) (b :: t)
          simpa using this)
      obtain ⟨u, hu⟩ := hpre
      have hd' := decode_encode hr' u
      rw [hu, hd] at hd'
      simp only [Prod.mk.injEq] at hd'
      have hlen : (encodeRaw r').length ≤ (b :: t.take m).length := by
        rw [henc, List.length_take]; omega
      rw [← hd'.2] at hlen
      rw [he] at h1
      simp at hlen h1
      omega

/-- Every beginning of valid text is valid but for a last rune cut short. -/
theorem take_valid : ∀ {rs : List Rune}, (∀ r ∈ rs, validRune r = true) → ∀ n : Nat,
    ∃ (qs : List Rune) (rest : Bytes), (∀ r ∈ qs, validRune r = true) ∧
      (rs.flatMap encodeRaw).take n = qs.flatMap encodeRaw ++ rest ∧
      (rest = [] ∨ ∃ b t, rest = b :: t ∧ 0xC0 ≤ b.toNat ∧ rest.length < 4 ∧ (decodeRune rest).2 = 1)
  | [], _, n => ⟨[], [], by simp, by simp, .inl rfl⟩
  | r :: rs, h, n => by
    rcases Nat.eq_zero_or_pos n with rfl | hn
    · exact ⟨[], [], by simp, by simp, .inl rfl⟩
    · by_cases hl : n < (encodeRaw r).length
      · obtain ⟨b, t, h1, h2, h3, h4⟩ := cut_rune (h r (by simp)) hn hl
        refine ⟨[], b :: t, by simp, ?_, .inr ⟨b, t, rfl, h2, h3, h4⟩⟩
        rw [List.flatMap_cons, List.take_append_of_le_length (by omega), h1]; simp
      · obtain ⟨qs, rest, h1, h2, h3⟩ := take_valid (fun x hx => h x (List.mem_cons_of_mem _ hx)) (n - (encodeRaw r).length)
        refine ⟨r :: qs, rest, ?_, ?_, h3⟩
        · intro x hx
          rcases List.mem_cons.mp hx with rfl | hx
          · exact h x (by simp)
          · exact h1 x hx
        · rw [List.flatMap_cons, List.take_append, List.take_of_length_le (by omega), h2, List.flatMap_cons, List.append_assoc]

end Hound
