import Verif.Model.IndexWrite
import Verif.Spec.Indexing
import Verif.Proofs.Sparse
import Verif.Proofs.Coding

namespace Hound
open Spec

theorem pairOk_eq (a b : UInt8) : validUTF8 a.toNat b.toNat = pairOk a b := by
  have ha := a.toNat_lt; have hb := b.toNat_lt
  unfold validUTF8 pairOk isAscii isCont isLead
  simp only [UInt8.lt_iff_toNat_lt, UInt8.le_iff_toNat_le]
  simp only [show (0x80 : UInt8).toNat = 0x80 from rfl, show (0xc0 : UInt8).toNat = 0xc0 from rfl,
    show (0xf8 : UInt8).toNat = 0xf8 from rfl]
  generalize a.toNat = x at *
  generalize b.toNat = y at *
  rw [Bool.eq_iff_iff]
  repeat' split
  all_goals (simp only [Bool.or_eq_true, Bool.and_eq_true, decide_eq_true_eq, Bool.false_eq_true]; first | omega | (constructor <;> intro h <;> first | exact h.elim | omega))

/-- The new value of `tv`. -/
theorem tv_step {tv : Nat} {c : UInt8} :
    (tv <<< 8) &&& (1 <<< 24 - 1) ||| c.toNat = (tv % 65536) * 256 + c.toNat := by
  have hc := c.toNat_lt
  rw [show (1 <<< 24 - 1 : Nat) = 2 ^ 24 - 1 from rfl, Nat.and_two_pow_sub_one_eq_mod]
  have : (tv <<< 8) % 2 ^ 24 = (tv % 65536) <<< 8 := by
    simp only [Nat.shiftLeft_eq]; omega
  rw [this, ← Nat.shiftLeft_add_eq_or_of_lt (by omega), Nat.shiftLeft_eq]

/-- The last byte of a text that continues after an ASCII byte. -/
def lastByte (w : Bytes) : UInt8 := (w.getLast?).getD 0

theorem lastByte_snoc {w : Bytes} {c : UInt8} : lastByte (w ++ [c]) = c := by simp [lastByte]

theorem looksUtf8_snoc : ∀ {w : Bytes} {a c : UInt8},
    looksUtf8 a (w ++ [c]) = (looksUtf8 a w && pairOk ((w.getLast?).getD a) c)
  | [], a, c => by simp [looksUtf8]
  | b :: w, a, c => by
    rw [List.cons_append, looksUtf8, looksUtf8, looksUtf8_snoc (w := w), Bool.and_assoc]
    congr 2
    cases w with
    | nil => rfl
    | cons x xs => simp [List.getLast?_cons_cons]; rw [List.getLast?_eq_some_getLast (by simp)]; rfl

theorem blocks3_snoc : ∀ {v : Bytes} {a b c : UInt8},
    blocks3 (v ++ [a, b, c]) = blocks3 (v ++ [a, b]) ++ [triVal a b c]
  | [], a, b, c => rfl
  | [x], a, b, c => rfl
  | [x, y], a, b, c => rfl
  | x :: y :: z :: v, a, b, c => by
    have := blocks3_snoc (v := y :: z :: v) (a := a) (b := b) (c := c)
    simp only [List.cons_append] at this ⊢
    rw [blocks3, blocks3, this, List.cons_append]

theorem snoc2 {w : Bytes} (h : 2 ≤ w.length) : ∃ v a b, w = v ++ [a, b] := by
  have h1 : w ≠ [] := by intro e; simp [e] at h
  obtain ⟨w1, b, rfl⟩ : ∃ w1 b, w = w1 ++ [b] := ⟨_, _, (List.dropLast_concat_getLast h1).symm⟩
  simp only [List.length_append, List.length_singleton] at h
  have h2 : w1 ≠ [] := by intro e; simp [e] at h
  obtain ⟨v, a, rfl⟩ : ∃ v a, w1 = v ++ [a] := ⟨_, _, (List.dropLast_concat_getLast h2).symm⟩
  exact ⟨v, a, b, by simp⟩

theorem pieces_ne_nil : ∀ w : Bytes, pieces w ≠ []
  | [] => by simp [pieces]
  | c :: cs => by
    unfold pieces
    split
    · simp
    · split <;> simp

theorem pieces_snoc : ∀ {w : Bytes} {c : UInt8}, pieces (w ++ [c]) =
    if c = 10 then pieces w ++ [[]] else (pieces w).dropLast ++ [((pieces w).getLast?).getD [] ++ [c]]
  | [], c => by
    by_cases hc : c = 10 <;> simp [pieces, hc]
  | b :: w, c => by
    have ih := pieces_snoc (w := w) (c := c)
    have hne := pieces_ne_nil w
    rw [List.cons_append, pieces, pieces, ih]
    obtain ⟨l, ls, hl⟩ : ∃ l ls, pieces w = l :: ls := by
      cases h : pieces w with
      | nil => exact absurd h hne
      | cons l ls => exact ⟨l, ls, rfl⟩
    by_cases hb : b = 10
    · simp only [hb, hl]
      by_cases hc : c = 10 <;> simp [hc, List.getLast?_cons_cons]
    · simp only [hb, if_false, hl]
      by_cases hc : c = 10
      · simp [hc]
      · cases ls with
        | nil => simp [hc]
        | cons l2 ls => simp [hc, List.getLast?_cons_cons]

/-- The state of the scanning loop after the text `w` (all of whose bytes passed the tests). -/
structure ScanInv (w : Bytes) (st : Scan) : Prop where
  n : st.n = w.length
  tvLow : st.tv % 256 = (lastByte w).toNat
  tvLow2 : ∀ v a b, w = v ++ [a, b] → st.tv % 65536 = a.toNat * 256 + b.toNat
  set : SSet.Inv st.set (2 ^ 24)
  dense : st.set.dense = (blocks3 w).foldl SSet.insertNew []
  numLines : st.numLines = (endedLines w).length
  linelen : st.linelen = (((pieces w).getLast?).getD []).length
  longLines : st.longLines = (longEndedLines w).length
  utf8 : looksUtf8 0 w = true
  short : w.length ≤ 2 ^ 25

theorem scanInv_init {s : SSet} (h : SSet.Inv s (2 ^ 24)) : ScanInv [] { set := s.reset } where
  n := rfl
  tvLow := rfl
  tvLow2 := by intro v a b h; simp at h
  set := h.reset
  dense := rfl
  numLines := rfl
  linelen := rfl
  longLines := rfl
  utf8 := rfl
  short := by simp

theorem scanByte_spec {w : Bytes} {st : Scan} (h : ScanInv w st) (c : UInt8) :
    (pairOk (lastByte w) c = false → ∃ set, SSet.Inv set (2 ^ 24) ∧ scanByte st c = .skip set .invalidUTF8) ∧
    (pairOk (lastByte w) c = true → w.length + 1 > 2 ^ 25 →
      ∃ set, SSet.Inv set (2 ^ 24) ∧ scanByte st c = .skip set .tooLong) ∧
    (pairOk (lastByte w) c = true → w.length + 1 ≤ 2 ^ 25 →
      ∃ st', scanByte st c = .go st' ∧ ScanInv (w ++ [c]) st') := by
  have hc := c.toNat_lt
  have hlb := (lastByte w).toNat_lt
  unfold scanByte
  simp only [tv_step, h.n]
  have e1 : ((st.tv % 65536 * 256 + c.toNat) >>> 8) &&& 0xFF = (lastByte w).toNat := by
    rw [Nat.and_two_pow_sub_one_eq_mod _ 8, Nat.shiftRight_eq_div_pow, ← h.tvLow]; omega
  have e2 : (st.tv % 65536 * 256 + c.toNat) &&& 0xFF = c.toNat := by
    rw [Nat.and_two_pow_sub_one_eq_mod _ 8]; omega
  rw [e1, e2, pairOk_eq]
  -- the set after the byte
  obtain ⟨set, hs1, hs2, hs3⟩ : ∃ set,
      (if w.length + 1 ≥ 3 then st.set.add (st.tv % 65536 * 256 + c.toNat) else some st.set) = some set ∧
      SSet.Inv set (2 ^ 24) ∧ set.dense = (blocks3 (w ++ [c])).foldl SSet.insertNew [] := by
    by_cases h3 : w.length + 1 ≥ 3
    · rw [if_pos h3]
      obtain ⟨v, a, b, rfl⟩ := snoc2 (w := w) (by omega)
      have htv := h.tvLow2 v a b rfl
      have ha := a.toNat_lt
      have hb := b.toNat_lt
      obtain ⟨s', q1, q2, q3⟩ := h.set.add (x := st.tv % 65536 * 256 + c.toNat) (by omega)
      refine ⟨s', q1, q2, ?_⟩
      rw [q3, h.dense, List.append_assoc, show [a, b] ++ [c] = [a, b, c] from rfl, blocks3_snoc,
        List.foldl_append, List.foldl_cons, List.foldl_nil]
      rw [show st.tv % 65536 * 256 + c.toNat = triVal a b c from by rw [htv, triVal]; omega]
    · rw [if_neg h3]
      refine ⟨st.set, rfl, h.set, ?_⟩
      rw [h.dense]
      match w, h3 with
      | [], _ => rfl
      | [x], _ => rfl
      | _ :: _ :: _, h3 => simp at h3
  rw [hs1]
  simp only
  refine ⟨fun hp => ?_, fun hp hl => ?_, fun hp hl => ?_⟩
  · rw [hp]; exact ⟨set, hs2, rfl⟩
  · rw [hp, if_neg (by simp), if_pos (by rw [show (1 <<< 25 : Nat) = 2 ^ 25 from rfl]; exact hl)]
    exact ⟨set, hs2, rfl⟩
  · rw [hp, if_neg (by simp), if_neg (by rw [show (1 <<< 25 : Nat) = 2 ^ 25 from rfl]; omega)]
    have hps := pieces_snoc (w := w) (c := c)
    have tv1 : (st.tv % 65536 * 256 + c.toNat) % 256 = (lastByte (w ++ [c])).toNat := by
      rw [lastByte_snoc]; omega
    have tv2 : ∀ v a b, w ++ [c] = v ++ [a, b] →
        (st.tv % 65536 * 256 + c.toNat) % 65536 = a.toNat * 256 + b.toNat := by
      intro v a b hv
      rw [show v ++ [a, b] = (v ++ [a]) ++ [b] from by simp] at hv
      obtain ⟨r1, r2⟩ := List.append_inj' hv rfl
      have hl := h.tvLow
      rw [r1, lastByte_snoc] at hl
      injection r2 with r2
      rw [← r2]
      have ha := a.toNat_lt
      omega
    have hu : looksUtf8 0 (w ++ [c]) = true := by
      rw [looksUtf8_snoc, h.utf8, Bool.true_and]; exact hp
    have hdl : (pieces w).dropLast ++ [((pieces w).getLast?).getD []] = pieces w := by
      have hne := pieces_ne_nil w
      rw [List.getLast?_eq_some_getLast hne, Option.getD_some, List.dropLast_concat_getLast]
    by_cases hnl : c = NL
    · rw [if_pos hnl]
      rw [if_pos hnl] at hps
      have hen : endedLines (w ++ [c]) = endedLines w ++ [((pieces w).getLast?).getD []] := by
        unfold endedLines
        rw [hps, List.dropLast_concat, hdl]
      refine ⟨_, rfl, ?_⟩
      constructor
      · simp
      · exact tv1
      · exact tv2
      · exact hs2
      · exact hs3
      · simp only [hen, h.numLines, List.length_append, List.length_singleton]
      · simp [hps]
      · simp only [longEndedLines, hen, List.filter_append, List.length_append, h.longLines,
          h.linelen, List.filter_cons, List.filter_nil]
        by_cases hlong : 2000 < (((pieces w).getLast?).getD []).length + 1
        · rw [if_pos hlong, if_pos (by simpa using hlong)]; rfl
        · rw [if_neg hlong, if_neg (by simpa using hlong)]; rfl
      · exact hu
      · simpa using hl
    · rw [if_neg hnl]
      rw [if_neg hnl] at hps
      have hen : endedLines (w ++ [c]) = endedLines w := by
        unfold endedLines
        rw [hps, List.dropLast_concat]
      refine ⟨_, rfl, ?_⟩
      constructor
      · simp
      · exact tv1
      · exact tv2
      · exact hs2
      · exact hs3
      · simp only [hen, h.numLines]
      · simp [hps, h.linelen]
      · simp only [longEndedLines, hen, h.longLines]
      · exact hu
      · simpa using hl

/-- What the scanning loop returns for a text: `w` was read before. -/
theorem scanChunk_spec : ∀ (x w : Bytes) {st : Scan}, ScanInv w st →
    (looksUtf8 0 ((w ++ x).take (2 ^ 25 + 1)) = false →
      ∃ set, SSet.Inv set (2 ^ 24) ∧ scanChunk st x = .skip set .invalidUTF8) ∧
    (looksUtf8 0 ((w ++ x).take (2 ^ 25 + 1)) = true → (w ++ x).length > 2 ^ 25 →
      ∃ set, SSet.Inv set (2 ^ 24) ∧ scanChunk st x = .skip set .tooLong) ∧
    (looksUtf8 0 ((w ++ x).take (2 ^ 25 + 1)) = true → (w ++ x).length ≤ 2 ^ 25 →
      ∃ st', scanChunk st x = .go st' ∧ ScanInv (w ++ x) st')
  | [], w, st, h => by
    have hs := h.short
    rw [List.append_nil, List.take_of_length_le (by omega), h.utf8]
    refine ⟨fun h => by simp at h, fun _ h => by omega, fun _ _ => ⟨st, rfl, h⟩⟩
  | c :: x, w, st, h => by
    have hs := h.short
    obtain ⟨h1, h2, h3⟩ := scanByte_spec h c
    have hlu : ∀ y : Bytes, looksUtf8 0 (w ++ [c] ++ y) = true → pairOk (lastByte w) c = true := by
      intro y hy
      have : ∀ (u v : Bytes) (a : UInt8), looksUtf8 a (u ++ v) = true → looksUtf8 a u = true := by
        intro u
        induction u with
        | nil => intros; rfl
        | cons b u ih =>
          intro v a hv
          rw [List.cons_append, looksUtf8, Bool.and_eq_true] at hv
          rw [looksUtf8, Bool.and_eq_true]
          exact ⟨hv.1, ih v b hv.2⟩
      have := this _ _ _ hy
      rw [looksUtf8_snoc, Bool.and_eq_true] at this
      exact this.2
    have hsplit : (w ++ c :: x).take (2 ^ 25 + 1) = w ++ [c] ++ x.take (2 ^ 25 - w.length) := by
      rw [List.take_append, List.take_of_length_le (by omega),
        show 2 ^ 25 + 1 - w.length = 2 ^ 25 - w.length + 1 from by omega, List.take_succ_cons]
      simp
    by_cases hp : pairOk (lastByte w) c = true
    · by_cases hl : w.length + 1 ≤ 2 ^ 25
      · obtain ⟨st', e, hst'⟩ := h3 hp hl
        have ih := scanChunk_spec x (w ++ [c]) hst'
        rw [List.append_assoc, List.singleton_append] at ih
        unfold scanChunk
        rw [e]
        exact ih
      · obtain ⟨set, i1, i2⟩ := h2 hp (by omega)
        unfold scanChunk
        rw [i2]
        simp only [List.length_append, List.length_cons]
        have hu : looksUtf8 0 ((w ++ c :: x).take (2 ^ 25 + 1)) = true := by
          rw [hsplit, show 2 ^ 25 - w.length = 0 from by omega, List.take_zero, List.append_nil,
            looksUtf8_snoc, h.utf8, Bool.true_and]
          exact hp
        rw [hu]
        exact ⟨fun h => by simp at h, fun _ _ => ⟨set, i1, rfl⟩, fun _ h => by omega⟩
    · rw [Bool.not_eq_true] at hp
      obtain ⟨set, i1, i2⟩ := h1 hp
      unfold scanChunk
      rw [i2]
      have hu : looksUtf8 0 ((w ++ c :: x).take (2 ^ 25 + 1)) = false := by
        rw [← Bool.not_eq_true]
        intro hu
        rw [hsplit] at hu
        rw [hlu _ hu] at hp
        simp at hp
      rw [hu]
      exact ⟨fun _ => ⟨set, i1, rfl⟩, fun h => by simp at h, fun h => by simp at h⟩

theorem scanChunk_append : ∀ (x y : Bytes) (st : Scan), scanChunk st (x ++ y) =
    match scanChunk st x with
    | .go st' => scanChunk st' y
    | r => r
  | [], y, st => rfl
  | c :: x, y, st => by
    rw [List.cons_append, scanChunk, scanChunk]
    cases scanByte st c with
    | go st' => exact scanChunk_append x y st'
    | panic => rfl
    | skip => rfl
    | unread => rfl

/-- However the reader cuts the text into (non-empty) pieces, the loop sees the whole text. -/
theorem scanReader_eq : ∀ (cs : List Bytes) (st : Scan), (∀ c ∈ cs, c ≠ []) →
    scanReader false st cs = scanChunk st cs.flatten
  | [], st, _ => rfl
  | c :: cs, st, h => by
    rw [List.flatten_cons, scanChunk_append, scanReader, if_neg (by
      rw [List.length_eq_zero_iff]; exact h c (by simp))]
    cases scanChunk st c with
    | go st' => exact scanReader_eq cs st' (fun x hx => h x (by simp [hx]))
    | panic => rfl
    | skip => rfl
    | unread => rfl

end Hound
