import Verif.Model.Matcher
import Verif.Proofs.Coding

/-! Proofs about `nstate.enc` and `nstate.dec`. -/

namespace Hound

theorem mem_insertNat {x a : Nat} {l : List Nat} : a ∈ insertNat x l ↔ a = x ∨ a ∈ l := by
  induction l with
  | nil => simp [insertNat]
  | cons y ys ih =>
    simp only [insertNat]
    split
    · simp
    · simp only [List.mem_cons, ih]; grind

theorem mem_sortInts {a : Nat} {l : List Nat} : a ∈ sortInts l ↔ a ∈ l := by
  induction l with
  | nil => simp [sortInts]
  | cons y ys ih => simp [sortInts, mem_insertNat, ih]

theorem pairwise_insertNat {x : Nat} {l : List Nat} (h : l.Pairwise (· < ·)) (hx : x ∉ l) :
    (insertNat x l).Pairwise (· < ·) := by
  induction l with
  | nil => simp [insertNat]
  | cons y ys ih =>
    simp only [insertNat]
    have h' := List.pairwise_cons.mp h
    split
    · rename_i hle
      refine List.pairwise_cons.mpr ⟨?_, h⟩
      intro a ha
      rcases List.mem_cons.mp ha with rfl | ha
      · have : x ≠ a := fun e => hx (e ▸ List.mem_cons_self)
        omega
      · have := h'.1 a ha; omega
    · rename_i hle
      refine List.pairwise_cons.mpr ⟨?_, ih h'.2 (fun h => hx (List.mem_cons_of_mem _ h))⟩
      intro a ha
      rcases mem_insertNat.mp ha with rfl | ha
      · omega
      · exact h'.1 a ha

theorem sorted_sortInts {l : List Nat} (h : l.Nodup) : (sortInts l).Pairwise (· < ·) := by
  induction l with
  | nil => simp [sortInts]
  | cons y ys ih =>
    have h' := List.nodup_cons.mp h
    exact pairwise_insertNat (ih h'.2) (fun hm => h'.1 (mem_sortInts.mp hm))

/-- Strictly sorted lists are determined by their elements. -/
theorem sorted_ext {l k : List Nat} (hl : l.Pairwise (· < ·)) (hk : k.Pairwise (· < ·))
    (h : ∀ a, a ∈ l ↔ a ∈ k) : l = k := by
  have hp : l.Perm k := (List.perm_ext_iff_of_nodup (hl.imp (fun h => by omega)) (hk.imp (fun h => by omega))).mpr h
  exact hp.eq_of_pairwise (fun a b _ _ h1 h2 => by omega) hl hk

theorem uvarintLoop_binPut : ∀ (f i x y : Nat) (rest : Bytes), y < 2 ^ (7 * f) → f ≠ 0 → x < 2 ^ (7 * i) →
    i < 9 → x + y * 2 ^ (7 * i) < 2 ^ 63 →
    uvarintLoop i x (binPutUvarint f y ++ rest) =
      some (x + y * 2 ^ (7 * i), i + (binPutUvarint f y).length) := by
  intro f
  induction f with
  | zero => intro i x y rest hy hf; exact absurd rfl hf
  | succ f ih =>
    intro i x y rest hy _ hx hi hb
    simp only [binPutUvarint]
    split
    · rename_i hlt
      have hby : (byteOf y).toNat = y := by rw [toNat_byteOf]; omega
      rw [List.cons_append, uvarintLoop_last hi hx (by omega), hby, Nat.mod_eq_of_lt (by omega)]
      rfl
    · rename_i hge
      rw [List.cons_append, uvarintLoop_more hi hx (by rw [or128]; omega), or128, Nat.shiftRight_eq_div_pow]
      have hP : 2 ^ (7 * (i + 1)) = 2 ^ (7 * i) * 128 := by
        rw [show 7 * (i + 1) = 7 * i + 7 by omega, Nat.pow_add]
      generalize hQ : 2 ^ (7 * i) = P at *
      have hsplit : y * P = (y / 128) * (P * 128) + (y % 128) * P := by
        have := Nat.div_add_mod y 128
        calc y * P = (128 * (y / 128) + y % 128) * P := by rw [this]
          _ = _ := by grind
      have hmod : (y % 128 + 128) % 128 = y % 128 := by omega
      have hlow : x + (y % 128) * P < P * 128 := by
        have : (y % 128) * P ≤ 127 * P := Nat.mul_le_mul_right _ (by omega)
        omega
      have hf0 : f ≠ 0 := by
        rintro rfl
        simp at hy
        omega
      have hi9 : i + 1 < 9 := by
        rcases Nat.lt_or_ge (i + 1) 9 with h | h
        · exact h
        · exfalso
          have h9 : P * 128 = 2 ^ 63 := by rw [← hP, show i + 1 = 9 by omega]
          have : 1 * (P * 128) ≤ (y / 128) * (P * 128) := Nat.mul_le_mul_right _ (by omega)
          omega
      have h64 : (x + (y % 128 + 128) % 128 * P) % 2 ^ 64 = x + (y % 128) * P := by
        rw [hmod, Nat.mod_eq_of_lt]
        have : 0 ≤ (y / 128) * (P * 128) := Nat.zero_le _
        omega
      rw [h64, show (2:Nat)^7 = 128 by rfl]
      rw [ih (i + 1) _ (y / 128) rest (by
          rw [show 7 * (f + 1) = 7 * f + 7 by omega, Nat.pow_add] at hy
          exact Nat.div_lt_of_lt_mul (by rw [Nat.mul_comm]; exact hy)) hf0
        (by rw [hP]; exact hlow) hi9 (by rw [hP]; omega)]
      rw [hP]
      simp only [List.length_cons, Option.some.injEq, Prod.mk.injEq]
      constructor <;> omega

theorem uvarint_putVar {x : Nat} (h : x < 2 ^ 32) (rest : Bytes) :
    uvarint (putVar x ++ rest) = some (x, (putVar x).length) := by
  unfold uvarint putVar
  rw [uvarintLoop_binPut 10 0 0 x rest (by omega) (by omega) (by simp) (by omega) (by omega)]
  simp

theorem putVar_ne_nil (x : Nat) : putVar x ≠ [] := by
  unfold putVar binPutUvarint
  split <;> simp

theorem putVar_length_pos (x : Nat) : 0 < (putVar x).length :=
  List.length_pos_iff.mpr (putVar_ne_nil x)

theorem decIds_encIds : ∀ (ids : List Nat) (fuel last : Nat), (encIds last ids).length ≤ fuel →
    (∀ a ∈ ids, a < 2 ^ 32) → last < 2 ^ 32 → decIds fuel last (encIds last ids) = some ids := by
  intro ids
  induction ids with
  | nil => intro fuel last _ _ _; cases fuel <;> rfl
  | cons id ids ih =>
    intro fuel last hf hb hl
    have hid := hb id List.mem_cons_self
    simp only [encIds] at hf ⊢
    rw [Nat.mod_eq_of_lt hid] at hf ⊢
    have hpos := putVar_length_pos ((id + 2 ^ 32 - last) % 2 ^ 32)
    cases hp : putVar ((id + 2 ^ 32 - last) % 2 ^ 32) with
    | nil => exact absurd hp (putVar_ne_nil _)
    | cons b bs =>
      cases fuel with
      | zero => rw [List.length_append] at hf; omega
      | succ fuel =>
        have hu := uvarint_putVar (x := (id + 2 ^ 32 - last) % 2 ^ 32) (Nat.mod_lt _ (by omega)) (encIds id ids)
        rw [List.cons_append, decIds, ← List.cons_append, ← hp, hu]
        have hlast : (last + (id + 2 ^ 32 - last) % 2 ^ 32 % 2 ^ 32) % 2 ^ 32 = id := by omega
        simp only [hlast, List.drop_left]
        rw [ih fuel id (by rw [List.length_append] at hf; omega)
          (fun a ha => hb a (List.mem_cons_of_mem _ ha)) hid]
        exact List.cons_ne_nil _ _

/-- `dec` undoes `enc`, up to the order of the instruction set. -/
theorem dec_enc {z : NState} (hp : z.part < 2 ^ 32) (hf : z.flag < 2 ^ 32) (hq : ∀ a ∈ z.q, a < 2 ^ 32) :
    NState.dec z.enc = some { z with q := sortInts z.q } := by
  unfold NState.dec NState.enc
  rw [List.append_assoc, uvarint_putVar hp]
  simp only [List.drop_left]
  rw [uvarint_putVar hf]
  simp only [List.drop_left]
  rw [decIds_encIds _ _ _ (Nat.le_refl _) (fun a ha => hq a (mem_sortInts.mp ha)) (by omega)]
  simp only [Nat.mod_eq_of_lt hf]

end Hound
