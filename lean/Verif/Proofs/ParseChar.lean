import Verif.Proofs.ParseStack
import Verif.Spec.Pattern
import Verif.Props.UiRepos
import Verif.Proofs.JsonText

/-!
# Characters as Go's parser reads them
-/

namespace Hound.GoRe
open Hound.Spec Hound.Spec.Pat

theorem u8_forall {P : UInt8 → Prop} [DecidablePred P] (h : ∀ n : Fin 256, P (UInt8.ofNat n.val)) (c : UInt8) : P c := by
  have := h ⟨c.toNat, c.toNat_lt⟩
  simpa using this

theorem nextRune_raw {r : Rune} (h : validRune r = true) (t : Bytes) : nextRune (encodeRaw r ++ t) = .ok (r, t) := by
  have hd := decode_encode h t
  rw [nextRune, hd]
  have : ¬ (r = runeError ∧ (encodeRaw r).length = 1) := by
    rintro ⟨rfl, h⟩
    exact absurd h (by decide)
  simp only [this, if_false, List.drop_left]

theorem nextRune_ascii {c : UInt8} (h : c < 128) (t : Bytes) : nextRune (c :: t) = .ok (c.toNat, t) := by
  have h' : c.toNat < 0x80 := h
  have hd : decodeRune (c :: t) = (c.toNat, 1) := by
    rw [decodeRune.eq_def]
    simp only [h', if_true]
  rw [nextRune, hd]
  simp only [List.drop_succ_cons, List.drop_zero]
  rw [if_neg]
  rintro ⟨e, -⟩
  rw [e] at h'
  exact absurd h' (by decide)

theorem unhex_digit {c : UInt8} (h : isHex c = true) : unhex c.toNat = some (digitVal c) ∧ c < 128 ∧ c ≠ 123 ∧ c ≠ 125 := by
  revert h
  refine u8_forall (P := fun c => isHex c = true → unhex c.toNat = some (digitVal c) ∧ c < 128 ∧ c ≠ 123 ∧ c ≠ 125) ?_ c
  decide +kernel

theorem toNat_ne {c d : UInt8} (h : c ≠ d) : ¬ c.toNat = d.toNat := fun e => h (UInt8.toNat_inj.1 e)

theorem numeral_snoc (base : Nat) (ds : Bytes) (c : UInt8) : numeral base (ds ++ [c]) = numeral base ds * base + digitVal c := by
  simp [numeral]

/-- The value after more digits. -/
def numeralFrom (base n : Nat) (ds : Bytes) : Nat := ds.foldl (fun n c => n * base + digitVal c) n

theorem numeralFrom_le {base : Nat} (hb : 0 < base) : ∀ (ds : Bytes) (n : Nat), n ≤ numeralFrom base n ds
  | [], _ => Nat.le_refl _
  | c :: ds, n => by
    have := numeralFrom_le hb ds (n * base + digitVal c)
    exact Nat.le_trans (Nat.le_trans (Nat.le_mul_of_pos_right n hb) (Nat.le_add_right _ _)) this

theorem bracedHex_read (next : Bytes) : ∀ (ds : Bytes) (fuel nhex : Nat) (r : Rune), (∀ c ∈ ds, isHex c = true) → ds.length < fuel →
    (ds ≠ [] ∨ nhex ≠ 0) → numeralFrom 16 r ds ≤ maxRune →
    bracedHex fuel (ds ++ 125 :: next) nhex r = .ok (numeralFrom 16 r ds, next)
  | [], fuel + 1, nhex, r, _, _, hn, _ => by
    rw [List.nil_append, bracedHex, nextRune_ascii (by decide)]
    have : nhex ≠ 0 := hn.resolve_left (fun h => h rfl)
    simp [this, numeralFrom]
  | c :: ds, fuel + 1, nhex, r, hd, hf, _, hm => by
    obtain ⟨h1, h2, h3, h4⟩ := unhex_digit (hd c (by simp))
    rw [List.cons_append, bracedHex, nextRune_ascii h2]
    have h5 : ¬ c.toNat = 125 := toNat_ne h4
    have h6 : ¬ r * 16 + digitVal c > maxRune := Nat.not_lt.2 (Nat.le_trans (numeralFrom_le (by decide) ds _) hm)
    simp only [reduceCtorEq, if_false, h5, h1, h6]
    exact bracedHex_read next ds fuel (nhex + 1) _ (fun c hc => hd c (List.mem_cons_of_mem _ hc)) (by simpa using hf) (.inr (by simp)) hm
  | _, 0, _, _, _, hf, _, _ => absurd hf (Nat.not_lt_zero _)

theorem octal_digit {c : UInt8} (h : isOctal c = true) : (48 ≤ c ∧ c ≤ 55) ∧ c.toNat - 48 = digitVal c ∧ c < 128 := by
  revert h
  refine u8_forall (P := fun c => isOctal c = true → (48 ≤ c ∧ c ≤ 55) ∧ c.toNat - 48 = digitVal c ∧ c < 128) ?_ c
  decide +kernel

theorem not_octal {c : UInt8} (h : isOctal c = false) : ¬ (48 ≤ c ∧ c ≤ 55) := by
  rintro ⟨h1, h2⟩
  simp [isOctal, h1, h2] at h

theorem moreOctal_read (next : Bytes) : ∀ (ds : Bytes) (n : Nat) (r : Rune), (∀ c ∈ ds, isOctal c = true) → ds.length ≤ n →
    (ds.length < n → ∀ c, next.head? = some c → isOctal c = false) → moreOctal n r (ds ++ next) = (numeralFrom 8 r ds, next)
  | [], 0, r, _, _, _ => by rw [moreOctal]; rfl
  | [], n + 1, r, _, _, h => by
    cases next with
    | nil => rfl
    | cons c t =>
      rw [List.nil_append, moreOctal, if_neg (not_octal (h (by simp) c rfl))]
      rfl
  | c :: ds, n + 1, r, hd, hl, h => by
    obtain ⟨h1, h2, -⟩ := octal_digit (hd c (by simp))
    rw [List.cons_append, moreOctal, if_pos h1, h2]
    exact moreOctal_read next ds n _ (fun c hc => hd c (List.mem_cons_of_mem _ hc)) (by simpa using hl) (fun hlt => h (by simpa using hlt))
  | _ :: _, 0, _, _, hl, _ => absurd hl (by simp)

theorem punct_facts {c : UInt8} (h : c < 128 ∧ Pat.isAlnum c = false) :
    ¬ (49 ≤ c.toNat ∧ c.toNat ≤ 55) ∧ c.toNat ≠ 48 ∧ c.toNat ≠ 120 ∧ c.toNat ≠ 97 ∧ c.toNat ≠ 102 ∧ c.toNat ≠ 110 ∧ c.toNat ≠ 114 ∧ c.toNat ≠ 116 ∧
      c.toNat ≠ 118 ∧ (c.toNat < 128 ∧ ¬ ((48 ≤ c.toNat ∧ c.toNat ≤ 57) ∨ (65 ≤ c.toNat ∧ c.toNat ≤ 90) ∨ (97 ≤ c.toNat ∧ c.toNat ≤ 122))) := by
  revert h
  refine u8_forall (P := fun c => (c < 128 ∧ Pat.isAlnum c = false) →
    ¬ (49 ≤ c.toNat ∧ c.toNat ≤ 55) ∧ c.toNat ≠ 48 ∧ c.toNat ≠ 120 ∧ c.toNat ≠ 97 ∧ c.toNat ≠ 102 ∧ c.toNat ≠ 110 ∧ c.toNat ≠ 114 ∧ c.toNat ≠ 116 ∧
      c.toNat ≠ 118 ∧ (c.toNat < 128 ∧ ¬ ((48 ≤ c.toNat ∧ c.toNat ≤ 57) ∨ (65 ≤ c.toNat ∧ c.toNat ≤ 90) ∨ (97 ≤ c.toNat ∧ c.toNat ≤ 122)))) ?_ c
  decide +kernel

theorem controls_cases {c : UInt8} (h : (controls.lookup c).isSome) : c = 97 ∨ c = 102 ∨ c = 110 ∨ c = 114 ∨ c = 116 ∨ c = 118 := by
  revert h
  refine u8_forall (P := fun c => (controls.lookup c).isSome → c = 97 ∨ c = 102 ∨ c = 110 ∨ c = 114 ∨ c = 116 ∨ c = 118) ?_ c
  decide +kernel

/-- The characters that are written with a backslash. -/
def Escaped : Written → Prop
  | .plain _ => False
  | _ => True

theorem parseEscape_read {c : Written} {next : Bytes} (he : Escaped c) (h : c.Ok next) :
    ∃ t, c.text = 92 :: t ∧ parseEscape (t ++ next) = .ok (c.rune, next) := by
  cases c with
  | plain r => exact absurd he id
  | punct c =>
    refine ⟨[c], rfl, ?_⟩
    obtain ⟨f1, f2, f3, f4, f5, f6, f7, f8, f9, f10⟩ := punct_facts h
    rw [List.singleton_append, parseEscape, nextRune_ascii h.1]
    simp only [reduceCtorEq, if_false, f1, f2, f3, f4, f5, f6, f7, f8, f9]
    rw [if_pos f10]
    rfl
  | control c =>
    refine ⟨[c], rfl, ?_⟩
    rcases controls_cases h with rfl | rfl | rfl | rfl | rfl | rfl <;>
    · rw [List.singleton_append, parseEscape, nextRune_ascii (by decide)]
      rfl
  | octal ds =>
    obtain ⟨h1, h2, h3, h4, h5⟩ := h
    refine ⟨ds, rfl, ?_⟩
    cases ds with
    | nil => exact absurd rfl h1
    | cons d ds =>
      obtain ⟨o1, o2, o3⟩ := octal_digit (h2 d (by simp))
      have hr := moreOctal_read next ds 2 (digitVal d) (fun c hc => h2 c (List.mem_cons_of_mem _ hc)) (by simpa using h3)
        (fun hl => h5 (by rw [List.length_cons]; omega))
      have hval : numeralFrom 8 (digitVal d) ds = numeral 8 (d :: ds) := by simp [numeralFrom, numeral]
      rw [List.cons_append, parseEscape, nextRune_ascii o3]
      simp only [reduceCtorEq, if_false]
      by_cases hz : d = 48
      · subst hz
        have e1 : ¬ (49 ≤ (48 : UInt8).toNat ∧ (48 : UInt8).toNat ≤ 55) := by decide
        have e2 : (48 : UInt8).toNat = 48 := rfl
        rw [if_neg e1, if_pos e2]
        have e3 : digitVal 48 = 0 := rfl
        rw [e3] at hr
        rw [hr]
        rw [e3] at hval
        rw [hval]
        rfl
      · have e1 : 49 ≤ d.toNat ∧ d.toNat ≤ 55 := by
          refine ⟨?_, o1.2⟩
          have := o1.1
          rw [UInt8.le_iff_toNat_le] at this
          exact Nat.lt_of_le_of_ne this (fun e => hz (UInt8.toNat_inj.1 e.symm))
        rw [if_pos e1]
        have hl := h4 (by simpa using hz)
        cases ds with
        | nil => exact absurd hl (by simp)
        | cons d2 ds =>
          obtain ⟨p1, -⟩ := octal_digit (h2 d2 (by simp))
          simp only [List.cons_append] at hr ⊢
          rw [if_pos p1, o2, hr, hval]
          rfl
  | hex a b =>
    obtain ⟨a1, a2, a3, a4⟩ := unhex_digit h.1
    obtain ⟨b1, b2, b3, b4⟩ := unhex_digit h.2
    refine ⟨[120, a, b], rfl, ?_⟩
    rw [List.cons_append, parseEscape, nextRune_ascii (by decide)]
    have e1 : ¬ (49 ≤ (120 : UInt8).toNat ∧ (120 : UInt8).toNat ≤ 55) := by decide
    have e2 : ¬ (120 : UInt8).toNat = 48 := by decide
    have e3 : (120 : UInt8).toNat = 120 := rfl
    have e4 : ¬ a.toNat = 123 := toNat_ne a3
    simp only [reduceCtorEq, if_false, e1, e2]
    rw [if_pos e3]
    simp only [List.cons_append, List.nil_append]
    rw [if_neg (by simp), nextRune_ascii a2]
    simp only
    rw [if_neg e4, nextRune_ascii b2]
    simp only [a1, b1]
    simp [Written.rune, numeral]
  | longHex ds =>
    obtain ⟨h1, h2, h3⟩ := h
    refine ⟨120 :: 123 :: (ds ++ [125]), rfl, ?_⟩
    simp only [List.cons_append, List.append_assoc, List.nil_append]
    rw [parseEscape, nextRune_ascii (by decide)]
    have e1 : ¬ (49 ≤ (120 : UInt8).toNat ∧ (120 : UInt8).toNat ≤ 55) := by decide
    have e2 : ¬ (120 : UInt8).toNat = 48 := by decide
    have e3 : (120 : UInt8).toNat = 120 := rfl
    have e4 : (123 : UInt8).toNat = 123 := rfl
    simp only [reduceCtorEq, if_false, e1, e2]
    rw [if_pos e3, nextRune_ascii (by decide)]
    simp only
    rw [if_pos e4]
    exact bracedHex_read next ds _ 0 0 h2 (by simp; omega) (.inl h1) h3

theorem octal_ne_nil {ds : Bytes} (h : ds ≠ []) : ∃ d t, ds = d :: t := by
  cases ds with
  | nil => exact absurd rfl h
  | cons d t => exact ⟨d, t, rfl⟩

theorem raw_head_ne {r : Rune} (h : validRune r = true) {c : UInt8} (hc : c < 128) (hne : r ≠ c.toNat) : (encodeRaw r).head? ≠ some c := by
  intro e
  cases hr : encodeRaw r with
  | nil => rw [hr] at e; simp at e
  | cons b t =>
    rw [hr] at e
    simp only [List.head?_cons, Option.some.injEq] at e
    subst e
    by_cases h1 : r < 0x80
    · rw [JsonText.encodeRaw_lt h1] at hr
      simp only [List.cons.injEq] at hr
      apply hne
      rw [← hr.1]
      simp [UInt8.toNat_ofNat']
      have : r < 256 := Nat.lt_trans h1 (by decide)
      exact (Nat.mod_eq_of_lt this).symm
    · have := Ui.raw_ascii_head (Nat.not_lt.1 h1) (Ui.valid_le h) hr
      exact absurd hc (by rw [UInt8.lt_iff_toNat_lt]; exact Nat.not_lt.2 this)

theorem raw_head {r : Rune} (h : validRune r = true) : ∃ b t, encodeRaw r = b :: t ∧ (b < 128 → b.toNat = r) := by
  cases hr : encodeRaw r with
  | nil => exact absurd hr (encodeRaw_ne_nil r)
  | cons b t =>
    refine ⟨b, t, rfl, fun hb => ?_⟩
    apply Classical.byContradiction
    intro hne
    exact raw_head_ne h hb (fun e => hne e.symm) (by rw [hr]; rfl)

theorem parseClassChar_read {c : Written} {next : Bytes} (h : c.Ok next) (hb : ∀ r, c = .plain r → r ≠ 92) :
    parseClassChar (c.text ++ next) = .ok (c.rune, next) := by
  by_cases he : Escaped c
  · obtain ⟨t, h1, h2⟩ := parseEscape_read he h
    rw [h1, List.cons_append, parseClassChar, h2]
  · cases c with
    | plain r =>
      obtain ⟨b, t, e, hbr⟩ := raw_head h
      have hne : b ≠ 92 := by
        rintro rfl
        exact hb r rfl (hbr (by decide)).symm
      have : parseClassChar (encodeRaw r ++ next) = nextRune (encodeRaw r ++ next) := by
        rw [e, List.cons_append]
        unfold parseClassChar
        split
        · rename_i e; simp at e
        · rename_i e; simp only [List.cons.injEq] at e; exact absurd e.1 hne
        · rfl
      rw [Written.text, this, nextRune_raw h]
      rfl
    | punct c => exact absurd trivial he
    | control c => exact absurd trivial he
    | octal c => exact absurd trivial he
    | hex a b => exact absurd trivial he
    | longHex c => exact absurd trivial he

theorem octal_lt : ∀ (ds : Bytes) (n : Nat), (∀ c ∈ ds, isOctal c = true) → numeralFrom 8 n ds < (n + 1) * 8 ^ ds.length
  | [], n, _ => by simp [numeralFrom]
  | c :: ds, n, h => by
    have ih := octal_lt ds (n * 8 + digitVal c) (fun c hc => h c (List.mem_cons_of_mem _ hc))
    have hd : digitVal c < 8 := by
      have := h c (by simp)
      revert this
      refine u8_forall (P := fun c => isOctal c = true → digitVal c < 8) ?_ c
      decide +kernel
    have e : numeralFrom 8 n (c :: ds) = numeralFrom 8 (n * 8 + digitVal c) ds := rfl
    rw [e]
    refine Nat.lt_of_lt_of_le ih ?_
    rw [List.length_cons, Nat.pow_succ, Nat.mul_comm (8 ^ ds.length) 8, ← Nat.mul_assoc]
    exact Nat.mul_le_mul_right _ (by omega)

theorem written_le {c : Written} {next : Bytes} (h : c.Ok next) : c.rune ≤ maxRune := by
  cases c with
  | plain r => exact Ui.valid_le h
  | punct c => exact Nat.le_trans (Nat.le_of_lt c.toNat_lt) (by decide)
  | control c => rcases controls_cases h with rfl | rfl | rfl | rfl | rfl | rfl <;> decide
  | octal ds =>
    have := octal_lt ds 0 h.2.1
    have h3 : 8 ^ ds.length ≤ 8 ^ 3 := Nat.pow_le_pow_right (by decide) h.2.2.1
    have e : numeralFrom 8 0 ds = numeral 8 ds := rfl
    rw [e] at this
    exact Nat.le_trans (Nat.le_of_lt (Nat.lt_of_lt_of_le this (by simpa using h3))) (by decide)
  | hex a b =>
    have hd : ∀ c, isHex c = true → digitVal c < 16 := by
      intro c
      refine u8_forall (P := fun c => isHex c = true → digitVal c < 16) ?_ c
      decide +kernel
    have h1 := hd a h.1
    have h2 := hd b h.2
    have e : Written.rune (.hex a b) = digitVal a * 16 + digitVal b := by simp [Written.rune, numeral]
    rw [e]
    exact Nat.le_trans (show digitVal a * 16 + digitVal b ≤ 255 by omega) (by decide)
  | longHex ds => exact h.2.2

end Hound.GoRe
