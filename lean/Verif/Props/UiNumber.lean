import Verif.Spec.Number
import Verif.Proofs.Client
import Verif.Proofs.JsonText

/-!
# C88: the numbers on the page are the numbers they stand for
-/

namespace Hound.Ui
open Spec

/-- C88 at full strength. -/
def NumberFull : Prop := ∀ n : Nat, WritesNumber (formatNumber n) n

theorem numberGroups_acc (fuel : Nat) : ∀ (s : JsStr) (b : List JsStr),
    numberGroups fuel s b = numberGroups fuel s [] ++ b := by
  induction fuel with
  | zero => intro s b; simp [numberGroups]
  | succ fuel ih =>
    intro s b
    simp only [numberGroups]
    split
    · rw [ih, ih _ [_]]; simp
    · simp

theorem joinUnits_snoc (x : JsStr) : ∀ {gs : List JsStr}, gs ≠ [] → joinUnits (gs ++ [x]) = joinUnits gs ++ 44 :: x
  | [], h => absurd rfl h
  | [a], _ => rfl
  | a :: b :: r, _ => by
    have := joinUnits_snoc x (gs := b :: r) (by simp)
    simp only [List.cons_append] at this ⊢
    simp [joinUnits, this]

theorem numberGroups_ne {fuel : Nat} {s : JsStr} (h : s.length ≤ fuel) (hs : s ≠ []) : numberGroups fuel s [] ≠ [] := by
  have := List.length_pos_iff.2 hs
  cases fuel with
  | zero => omega
  | succ fuel =>
    simp only [numberGroups]
    rw [if_pos this, numberGroups_acc]
    simp

theorem filter_plain {s : JsStr} (h : (44 : UInt16) ∉ s) : s.filter (fun c => decide (c ≠ 44)) = s := by
  rw [List.filter_eq_self]
  intro c hc
  simp only [ne_eq, decide_eq_true_eq]
  exact fun e => h (e ▸ hc)

/-- The digits of a text, in threes. -/
theorem groups_threes (fuel : Nat) : ∀ s : JsStr, s.length ≤ fuel → s ≠ [] → (44 : UInt16) ∉ s →
    InThrees (joinUnits (numberGroups fuel s [])) ∧
      (joinUnits (numberGroups fuel s [])).filter (fun c => decide (c ≠ 44)) = s := by
  induction fuel with
  | zero => intro s h hs; exact absurd (List.length_eq_zero_iff.1 (by omega)) hs
  | succ fuel ih =>
    intro s h hs hc
    have hpos := List.length_pos_iff.2 hs
    simp only [numberGroups]
    rw [if_pos hpos, numberGroups_acc]
    by_cases h3 : s.length ≤ 3
    · rw [show s.length - 3 = 0 by omega]
      have e : numberGroups fuel (s.take 0) [] = [] := by cases fuel <;> simp [numberGroups]
      rw [e]
      simp only [List.drop_zero, List.nil_append, joinUnits]
      refine ⟨⟨fun k c hk => ?_, fun hh => hc (List.mem_of_mem_head? hh)⟩, filter_plain hc⟩
      have hm : c ∈ s := by simpa using List.mem_of_getElem? hk
      have hk' : k < 3 := by
        have := (List.getElem?_eq_some_iff.1 hk).1
        simp at this
        omega
      constructor
      · rintro rfl; exact absurd hm hc
      · intro; omega
    · have hlen : (s.take (s.length - 3)).length = s.length - 3 := by simp
      have ht : s.take (s.length - 3) ≠ [] := fun e => by rw [e] at hlen; simp at hlen; omega
      have hfuel : (s.take (s.length - 3)).length ≤ fuel := by omega
      have hct : (44 : UInt16) ∉ s.take (s.length - 3) := fun hm => hc (List.mem_of_mem_take hm)
      have hcd : (44 : UInt16) ∉ s.drop (s.length - 3) := fun hm => hc (List.mem_of_mem_drop hm)
      have hd : (s.drop (s.length - 3)).length = 3 := by simp; omega
      have hsplit : s.take (s.length - 3) ++ s.drop (s.length - 3) = s := List.take_append_drop _ _
      generalize s.take (s.length - 3) = t at *
      generalize s.drop (s.length - 3) = d at *
      obtain ⟨⟨i1, i2⟩, i3⟩ := ih t hfuel ht hct
      rw [joinUnits_snoc _ (numberGroups_ne hfuel ht)]
      generalize joinUnits (numberGroups fuel t []) = J at *
      have hJ : J ≠ [] := fun e => by rw [e] at i3; exact ht i3.symm
      refine ⟨⟨fun k c hk => ?_, ?_⟩, ?_⟩
      · rw [List.reverse_append, List.reverse_cons, List.append_assoc] at hk
        rcases Nat.lt_or_ge k 3 with h' | h'
        · rw [List.getElem?_append_left (by simpa [hd] using h')] at hk
          have hm : c ∈ d := by simpa using List.mem_of_getElem? hk
          constructor
          · rintro rfl; exact absurd hm hcd
          · intro; omega
        · rw [List.getElem?_append_right (by simpa [hd] using h'), List.length_reverse, hd] at hk
          rcases Nat.lt_or_ge k 4 with h'' | h''
          · have : k = 3 := by omega
            subst this
            simp at hk
            simp [← hk]
          · rw [List.getElem?_append_right (by simp; omega)] at hk
            rw [i1 _ c hk]
            simp only [List.length_singleton]
            omega
      · cases J with
        | nil => exact absurd rfl hJ
        | cons a J => exact i2
      · rw [List.filter_append, i3, List.filter_cons_of_neg (by simp), filter_plain hcd, hsplit]

theorem natDigits_natural (n : Nat) : Rfc.Natural (Client.natDigits n) n := by
  refine ⟨Client.natDigits_numeral n, fun h => ?_⟩
  by_cases h0 : n = 0
  · subst h0; rfl
  · obtain ⟨d, l, e, hd⟩ := JsonText.natDigitsAux_head (n + 1) n (by omega) h0
    unfold Client.natDigits at h
    rw [e] at h
    simp at h
    exact absurd h hd

theorem toInt32_small {n : Nat} (h : n < 2147483648) : toInt32 n = n := by
  unfold toInt32
  have : (n : Int) % 4294967296 = n := by omega
  simp only [this]
  rw [if_pos (by omega)]

/-- **C88**, partial: numbers below 2³¹ are written as what they are. For larger ones it is false (`not_numberFull`). -/
theorem number_partial {n : Nat} (h : n < 2147483648) : WritesNumber (formatNumber n) n := by
  have hn := natDigits_natural n
  have e : numberText (toInt32 n) = js (Client.natDigits n) := by
    rw [toInt32_small h]
    unfold numberText Client.fmtD
    rw [if_neg (by omega)]
    rfl
  have hd : ∀ c ∈ Client.natDigits n, 48 ≤ c ∧ c ≤ 57 := by
    obtain ⟨⟨-, h2, -⟩, -⟩ := hn
    exact h2
  have hne : js (Client.natDigits n) ≠ [] := by
    obtain ⟨⟨h1, -⟩, -⟩ := hn
    simpa [js] using h1
  have hc : (44 : UInt16) ∉ js (Client.natDigits n) := by
    intro hm
    obtain ⟨c, hc, e⟩ := List.mem_map.1 hm
    have := (hd c hc).1
    rw [UInt8.le_iff_toNat_le] at this
    have e' := congrArg UInt16.toNat e
    simp only [UInt8.toNat_toUInt16] at e'
    rw [e'] at this
    exact absurd this (by decide)
  obtain ⟨g1, g2⟩ := groups_threes _ _ (Nat.le_refl _) hne hc
  unfold formatNumber
  rw [e]
  exact ⟨g1, _, hn, g2⟩

/-- One and a half million. -/
example : formatNumber 1500000 = js b!"1,500,000" := by decide

example : WritesNumber (js b!"1,500,000") 1500000 := number_partial (n := 1500000) (by decide)

theorem not_numberFull : ¬ NumberFull := by
  intro h
  obtain ⟨-, ds, ⟨⟨h1, h2, h3⟩, -⟩, he⟩ := h 4294967296
  have e : formatNumber ((4294967296 : Nat) : Int) = [48] := by decide
  rw [e] at he
  have hl := congrArg List.length he
  simp only [js, List.length_map] at hl
  match ds, hl, h2, h3 with
  | [c], _, h2, h3 =>
    have := (h2 c (by simp)).2
    rw [UInt8.le_iff_toNat_le] at this
    simp only [List.foldl_cons, List.foldl_nil] at h3
    have h57 : (57 : UInt8).toNat = 57 := rfl
    omega

end Hound.Ui
