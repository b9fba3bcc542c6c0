import Verif.Model.GoInt
import Verif.Spec.GoInt
import Verif.Proofs.UrlQuery
/-! Lemmas for C106: integers. -/

namespace Hound
namespace GoInt

theorem digit_worth (c : UInt8) : digit c = if worth c < 36 then some (worth c) else none :=
  Url.forall_u8 (P := fun c => digit c = if worth c < 36 then some (worth c) else none) (by decide +kernel) c
theorem worth_under : worth 95 = 36 := by decide
theorem lower_b (c : UInt8) : lower c = 98 ↔ c = 98 ∨ c = 66 :=
  Url.forall_u8 (P := fun c => lower c = 98 ↔ c = 98 ∨ c = 66) (by decide +kernel) c
theorem lower_o (c : UInt8) : lower c = 111 ↔ c = 111 ∨ c = 79 :=
  Url.forall_u8 (P := fun c => lower c = 111 ↔ c = 111 ∨ c = 79) (by decide +kernel) c
theorem lower_x (c : UInt8) : lower c = 120 ↔ c = 120 ∨ c = 88 :=
  Url.forall_u8 (P := fun c => lower c = 120 ↔ c = 120 ∨ c = 88) (by decide +kernel) c
theorem dec_iff (c : UInt8) : (48 ≤ c ∧ c ≤ 57) ↔ worth c < 10 :=
  Url.forall_u8 (P := fun c => (48 ≤ c ∧ c ≤ 57) ↔ worth c < 10) (by decide +kernel) c
theorem hex_iff (c : UInt8) : ((48 ≤ c ∧ c ≤ 57) ∨ (97 ≤ lower c ∧ lower c ≤ 102)) ↔ worth c < 16 :=
  Url.forall_u8 (P := fun c => ((48 ≤ c ∧ c ≤ 57) ∨ (97 ≤ lower c ∧ lower c ≤ 102)) ↔ worth c < 16) (by decide +kernel) c

theorem digits_iff (base : Nat) (hb : base ≤ 36) (n : Nat) : ∀ (ds : Bytes) (acc : Nat), digits base acc ds = some n ↔
    (∀ c ∈ ds, c = 95 ∨ worth c < base) ∧ n = (ds.filter fun c => c ≠ 95).foldl (fun a c => a * base + worth c) acc := by
  intro ds
  induction ds with
  | nil => intro acc; simp [digits, eq_comm]
  | cons c r ih =>
    intro acc
    rw [digits]
    by_cases hc : c = 95
    · subst hc
      simp only [if_true, ih]
      simp
    · simp only [hc, if_false, digit_worth]
      by_cases hw : worth c < base
      · have h36 : worth c < 36 := by omega
        have : ¬ (worth c ≥ base) := by omega
        simp only [h36, if_true, this, if_false, ih]
        simp [hc, hw]
      · by_cases h36 : worth c < 36
        · have : worth c ≥ base := by omega
          simp only [h36, if_true, this]
          simp [hc, hw]
        · simp only [h36, if_false]
          simp [hc, hw]

/-- The loop over digits and underscores. -/
theorem underLoop_iff (hex : Bool) : ∀ (ds : Bytes), (∀ c ∈ ds, c = 95 ∨ worth c < if hex then 16 else 10) →
    (underLoop hex .digit ds = true ↔ (∀ a b, ds ≠ a ++ 95 :: 95 :: b) ∧ ds.getLast? ≠ some 95) ∧
    (underLoop hex .under ds = true ↔ ds ≠ [] ∧ ds.head? ≠ some 95 ∧ (∀ a b, ds ≠ a ++ 95 :: 95 :: b) ∧ ds.getLast? ≠ some 95) ∧
    (underLoop hex .start ds = true ↔ ds.head? ≠ some 95 ∧ (∀ a b, ds ≠ a ++ 95 :: 95 :: b) ∧ ds.getLast? ≠ some 95) := by
  intro ds
  induction ds with
  | nil => intro _; simp [underLoop]
  | cons c r ih =>
    intro hall
    obtain ⟨i1, i2, i3⟩ := ih fun c hc => hall c (List.mem_cons_of_mem _ hc)
    by_cases hc : c = 95
    · subst hc
      have hnd : ¬ ((48 ≤ (95 : UInt8) ∧ (95 : UInt8) ≤ 57) ∨ (hex ∧ 97 ≤ lower 95 ∧ lower 95 ≤ 102)) := by
        cases hex <;> decide
      refine ⟨?_, ?_, ?_⟩
      · rw [underLoop, if_neg hnd]
        simp only [if_true, ne_eq, not_true_eq_false, if_false]
        rw [i2]
        constructor
        · rintro ⟨h1, h2, h3, h4⟩
          refine ⟨fun a b h => ?_, ?_⟩
          · match a with
            | [] => simp only [List.nil_append, List.cons.injEq, true_and] at h; rw [h] at h2; simp at h2
            | _ :: a => simp only [List.cons_append, List.cons.injEq] at h; exact h3 a b h.2
          · match r, h1 with
            | x :: r, _ => simpa using h4
        · rintro ⟨h3, h4⟩
          match r with
          | [] => simp at h4
          | x :: r =>
            refine ⟨by simp, ?_, fun a b h => h3 (95 :: a) b (by rw [h]; rfl), by simpa using h4⟩
            intro hx
            simp only [List.head?_cons, Option.some.injEq] at hx
            subst hx
            exact h3 [] r rfl
      · rw [underLoop, if_neg hnd]; simp
      · rw [underLoop, if_neg hnd]; simp
    · have hw : worth c < if hex then 16 else 10 := (hall c List.mem_cons_self).resolve_left hc
      have hd : (48 ≤ c ∧ c ≤ 57) ∨ (hex ∧ 97 ≤ lower c ∧ lower c ≤ 102) := by
        cases hex with
        | false => exact .inl ((dec_iff c).2 (by simpa using hw))
        | true =>
          rcases (hex_iff c).2 (by simpa using hw) with h | h
          · exact .inl h
          · exact .inr ⟨rfl, h⟩
      have key : ((∀ a b, r ≠ a ++ 95 :: 95 :: b) ∧ r.getLast? ≠ some 95) ↔
          ((∀ a b, c :: r ≠ a ++ 95 :: 95 :: b) ∧ (c :: r).getLast? ≠ some 95) := by
        constructor
        · rintro ⟨h3, h4⟩
          refine ⟨fun a b h => ?_, ?_⟩
          · match a with
            | [] => simp only [List.nil_append, List.cons.injEq] at h; exact hc h.1
            | _ :: a => simp only [List.cons_append, List.cons.injEq] at h; exact h3 a b h.2
          · match r with
            | [] => simpa using hc
            | x :: r => simpa using h4
        · rintro ⟨h3, h4⟩
          refine ⟨fun a b h => h3 (c :: a) b (by rw [h]; rfl), ?_⟩
          match r with
          | [] => simp
          | x :: r => simpa using h4
      refine ⟨?_, ?_, ?_⟩
      · rw [underLoop, if_pos hd, i1, key]
      · rw [underLoop, if_pos hd, i1, key]; simp [hc]
      · rw [underLoop, if_pos hd, i1, key]; simp [hc]

/-- Where there are no underscores nothing is wrong with them. -/
theorem no_under {ds : Bytes} (h : (95 : UInt8) ∉ ds) : (∀ a b, ds ≠ a ++ 95 :: 95 :: b) ∧ ds.getLast? ≠ some 95 := by
  refine ⟨fun a b e => h (by rw [e]; simp), fun e => h (List.mem_of_getLast? e)⟩

theorem worth_small {c : UInt8} (h : c = 95 ∨ worth c < 10) : lower c ≠ 98 ∧ lower c ≠ 111 ∧ lower c ≠ 120 := by
  revert h
  exact Url.forall_u8 (P := fun c => c = 95 ∨ worth c < 10 → lower c ≠ 98 ∧ lower c ≠ 111 ∧ lower c ≠ 120) (by decide +kernel) c

/-- The underscores of a number in its prefix and digits. -/
theorem underscore_iff {pre ds : Bytes} {base : Nat} (hp : Prefix pre base) (h0 : pre = b!"0" ∨ ds ≠ [])
    (hz : pre = [] → ds.head? ≠ some 48) (hd : ∀ c ∈ ds, c = 95 ∨ worth c < base) :
    ((95 : UInt8) ∈ pre ++ ds → underscoreOK (pre ++ ds) = true) ↔
      (pre = [] → ds.head? ≠ some 95) ∧ (∀ a b, ds ≠ a ++ 95 :: 95 :: b) ∧ ds.getLast? ≠ some 95 := by
  have hpre : (95 : UInt8) ∉ pre := by
    rcases hp with ⟨rfl, _⟩ | ⟨rfl, _⟩ | ⟨rfl | rfl, _⟩ | ⟨rfl | rfl, _⟩ | ⟨rfl | rfl, _⟩ <;> decide
  by_cases hu : (95 : UInt8) ∈ ds
  · have hin : (95 : UInt8) ∈ pre ++ ds := List.mem_append_right _ hu
    simp only [hin, true_imp_iff]
    have small : base ≤ 10 → ∀ c ∈ ds, c = 95 ∨ worth c < if false then 16 else 10 := fun hb c hc => by
      rcases hd c hc with h | h
      · exact .inl h
      · exact .inr (by simp; omega)
    rcases hp with ⟨rfl, rfl⟩ | ⟨rfl, rfl⟩ | ⟨hp, rfl⟩ | ⟨hp, rfl⟩ | ⟨hp, rfl⟩
    · -- no prefix
      have e : underscoreOK ds = underLoop false .start ds := by
        match ds with
        | [] => rfl
        | [c] => rfl
        | z :: c :: r =>
          have : z ≠ 48 := by simpa using hz rfl
          simp [underscoreOK, this]
      rw [List.nil_append, e, (underLoop_iff false ds (small (by omega))).2.2]
      simp
    · have e : underscoreOK (b!"0" ++ ds) = underLoop false .digit ds := by
        match ds with
        | [] => rfl
        | c :: r =>
          have hw := worth_small (c := c) ((hd c List.mem_cons_self).imp_right (by omega))
          show underscoreOK (48 :: c :: r) = _
          rw [underscoreOK, if_neg (by simp [hw.1, hw.2.1, hw.2.2]), underLoop, if_pos (by decide)]
      rw [e, (underLoop_iff false ds (small (by omega))).1]
      simp
    · have e : underscoreOK (pre ++ ds) = underLoop false .digit ds := by
        rcases hp with rfl | rfl <;> rfl
      rw [e, (underLoop_iff false ds (small (by omega))).1]
      rcases hp with rfl | rfl <;> simp
    · have e : underscoreOK (pre ++ ds) = underLoop false .digit ds := by
        rcases hp with rfl | rfl <;> rfl
      rw [e, (underLoop_iff false ds (small (by omega))).1]
      rcases hp with rfl | rfl <;> simp
    · have e : underscoreOK (pre ++ ds) = underLoop true .digit ds := by
        rcases hp with rfl | rfl <;> rfl
      rw [e, (underLoop_iff true ds (by simpa using hd)).1]
      rcases hp with rfl | rfl <;> simp
  · have hin : (95 : UInt8) ∉ pre ++ ds := by simp [hu, hpre]
    have := no_under hu
    simp only [hin, false_imp_iff, true_iff]
    exact ⟨fun _ e => hu (List.mem_of_head? e), this⟩

/-- The base a number is read to is that of its prefix. -/
theorem baseOf_prefix {pre ds : Bytes} {base : Nat} (hp : Prefix pre base) (h0 : pre = b!"0" ∨ ds ≠ [])
    (hz : pre = [] → ds.head? ≠ some 48) (hd : ∀ c ∈ ds, c = 95 ∨ worth c < base) : baseOf (pre ++ ds) = (base, ds) := by
  rcases hp with ⟨rfl, rfl⟩ | ⟨rfl, rfl⟩ | ⟨hp, rfl⟩ | ⟨hp, rfl⟩ | ⟨hp, rfl⟩
  · match ds with
    | [] => rfl
    | z :: r =>
      have : z ≠ 48 := by simpa using hz rfl
      simp [baseOf, this]
  · match ds with
    | [] => rfl
    | [c] => rfl
    | c :: d :: t =>
      have hw := worth_small (c := c) ((hd c List.mem_cons_self).imp_right (by omega))
      show baseOf (48 :: c :: d :: t) = _
      simp [baseOf, hw.1, hw.2.1, hw.2.2]
  all_goals
    match ds, h0 with
    | [], h0 => rcases hp with rfl | rfl <;> simp at h0
    | d :: t, _ => rcases hp with rfl | rfl <;> rfl

/-- And there always is one. -/
theorem baseOf_back (s : Bytes) (hs : s ≠ []) : ∃ pre, s = pre ++ (baseOf s).2 ∧ Prefix pre (baseOf s).1 ∧
    (pre = b!"0" ∨ (baseOf s).2 ≠ []) ∧ (pre = [] → (baseOf s).2.head? ≠ some 48) := by
  match s, hs with
  | z :: r, _ =>
    by_cases hz : z = 48
    · subst hz
      match r with
      | [] => exact ⟨b!"0", rfl, .inr (.inl ⟨rfl, rfl⟩), .inl rfl, by simp⟩
      | [c] => exact ⟨b!"0", rfl, .inr (.inl ⟨rfl, rfl⟩), .inl rfl, by simp⟩
      | c :: d :: t =>
        by_cases hb : lower c = 98
        · have e : baseOf (48 :: c :: d :: t) = (2, d :: t) := by simp [baseOf, hb]
          rw [e]
          exact ⟨[48, c], rfl, .inr (.inr (.inl ⟨by rcases (lower_b c).1 hb with rfl | rfl <;> simp, rfl⟩)), by simp, by simp⟩
        · by_cases ho : lower c = 111
          · have e : baseOf (48 :: c :: d :: t) = (8, d :: t) := by simp [baseOf, ho]
            rw [e]
            exact ⟨[48, c], rfl, .inr (.inr (.inr (.inl ⟨by rcases (lower_o c).1 ho with rfl | rfl <;> simp, rfl⟩))), by simp, by simp⟩
          · by_cases hx : lower c = 120
            · have e : baseOf (48 :: c :: d :: t) = (16, d :: t) := by simp [baseOf, hx]
              rw [e]
              exact ⟨[48, c], rfl, .inr (.inr (.inr (.inr ⟨by rcases (lower_x c).1 hx with rfl | rfl <;> simp, rfl⟩))), by simp, by simp⟩
            · have e : baseOf (48 :: c :: d :: t) = (8, c :: d :: t) := by simp [baseOf, hb, ho, hx]
              rw [e]
              exact ⟨b!"0", rfl, .inr (.inl ⟨rfl, rfl⟩), .inl rfl, by simp⟩
    · have e : baseOf (z :: r) = (10, z :: r) := by simp [baseOf, hz]
      rw [e]
      exact ⟨[], rfl, .inl ⟨rfl, rfl⟩, by simp, by simpa using hz⟩

theorem prefix_small {pre : Bytes} {base : Nat} (h : Prefix pre base) : base ≤ 36 := by
  rcases h with ⟨_, rfl⟩ | ⟨_, rfl⟩ | ⟨_, rfl⟩ | ⟨_, rfl⟩ | ⟨_, rfl⟩ <;> omega

theorem parseUint_iff (s : Bytes) (n : Nat) : parseUint s = some n ↔ IsNat s n ∧ n < 2 ^ 64 := by
  unfold parseUint IsNat
  by_cases hs : s = []
  · subst hs
    simp only [if_true, reduceCtorEq, false_iff]
    rintro ⟨⟨pre, base, ds, h1, _, h2, _⟩, _⟩
    have := List.append_eq_nil_iff.1 h1.symm
    rcases h2 with h2 | h2
    · rw [this.1] at h2; cases h2
    · exact h2 this.2
  · rw [if_neg hs]
    obtain ⟨pre, h1, h2, h3, h4⟩ := baseOf_back s hs
    constructor
    · intro h
      split at h
      · cases h
      · rename_i m hm
        split at h
        · rename_i hc
          cases h
          obtain ⟨hall, hn⟩ := (digits_iff _ (prefix_small h2) _ _ _).1 hm
          have := (underscore_iff h2 h3 h4 hall).1 (by rw [← h1]; exact hc.2)
          exact ⟨⟨pre, _, _, h1, h2, h3, fun hp => ⟨h4 hp, this.1 hp⟩, hall, this.2.1, this.2.2, hn⟩, hc.1⟩
        · cases h
    · rintro ⟨⟨pre', base, ds, e, p1, p2, p3, p4, p5, p6, p7⟩, hlt⟩
      have hz : pre' = [] → ds.head? ≠ some 48 := fun h => (p3 h).1
      have hb := baseOf_prefix p1 p2 hz p4
      rw [e, hb, (digits_iff base (prefix_small p1) n ds 0).2 ⟨p4, p7⟩]
      simp only
      rw [if_pos ⟨hlt, (underscore_iff p1 p2 hz p4).2 ⟨fun h => (p3 h).2, p5, p6⟩⟩]

theorem nat_head {c : UInt8} {r : Bytes} {n : Nat} (h : IsNat (c :: r) n) : c ≠ 43 ∧ c ≠ 45 := by
  obtain ⟨pre, base, ds, e, p1, p2, p3, p4, _⟩ := h
  have w : worth 43 = 36 ∧ worth 45 = 36 := by decide
  rcases p1 with ⟨rfl, rfl⟩ | ⟨rfl, rfl⟩ | ⟨rfl | rfl, rfl⟩ | ⟨rfl | rfl, rfl⟩ | ⟨rfl | rfl, rfl⟩
  · rw [List.nil_append] at e
    have := p4 c (by rw [← e]; simp)
    constructor
    · rintro rfl; rw [w.1] at this; simp at this
    · rintro rfl; rw [w.2] at this; simp at this
  all_goals
    cases e
    decide

/-- `ParseInt` reads exactly the integers. -/
theorem parseInt_iff (s : Bytes) (i : Int) : parseInt s = some i ↔ IsInt s i := by
  match s with
  | [] =>
    simp only [parseInt, reduceCtorEq, false_iff]
    rintro ⟨d, n, hd, (⟨rfl, _⟩ | ⟨h, _⟩ | ⟨h, _⟩), _⟩
    · obtain ⟨pre, base, ds, h1, _, h2, _⟩ := hd
      have := List.append_eq_nil_iff.1 h1.symm
      rcases h2 with h2 | h2
      · rw [this.1] at h2; cases h2
      · exact h2 this.2
    · cases h
    · cases h
  | c :: r =>
    rw [parseInt]
    constructor
    · intro h
      split at h
      · cases h
      · rename_i n hn
        obtain ⟨h1, h2⟩ := (parseUint_iff _ _).1 hn
        split at h
        · rename_i hc
          subst hc
          split at h
          · cases h
          · cases h
            exact ⟨r, n, by simpa using h1, .inr (.inr ⟨rfl, rfl⟩), by omega, by omega⟩
        · rename_i hc
          split at h
          · cases h
          · cases h
            by_cases h43 : c = 43
            · subst h43
              exact ⟨r, n, by simpa using h1, .inr (.inl ⟨rfl, rfl⟩), by omega, by omega⟩
            · exact ⟨c :: r, n, by simpa [hc, h43] using h1, .inl ⟨rfl, rfl⟩, by omega, by omega⟩
    · rintro ⟨d, n, hd, (⟨rfl, rfl⟩ | ⟨h, rfl⟩ | ⟨h, rfl⟩), hlo, hhi⟩
      · obtain ⟨a, b⟩ := nat_head hd
        have := (parseUint_iff (c :: r) n).2 ⟨hd, by omega⟩
        simp only [a, b, or_self, if_false, this]
        rw [if_neg (by omega)]
      · cases h
        have := (parseUint_iff r n).2 ⟨hd, by omega⟩
        simp only [true_or, if_true, this]
        rw [if_neg (by decide), if_neg (by omega)]
      · cases h
        have := (parseUint_iff r n).2 ⟨hd, by omega⟩
        simp only [or_true, if_true, this]
        rw [if_neg (by omega)]

end GoInt
end Hound
