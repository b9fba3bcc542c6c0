import Verif.Proofs.ParseKeep
import Verif.Proofs.HeapAnalyze

/-!
# The trees of patterns without alternatives
-/

namespace Hound.GoRe
open Hound.Spec Hound.Spec.Pat

variable {T : Tables} {uni : Bytes → Option (Rune → Prop)}

mutual
/-- The tree has no alternatives, its characters and classes are compiled correctly, and no class is in fact a character. -/
def Neat (T : Tables) : Syn → Prop
  | .literal rs f => ∀ x ∈ rs, x ≤ maxRune ∧ RuneOK T.orbit (.rune [x] f 0)
  | .charClass r => ROk r ∧ Apart 0 r ∧ (∀ p ∈ r, ClearRange p.1 p.2) ∧ asLiteral T (.charClass r) = .charClass r
  | .capture _ _ s => Neat T s
  | .star _ s => Neat T s
  | .plus _ s => Neat T s
  | .quest _ s => Neat T s
  | .rep _ s _ _ => Neat T s
  | .concat ss => NeatAll T ss
  | .alternate _ => False
  | _ => True
/-- The same for a list. -/
def NeatAll (T : Tables) : List Syn → Prop
  | [] => True
  | s :: ss => Neat T s ∧ NeatAll T ss
end

theorem neatAll_iff : ∀ {ss : List Syn}, NeatAll T ss ↔ ∀ s ∈ ss, Neat T s
  | [] => by simp [NeatAll]
  | s :: ss => by rw [NeatAll, neatAll_iff]; simp

theorem neat_keeper (T : Tables) : Keeper T (Neat T) where
  cat ss := by rw [Neat, neatAll_iff]
  empty := by simp [Neat]
  none := by simp [Neat]
  any := by simp [Neat]
  anyNL := by simp [Neat]
  lits a b f := by
    simp only [Neat, List.mem_append]
    exact ⟨fun h => ⟨fun x hx => h x (.inl hx), fun x hx => h x (.inr hx)⟩, fun h x hx => hx.elim (h.1 x) (h.2 x)⟩
  bound r f h := by
    simp only [Neat, List.mem_singleton, forall_eq] at h
    exact h.1
  ranges r h := by
    rw [Neat] at h
    exact h.1
  clean r h := by
    rw [cleanClass_same (by rw [Neat] at h; exact h.2.1)]
    exact h
  asLit r h := by
    have h' := h
    rw [Neat] at h'
    rw [h'.2.2.2]
    exact h
  bol := by simp [Neat]
  eol := by simp [Neat]
  eot b := by simp [Neat]
  wb := by simp [Neat]
  nwb := by simp [Neat]
  cap n name s h := by rwa [Neat]
  star ng s h := by rwa [Neat]
  plus ng s h := by rwa [Neat]
  quest ng s h := by rwa [Neat]
  rep ng s lo hi hb h := by rwa [Neat]

theorem clear_none {lo hi : Nat} (h : lo ≤ hi) (hx : ∀ x : Nat, lo ≤ x → x ≤ hi → x < 0xD800 ∨ 0xE000 ≤ x) : ClearRange lo hi := by
  unfold ClearRange
  by_cases h1 : hi < 0xD800
  · exact .inl h1
  · by_cases h2 : 0xE000 ≤ lo
    · exact .inr (.inl h2)
    · exfalso
      rcases Nat.le_total lo 0xD800 with h3 | h3
      · have := hx 0xD800 h3 (by omega)
        omega
      · have := hx lo (Nat.le_refl _) h
        omega

theorem apart_clear {r : Ranges} (h : Apart 0 r) (hc : (∀ x : Nat, InR r x → x < 0xD800 ∨ 0xE000 ≤ x) ∨ ∀ x : Nat, 0xD000 ≤ x → x ≤ 0xEFFF → InR r x) :
    ∀ p ∈ r, ClearRange p.1 p.2 := by
  intro p hp
  rcases hc with hc | hc
  · exact clear_none (apart_low h p hp).2 fun x h1 h2 => hc x ⟨p, hp, h1, h2⟩
  · obtain ⟨q, hq, q1, q2⟩ := apart_one (a := 0xD000) 0x1FFF h hc
    rcases apart_two h hp hq with rfl | h1 | h1
    · exact .inr (.inr ⟨q1, q2⟩)
    · exact .inl (Nat.lt_of_lt_of_le h1 (Nat.le_trans q1 (by decide)))
    · exact .inr (.inl (Nat.le_trans (Nat.le_trans (by decide) q2) (Nat.le_of_lt h1)))

theorem clear_valid {x : Nat} (h : x ≤ 0x10FFFF) (hc : ClearRange x x) : validRune x = true := by
  have e : validRune x = (decide (x < 0xD800) || (decide (0xE000 ≤ x) && decide (x ≤ 0x10FFFF))) := rfl
  rw [e]
  unfold ClearRange at hc
  simp only [Bool.or_eq_true, Bool.and_eq_true, decide_eq_true_eq]
  omega

theorem small_not_lower (hf : AsciiFolds T.orbit) {a : Nat} (h : ∀ x ∈ T.orbit a, a ≤ x) : ¬ (97 ≤ a ∧ a ≤ 122) := by
  rintro ⟨h1, h2⟩
  have e := hf.1 a (by omega)
  have : ∃ x ∈ T.orbit a, x < a := by
    rw [e]
    by_cases e1 : a = 107
    · subst e1; exact ⟨75, by simp, by decide⟩
    · by_cases e2 : a = 115
      · subst e2; exact ⟨83, by simp, by decide⟩
      · refine ⟨a - 32, ?_, by show a - 32 < a; omega⟩
        rw [if_neg (by omega), if_neg e1, if_neg (by omega), if_neg e2, if_neg (by omega), if_pos ⟨h1, h2⟩]
        simp
  obtain ⟨x, hx, hlt⟩ := this
  exact absurd (h x hx) (Nat.not_le.2 hlt)

theorem minFoldRune_small (orbit : Rune → List Rune) (r x : Rune) (hx : x = r ∨ x ∈ orbit r) : minFoldRune orbit r ≤ x := by
  have h1 : ∀ (l : List Nat) (a : Nat), l.foldl min a ≤ a := by
    intro l
    induction l with
    | nil => exact fun a => Nat.le_refl _
    | cons x l ih => exact fun a => Nat.le_trans (ih _) (Nat.min_le_left _ _)
  have h2 : ∀ (l : List Nat) (a x : Nat), x ∈ l → l.foldl min a ≤ x := by
    intro l
    induction l with
    | nil => exact fun a x hx => absurd hx (by simp)
    | cons y l ih =>
      intro a x hx
      rw [List.foldl_cons]
      rcases List.mem_cons.1 hx with rfl | hx
      · exact Nat.le_trans (h1 _ _) (Nat.min_le_right _ _)
      · exact ih _ _ hx
  rcases hx with rfl | hx
  · exact minFoldRune_le orbit _
  · exact h2 _ _ _ hx

theorem neat_class (hc : FoldCycles T.orbit) (hf : AsciiFolds T.orbit) {r : Ranges} (h1 : ROk r) (h2 : Apart 0 r) (h3 : ∀ p ∈ r, ClearRange p.1 p.2)
    (h4 : ∀ a c : Rune, 0x1044f < a → c ∈ T.orbit a → ¬ ∀ x, InR r x ↔ x = a ∨ x = c) : Neat T (asLiteral T (.charClass r)) := by
  have pair : ∀ a c : Nat, T.orbit a = [c] → a < c → (∀ x : Nat, InR r x ↔ x = a ∨ x = c) → a ≤ maxRune → c ≤ maxRune →
      a + 1 = c ∨ (ClearRange a a ∧ ClearRange c c) → Neat T (.literal [a] true) := by
    intro a c ho hlt hset ha hcm hcl
    have hv : validRune a = true ∧ validRune c = true := by
      rcases hcl with e | ⟨k1, k2⟩
      · subst e
        have hin := (hset a).2 (.inl rfl)
        have hin' := (hset (a + 1)).2 (.inr rfl)
        obtain ⟨p, hp, p1, p2⟩ := hin
        obtain ⟨q, hq, q1, q2⟩ := hin'
        have hx : ∀ x ∈ r, ∀ y : Nat, x.1 ≤ y → y ≤ x.2 → y = a ∨ y = a + 1 := fun x hx y y1 y2 => (hset y).1 ⟨x, hx, y1, y2⟩
        have hp1 := hx p hp p.1 (Nat.le_refl _) (apart_low h2 p hp).2
        have hp2 := hx p hp p.2 (apart_low h2 p hp).2 (Nat.le_refl _)
        have hq1 := hx q hq q.1 (Nat.le_refl _) (apart_low h2 q hq).2
        have hq2 := hx q hq q.2 (apart_low h2 q hq).2 (Nat.le_refl _)
        have c1 := h3 p hp
        have c2 := h3 q hq
        unfold ClearRange at c1 c2
        delta Rune at *
        constructor
        · exact clear_valid ha (by unfold ClearRange; omega)
        · exact clear_valid hcm (by unfold ClearRange; omega)
      · exact ⟨clear_valid ha k1, clear_valid hcm k2⟩
    simp only [Neat, List.mem_singleton, forall_eq]
    refine ⟨ha, hv.1, ?_, ?_, ?_⟩
    · intro y hy
      rw [ho, List.mem_singleton] at hy
      rw [hy]
      exact hv.2
    · refine small_not_lower hf fun x hx => ?_
      rw [ho, List.mem_singleton] at hx
      rw [hx]
      exact Nat.le_of_lt hlt
    · refine .inl (Nat.le_of_not_lt fun hgt => h4 a c hgt (by rw [ho]; simp) hset)
  have self : asLiteral T (.charClass r) = .charClass r → Neat T (asLiteral T (.charClass r)) := fun hs => by
    rw [hs, Neat]
    exact ⟨h1, h2, h3, hs⟩
  match r, h1, h2, h3, h4, pair, self with
  | [], _, _, _, _, _, self => exact self rfl
  | [(a, b)], h1, h2, h3, _, pair, self =>
    have hm := h1 (a, b) (by simp)
    have hcl := h3 (a, b) (by simp)
    have e : asLiteral T (.charClass [(a, b)]) = if a = b then .literal [a] false
      else if a + 1 = b ∧ simpleFold T.orbit a = b ∧ simpleFold T.orbit b = a then .literal [a] true else .charClass [(a, b)] := rfl
    by_cases hne : a = b
    · rw [e, if_pos hne]
      subst hne
      simp only [Neat, List.mem_singleton, forall_eq]
      exact ⟨hm.2, clear_valid hm.2 hcl⟩
    · by_cases k : a + 1 = b ∧ simpleFold T.orbit a = b ∧ simpleFold T.orbit b = a
      · rw [e, if_neg hne, if_pos k]
        refine pair a b (simpleFold_pair hc k.2.1 k.2.2 hne) (Nat.lt_of_le_of_ne hm.1 hne) (fun x => ?_) (Nat.le_trans hm.1 hm.2) hm.2 (.inl k.1)
        rw [InR_cons]
        simp only [InR_nil, or_false]
        exact two_iff k.1
      · exact self (by rw [e, if_neg hne, if_neg k])
  | [(a, b), (c, d)], h1, h2, h3, _, pair, self =>
    have e : asLiteral T (.charClass [(a, b), (c, d)]) =
      if a = b ∧ c = d ∧ simpleFold T.orbit a = c ∧ simpleFold T.orbit c = a then .literal [a] true else .charClass [(a, b), (c, d)] := rfl
    by_cases k : a = b ∧ c = d ∧ simpleFold T.orbit a = c ∧ simpleFold T.orbit c = a
    · rw [e, if_pos k]
      obtain ⟨rfl, rfl, k1, k2⟩ := k
      have hlt : a < c := Nat.lt_of_lt_of_le (Nat.lt_add_of_pos_right (by decide)) h2.2.2.1
      refine pair a c (simpleFold_pair hc k1 k2 (Nat.ne_of_lt hlt)) hlt (fun x => ?_) (h1 (a, a) (by simp)).2 (h1 (c, c) (by simp)).2
        (.inr ⟨h3 (a, a) (by simp), h3 (c, c) (by simp)⟩)
      rw [InR_cons, InR_cons]
      simp only [InR_nil, or_false]
      rw [one_iff, one_iff]
    · exact self (by rw [e, if_neg k])
  | _ :: _ :: _ :: _, _, _, _, _, _, self => exact self rfl

theorem leaves_neat (hc : FoldCycles T.orbit) (hf : AsciiFolds T.orbit) (hv : ValidFolds T.orbit) :
    Leaves T (Neat T) (PlainChar T.orbit) (PlainSet T.orbit) where
  char f r hr h := by
    simp only [Neat, List.mem_singleton, forall_eq]
    cases f with
    | false => exact ⟨hr, h.1⟩
    | true =>
      simp only [if_true]
      have hmem : minFoldRune T.orbit r = r ∨ minFoldRune T.orbit r ∈ T.orbit r := (minFoldRune_same hc r _).1 (.inl rfl)
      refine ⟨Nat.le_trans (minFoldRune_le _ _) hr, ?_, fun y hy => hv _ y hy, ?_, ?_⟩
      · rcases hmem with e | e
        · rw [e]; exact h.1
        · exact hv _ _ e
      · exact small_not_lower hf fun x hx => minFoldRune_small _ _ _ ((minFoldRune_same hc r x).1 (.inr hx))
      · rcases h.2 rfl with h | h
        · exact .inl (Nat.le_trans (minFoldRune_le _ _) h)
        · refine .inr ?_
          rcases hmem with e | e
          · rw [e]; exact h
          · rw [h] at e; exact absurd e (by simp)
  set f r S hr ha hS _ h := by
    refine neat_class hc hf hr ha (apart_clear ha (h.1.imp (fun k x hx => k x ((hS x (ROk_le hr hx)).1 hx))
      (fun k x x1 x2 => (hS x (Nat.le_trans x2 (by decide))).2 (k x x1 x2)))) fun a c hlt hc hx => h.2 a c hlt hc fun x => ?_
    rw [← hx x]
    exact ⟨fun k => (hS x k.1).2 k.2, fun k => ⟨ROk_le hr k, (hS x (ROk_le hr k)).1 k⟩⟩

mutual
theorem neat_runes : ∀ s, Neat T s → RunesOK T.orbit s
  | .literal rs f, h => by
    rw [Neat] at h
    rw [RunesOK]
    exact fun x hx => (h x hx).2
  | .charClass r, h => by
    rw [Neat] at h
    rw [RunesOK]
    refine ⟨fun p hp => ⟨(h.1 p hp).1, (h.1 p hp).2, h.2.2.1 p hp⟩, fun a c e k1 k2 => ?_⟩
    subst e
    have := h.2.2.2
    rw [asLiteral, if_pos ⟨rfl, rfl, k1.symm, k2.symm⟩] at this
    cases this
  | .capture _ _ s, h | .star _ s, h | .plus _ s, h | .quest _ s, h | .rep _ s _ _, h => by
    rw [Neat] at h
    rw [RunesOK]
    exact neat_runes s h
  | .concat ss, h => by
    rw [Neat] at h
    rw [RunesOK]
    exact neat_runesL ss h
  | .alternate ss, h => by
    rw [Neat] at h
    exact h.elim
  | .noMatch, _ | .emptyMatch, _ | .anyCharNotNL, _ | .anyChar, _ | .beginLine, _ | .endLine, _ | .beginText, _ | .endText _, _
  | .wordBoundary, _ | .noWordBoundary, _ => by simp [RunesOK]
theorem neat_runesL : ∀ ss, NeatAll T ss → RunesOKL T.orbit ss
  | [], _ => by simp [RunesOKL]
  | s :: ss, h => by
    rw [NeatAll] at h
    rw [RunesOKL]
    exact ⟨neat_runes s h.1, neat_runesL ss h.2⟩
end

mutual
theorem neat_noAlternate : ∀ s, Neat T s → NoAlternate s.re
  | .capture _ _ s, h | .star _ s, h | .plus _ s, h | .quest _ s, h | .rep _ s _ _, h => by
    rw [Neat] at h
    simp only [Syn.re, NoAlternate]
    exact neat_noAlternate s h
  | .concat ss, h => by
    rw [Neat] at h
    simp only [Syn.re, NoAlternate]
    exact neat_noAlternateL ss h
  | .alternate ss, h => by
    rw [Neat] at h
    exact h.elim
  | .literal _ _, _ | .charClass _, _ | .noMatch, _ | .emptyMatch, _ | .anyCharNotNL, _ | .anyChar, _ | .beginLine, _ | .endLine, _ | .beginText, _
  | .endText _, _ | .wordBoundary, _ | .noWordBoundary, _ => by simp [Syn.re, NoAlternate]
theorem neat_noAlternateL : ∀ ss, NeatAll T ss → NoAlternateL (Syn.res ss)
  | [], _ => by simp [Syn.res, NoAlternateL]
  | s :: ss, h => by
    rw [NeatAll] at h
    simp only [Syn.res, NoAlternateL]
    exact ⟨neat_noAlternate s h.1, neat_noAlternateL ss h.2⟩
end

/-- The tree of a pattern without alternatives, of characters and sets that are compiled correctly. -/
theorem parse_neat (hc : FoldCycles T.orbit) (hf : AsciiFolds T.orbit) (hv : ValidFolds T.orbit) (hd : Describes T uni) {p : Alts} (h : p.Ok uni [])
    (hk : p.copies ≤ 1000) (hn : ¬ p.Forks) (ha : p.All T.orbit uni (PlainChar T.orbit) (PlainSet T.orbit) ⟨false, false, false⟩) :
    ∃ s, parse T p.text = .ok s ∧ Neat T s ∧ ∀ w i j, SynAt T.orbit w s i j ↔ p.Means T.orbit uni w ⟨false, false, false⟩ i j :=
  parse_end hc (neat_keeper T) (fun h => absurd h hn)
    (alts_runs hc hd (neat_keeper T) (leaves_neat hc hf hv) p h (by simp) ha (fun _ => by simp [Neat]) (fun h => absurd h hn) hk)

end Hound.GoRe
