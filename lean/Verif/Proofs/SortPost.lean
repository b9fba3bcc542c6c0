import Verif.Model.SortPost
import Verif.Proofs.Coding

namespace Hound

/-- The list in order of key, each key class in its original order. -/
def byKey (key : Nat → Nat) (m : Nat) (l : List Nat) : List Nat :=
  (List.range m).flatMap fun r => l.filter (fun p => key p == r)

/-- Number of entries with a key below `r`. -/
def before (key : Nat → Nat) (l : List Nat) : Nat → Nat
  | 0 => 0
  | r + 1 => before key l r + (l.filter (fun p => key p == r)).length

theorem countKeys_eq {key : Nat → Nat} : ∀ (l : List Nat) (n : Nat → Nat) (r : Nat),
    countKeys key n l r = n r + (l.filter (fun p => key p == r)).length
  | [], n, r => by simp [countKeys]
  | p :: ps, n, r => by
    rw [countKeys, countKeys_eq ps, List.filter_cons]
    unfold updN
    by_cases h : r = key p
    · subst h; simp; omega
    · rw [if_neg h, if_neg (by simpa using fun e => h e.symm)]

theorem totals_eq : ∀ (m s : Nat) (n : Nat → Nat) (tot r : Nat),
    totals n tot (List.range' s m) r =
      if s ≤ r ∧ r < s + m then tot + ((List.range' s (r - s)).map n).sum else n r
  | 0, s, n, tot, r => by simp [totals]; omega
  | m + 1, s, n, tot, r => by
    rw [List.range'_succ, totals, totals_eq m]
    by_cases h1 : s = r
    · subst h1
      rw [if_neg (by omega), if_pos (by omega)]
      simp [updN]
    · by_cases h2 : s + 1 ≤ r ∧ r < s + 1 + m
      · rw [if_pos h2, if_pos (by omega)]
        have : r - s = (r - (s + 1)) + 1 := by omega
        rw [this, List.range'_succ, List.map_cons, List.sum_cons]
        have hc : (List.range' (s + 1) (r - (s + 1))).map (updN n s tot) =
            (List.range' (s + 1) (r - (s + 1))).map n := by
          apply List.map_congr_left
          intro i hi
          rw [List.mem_range'_1] at hi
          unfold updN; rw [if_neg (by omega)]
        rw [hc]; omega
      · rw [if_neg h2, if_neg (by omega)]
        unfold updN; rw [if_neg (fun e => h1 e.symm)]

theorem sum_eq_before {key : Nat → Nat} {l : List Nat} : ∀ r : Nat,
    ((List.range r).map (fun i => (l.filter (fun p => key p == i)).length)).sum = before key l r
  | 0 => rfl
  | r + 1 => by
    rw [List.range_succ, List.map_append, List.sum_append, sum_eq_before r]
    simp [before]

theorem totals_before {key : Nat → Nat} {l : List Nat} {m r : Nat} (h : r < m) :
    totals (countKeys key (fun _ => 0) l) 0 (List.range m) r = before key l r := by
  rw [List.range_eq_range', totals_eq, if_pos ⟨by omega, by omega⟩, ← sum_eq_before,
    List.range_eq_range']
  simp only [Nat.sub_zero, Nat.zero_add]
  congr 1
  apply List.map_congr_left
  intro i _
  rw [countKeys_eq]; simp

theorem length_byKey {key : Nat → Nat} {l : List Nat} : ∀ m, (byKey key m l).length = before key l m
  | 0 => rfl
  | m + 1 => by
    have := length_byKey (key := key) (l := l) m
    unfold byKey at this ⊢
    rw [List.range_succ, List.flatMap_append, List.length_append, this]
    simp [before]

theorem byKey_succ {key : Nat → Nat} {l : List Nat} {m : Nat} :
    byKey key (m + 1) l = byKey key m l ++ l.filter (fun p => key p == m) := by
  simp [byKey, List.range_succ, List.flatMap_append]

theorem byKey_perm {key : Nat → Nat} {l : List Nat} : ∀ m,
    (byKey key m l).Perm (l.filter (fun p => key p < m))
  | 0 => by simp [byKey]
  | m + 1 => by
    rw [byKey_succ]
    have h1 := List.filter_append_perm (fun p => decide (key p < m)) (l.filter (fun p => key p < m + 1))
    rw [List.filter_filter, List.filter_filter] at h1
    have e1 : l.filter (fun a => decide (key a < m) && decide (key a < m + 1)) =
        l.filter (fun p => key p < m) := by
      apply List.filter_congr; intro a _
      by_cases h : key a < m
      · simp [h]; omega
      · simp [h]
    have e2 : l.filter (fun a => (!decide (key a < m)) && decide (key a < m + 1)) =
        l.filter (fun p => key p == m) := by
      apply List.filter_congr; intro a _
      by_cases h : key a = m
      · simp [h]
      · have : ¬ (¬ key a < m ∧ key a < m + 1) := by omega
        simp only [beq_eq_false_iff_ne.2 h]
        simpa using this
    rw [e1, e2] at h1
    exact ((byKey_perm m).append_right _).trans h1

theorem byKey_getElem? {key : Nat → Nat} {l : List Nat} : ∀ {m r k : Nat}, r < m →
    k < (l.filter (fun p => key p == r)).length →
    (byKey key m l)[before key l r + k]? = (l.filter (fun p => key p == r))[k]?
  | 0, _, _, h, _ => by omega
  | m + 1, r, k, h, hk => by
    rw [byKey_succ]
    by_cases hr : r = m
    · subst hr
      rw [List.getElem?_append_right (by rw [length_byKey]; omega), length_byKey]
      congr 1; omega
    · have hlt : before key l r + k < (byKey key m l).length := by
        rw [length_byKey]
        have : ∀ d, before key l (r + 1) ≤ before key l (r + 1 + d) := by
          intro d
          induction d with
          | zero => exact Nat.le_refl _
          | succ d ih => exact Nat.le_trans ih (by rw [← Nat.add_assoc (r+1) d 1]; simp only [before]; omega)
        have := this (m - (r + 1))
        rw [show r + 1 + (m - (r + 1)) = m by omega] at this
        have : before key l r + (l.filter (fun p => key p == r)).length ≤ before key l m := this
        omega
      rw [List.getElem?_append_left hlt]
      exact byKey_getElem? (by omega) hk

theorem byKey_index {key : Nat → Nat} {l : List Nat} : ∀ {m i : Nat}, i < before key l m →
    ∃ r k, r < m ∧ k < (l.filter (fun p => key p == r)).length ∧ i = before key l r + k
  | 0, i, h => by simp [before] at h
  | m + 1, i, h => by
    by_cases h1 : i < before key l m
    · obtain ⟨r, k, h2, h3, h4⟩ := byKey_index h1
      exact ⟨r, k, by omega, h3, h4⟩
    · exact ⟨m, i - before key l m, by omega, by simp only [before] at h; omega, by omega⟩

theorem before_inj {key : Nat → Nat} {l : List Nat} {r s j k : Nat} (hrs : r < s)
    (hj : j < (l.filter (fun p => key p == r)).length) : before key l r + j ≠ before key l s + k := by
  have : ∀ d, before key l (r + 1) ≤ before key l (r + 1 + d) := by
    intro d
    induction d with
    | zero => exact Nat.le_refl _
    | succ d ih => exact Nat.le_trans ih (by rw [← Nat.add_assoc (r+1) d 1]; simp only [before]; omega)
  have := this (s - (r + 1))
  rw [show r + 1 + (s - (r + 1)) = s by omega] at this
  have : before key l r + (l.filter (fun p => key p == r)).length ≤ before key l s := this
  omega

/-- The placement loop: after `done` has been placed, `todo` is left. -/
theorem place_spec {key : Nat → Nat} {l : List Nat} {m : Nat} (hkey : ∀ p ∈ l, key p < m) :
    ∀ (todo done : List Nat) (n : Nat → Nat) (tmp : List Nat), l = done ++ todo →
    tmp.length = l.length →
    (∀ r, r < m → n r = before key l r + (done.filter (fun p => key p == r)).length) →
    (∀ r k, r < m → k < (done.filter (fun p => key p == r)).length →
      tmp[before key l r + k]? = (l.filter (fun p => key p == r))[k]?) →
    (place key n tmp todo).length = l.length ∧
    ∀ r k, r < m → k < (l.filter (fun p => key p == r)).length →
      (place key n tmp todo)[before key l r + k]? = (l.filter (fun p => key p == r))[k]?
  | [], done, n, tmp, hl, hlen, _, ht => by
    rw [List.append_nil] at hl
    subst hl
    exact ⟨hlen, ht⟩
  | p :: ps, done, n, tmp, hl, hlen, hn, ht => by
    have hp : key p < m := hkey p (by rw [hl]; simp)
    have hnp := hn (key p) hp
    have hfil : ∀ r, l.filter (fun q => key q == r) =
        done.filter (fun q => key q == r) ++ (p :: ps).filter (fun q => key q == r) := by
      intro r; rw [hl, List.filter_append]
    rw [place]
    refine place_spec hkey ps (done ++ [p]) _ _ (by rw [hl]; simp) (by simpa using hlen) ?_ ?_
    · intro r hr
      unfold updN
      rw [List.filter_append]
      by_cases h : r = key p
      · subst h; rw [if_pos rfl, hnp]; simp; omega
      · rw [if_neg h, hn r hr, List.filter_cons, if_neg (by simpa using fun e => h e.symm)]; simp
    · intro r k hr hk
      by_cases h : r = key p
      · subst h
        rw [List.filter_append, List.filter_cons, if_pos (by simp)] at hk
        simp only [List.filter_nil, List.length_append, List.length_cons, List.length_nil] at hk
        by_cases hk2 : k = (done.filter (fun q => key q == key p)).length
        · subst hk2
          rw [hnp, List.getElem?_set_self]
          · rw [hfil, List.getElem?_append_right (Nat.le_refl _)]
            simp
          · rw [hlen]
            have h1 : before key l (key p) + (done.filter (fun q => key q == key p)).length < before key l m := by
              have hb : (done.filter (fun q => key q == key p)).length < (l.filter (fun q => key q == key p)).length := by
                rw [hfil]; simp
              have := length_byKey (key := key) (l := l) m
              have hx := byKey_getElem? (key := key) (l := l) hp hb
              rw [List.getElem?_eq_getElem hb] at hx
              have := (List.getElem?_eq_some_iff.1 hx).1
              omega
            have h2 : before key l m ≤ l.length := by
              rw [← length_byKey, (byKey_perm m).length_eq]
              exact List.length_filter_le _ _
            omega
        · rw [hnp, List.getElem?_set_ne (by omega)]
          exact ht (key p) k hr (by omega)
      · have hk' : k < (done.filter (fun q => key q == r)).length := by
          rw [List.filter_append, List.filter_cons, if_neg (by simpa using fun e => h e.symm)] at hk
          simpa using hk
        rw [hnp, List.getElem?_set_ne, ht r k hr hk']
        intro e
        have hb : (done.filter (fun q => key q == key p)).length < (l.filter (fun q => key q == key p)).length := by
          rw [hfil]; simp
        have hb2 : k < (l.filter (fun q => key q == r)).length := by
          rw [hfil]; simp; omega
        rcases Nat.lt_or_gt_of_ne h with h3 | h3
        · exact before_inj h3 hb2 e.symm
        · exact before_inj h3 hb e

theorem radixPass_eq {key : Nat → Nat} {l : List Nat} (hkey : ∀ p ∈ l, key p < 1 <<< 12) :
    radixPass key l = byKey key (1 <<< 12) l := by
  unfold radixPass
  generalize 1 <<< 12 = m at *
  obtain ⟨h1, h2⟩ := place_spec hkey l [] (totals (countKeys key (fun _ => 0) l) 0 (List.range m))
    (List.replicate l.length 0) rfl (by simp)
    (fun r hr => by rw [totals_before hr]; rfl) (by simp)
  have hlen : (byKey key m l).length = l.length := by
    rw [(byKey_perm m).length_eq]
    rw [List.filter_eq_self.2 (fun p hp => by simpa using hkey p hp)]
  apply List.ext_getElem?
  intro i
  simp only
  by_cases hi : i < l.length
  · rw [← hlen, length_byKey] at hi
    obtain ⟨r, k, hr, hk, he⟩ := byKey_index hi
    subst he
    rw [h2 r k hr hk, byKey_getElem? hr hk]
  · rw [List.getElem?_eq_none (by omega), List.getElem?_eq_none (by omega)]

theorem byKey_pairwise {key : Nat → Nat} {l : List Nat} {S : Nat → Nat → Prop} (h : l.Pairwise S) : ∀ m,
    (byKey key m l).Pairwise (fun a b => key a < key b ∨ key a = key b ∧ S a b)
  | 0 => by simp [byKey]
  | m + 1 => by
    rw [byKey_succ, List.pairwise_append]
    refine ⟨byKey_pairwise h m, ?_, ?_⟩
    · have h1 := List.Pairwise.filter (fun p => key p == m) h
      refine h1.imp_of_mem ?_
      intro a b ha hb hs
      rw [List.mem_filter] at ha hb
      right
      simp at ha hb
      exact ⟨by omega, hs⟩
    · intro a ha b hb
      have ha' := (byKey_perm m).mem_iff.1 ha
      rw [List.mem_filter] at ha' hb
      simp at ha' hb
      left; omega

theorem byKey_filter {key : Nat → Nat} {l : List Nat} (q : Nat → Bool) (r0 : Nat)
    (hq : ∀ p, q p = true → key p = r0) : ∀ m, r0 < m → (byKey key m l).filter q = l.filter q
  | 0, h => by omega
  | m + 1, h => by
    rw [byKey_succ, List.filter_append, List.filter_filter]
    by_cases h2 : r0 = m
    · subst h2
      have e1 : (byKey key r0 l).filter q = [] := by
        rw [List.filter_eq_nil_iff]
        intro p hp hqp
        have := (byKey_perm r0).mem_iff.1 hp
        rw [List.mem_filter] at this
        have h3 := hq p hqp
        simp at this; omega
      rw [e1, List.nil_append]
      apply List.filter_congr
      intro p _
      cases hqp : q p with
      | false => simp
      | true => simp [hq p hqp]
    · rw [byKey_filter q r0 hq m (by omega)]
      have e2 : l.filter (fun a => q a && key a == m) = [] := by
        rw [List.filter_eq_nil_iff]
        intro p _ hp
        simp at hp
        have := hq p hp.1
        omega
      rw [e2, List.append_nil]

theorem sortKey1_eq (p : Nat) : sortKey1 p = p / 2 ^ 32 % 2 ^ 12 := by
  unfold sortKey1
  rw [show (1 <<< 12 - 1 : Nat) = 2 ^ 12 - 1 from rfl, Nat.and_two_pow_sub_one_eq_mod,
    Nat.shiftRight_eq_div_pow]

theorem sortKey2_eq (p : Nat) : sortKey2 p = p / 2 ^ 44 % 2 ^ 12 := by
  unfold sortKey2
  rw [show (1 <<< 12 - 1 : Nat) = 2 ^ 12 - 1 from rfl, Nat.and_two_pow_sub_one_eq_mod,
    Nat.shiftRight_eq_div_pow]

theorem sortPost_eq (l : List Nat) :
    sortPost l = byKey sortKey2 (1 <<< 12) (byKey sortKey1 (1 <<< 12) l) := by
  have h1 : ∀ p, sortKey1 p < 1 <<< 12 := fun p => by
    rw [sortKey1_eq, show (1 <<< 12 : Nat) = 4096 from rfl]; omega
  have h2 : ∀ p, sortKey2 p < 1 <<< 12 := fun p => by
    rw [sortKey2_eq, show (1 <<< 12 : Nat) = 4096 from rfl]; omega
  unfold sortPost
  rw [radixPass_eq (fun p _ => h1 p), radixPass_eq (fun p _ => h2 p)]

theorem sortPost_perm (l : List Nat) : (sortPost l).Perm l := by
  rw [sortPost_eq]
  have h1 : ∀ p, sortKey1 p < 1 <<< 12 := fun p => by
    rw [sortKey1_eq, show (1 <<< 12 : Nat) = 4096 from rfl]; omega
  have h2 : ∀ p, sortKey2 p < 1 <<< 12 := fun p => by
    rw [sortKey2_eq, show (1 <<< 12 : Nat) = 4096 from rfl]; omega
  have a := byKey_perm (key := sortKey2) (l := byKey sortKey1 (1 <<< 12) l) (1 <<< 12)
  have b := byKey_perm (key := sortKey1) (l := l) (1 <<< 12)
  rw [List.filter_eq_self.2 (fun p _ => by simpa using h2 p)] at a
  rw [List.filter_eq_self.2 (fun p _ => by simpa using h1 p)] at b
  exact a.trans b

/-- `p` is an entry with a 24-bit trigram. -/
def Entry24 (p : Nat) : Prop := p < 2 ^ 56

theorem sortPost_pairwise {l : List Nat} {S : Nat → Nat → Prop} (h : l.Pairwise S)
    (h24 : ∀ p ∈ l, Entry24 p) :
    (sortPost l).Pairwise (fun a b => entryTrigram a < entryTrigram b ∨ entryTrigram a = entryTrigram b ∧ S a b) := by
  have hp := sortPost_perm l
  have h1 := byKey_pairwise (key := sortKey2) (byKey_pairwise (key := sortKey1) h (1 <<< 12)) (1 <<< 12)
  rw [← sortPost_eq] at h1
  refine h1.imp_of_mem ?_
  intro a b ha hb hab
  have ha' := h24 a (hp.mem_iff.1 ha)
  have hb' := h24 b (hp.mem_iff.1 hb)
  unfold Entry24 at ha' hb'
  simp only [sortKey1_eq, sortKey2_eq] at hab
  simp only [entryTrigram, Nat.shiftRight_eq_div_pow]
  rcases hab with hab | ⟨h2, hab | ⟨h3, hs⟩⟩
  · left; omega
  · left; omega
  · right; exact ⟨by omega, hs⟩

theorem sortPost_stable {l : List Nat} (t : Nat) :
    (sortPost l).filter (fun p => entryTrigram p == t) = l.filter (fun p => entryTrigram p == t) := by
  have hk1 : ∀ p, (entryTrigram p == t) = true → sortKey1 p = t % 2 ^ 12 := by
    intro p hp
    rw [beq_iff_eq] at hp
    simp only [entryTrigram, Nat.shiftRight_eq_div_pow] at hp
    rw [sortKey1_eq]; omega
  have hk2 : ∀ p, (entryTrigram p == t) = true → sortKey2 p = t / 2 ^ 12 % 2 ^ 12 := by
    intro p hp
    rw [beq_iff_eq] at hp
    simp only [entryTrigram, Nat.shiftRight_eq_div_pow] at hp
    rw [sortKey2_eq]; omega
  rw [sortPost_eq, byKey_filter _ _ hk2 _ (by rw [show (1 <<< 12 : Nat) = 4096 from rfl]; omega),
    byKey_filter _ _ hk1 _ (by rw [show (1 <<< 12 : Nat) = 4096 from rfl]; omega)]

end Hound
