import Verif.Spec.Vcs
import Verif.Proofs.Api
import Verif.Proofs.Query

namespace Hound.Vcs
open Spec
open Api (trimSpace splitByte)

/-! ### Trimming a commit id -/

theorem trimLeftLoop_id {ws : List Bytes} {s : Bytes} (h : ∀ w ∈ ws, ¬ w <+: s) (fuel : Nat) :
    Api.trimLeftLoop ws fuel s = s := by
  cases fuel with
  | zero => rfl
  | succ n =>
    simp only [Api.trimLeftLoop]
    have : ws.find? (fun w => w.isPrefixOf s) = none := by
      rw [List.find?_eq_none]
      intro w hw hp
      exact h w hw (List.isPrefixOf_iff_prefix.1 hp)
    rw [this]

theorem trimSpace_commit {c : Bytes} (h : IsCommit c) : trimSpace (c ++ [NL]) = c := by
  obtain ⟨hne, hd⟩ := h
  have hsp : ∀ w ∈ Api.spaces, w ≠ [] ∧ ∀ b ∈ w, ¬ ((48 ≤ b ∧ b ≤ 57) ∨ (97 ≤ b ∧ b ≤ 102)) := by
    decide
  have hfirst : ∀ {w s : Bytes}, w ≠ [] → (∀ b ∈ w, ¬ ((48 ≤ b ∧ b ≤ 57) ∨ (97 ≤ b ∧ b ≤ 102))) →
      s ≠ [] → (∀ b ∈ s, (48 ≤ b ∧ b ≤ 57) ∨ (97 ≤ b ∧ b ≤ 102)) → ∀ t, ¬ w <+: s ++ t := by
    intro w s hw hb hs hs' t hp
    cases w with
    | nil => exact hw rfl
    | cons a w =>
      cases s with
      | nil => exact hs rfl
      | cons x s =>
        obtain ⟨u, hu⟩ := hp
        simp only [List.cons_append, List.cons.injEq] at hu
        exact hb a (by simp) (hu.1 ▸ hs' x (by simp))
  unfold trimSpace
  have h1 : Api.trimLeftLoop Api.spaces (c ++ [NL]).length (c ++ [NL]) = c ++ [NL] :=
    trimLeftLoop_id (fun w hw => hfirst (hsp w hw).1 (hsp w hw).2 hne hd [NL]) _
  simp only [h1]
  rw [List.length_append, List.length_singleton]
  simp only [Api.trimLeftLoop, List.reverse_append, List.reverse_singleton, List.singleton_append]
  have hfind : (Api.spaces.map List.reverse).find? (fun w => w.isPrefixOf (NL :: c.reverse)) = some [NL] := by
    have hh : ∀ w ∈ Api.spaces.map List.reverse, w ≠ [NL] → w.head? ≠ some NL := by decide
    have hm : [NL] ∈ Api.spaces.map List.reverse := by decide
    rw [List.find?_eq_some_iff_append]
    refine ⟨by simp [List.isPrefixOf], ?_⟩
    obtain ⟨as, bs, hab⟩ := List.append_of_mem hm
    have hnd : (Api.spaces.map List.reverse).Nodup := by decide
    refine ⟨as, bs, hab, ?_⟩
    intro a ha
    have ha' : a ∈ Api.spaces.map List.reverse := by rw [hab]; simp [ha]
    have hne' : a ≠ [NL] := by
      rintro rfl
      rw [hab] at hnd
      exact (List.nodup_append.1 hnd).2.2 [NL] ha [NL] (by simp) rfl
    have := hh a ha' hne'
    cases a with
    | nil => exact absurd rfl ((show ∀ w ∈ Api.spaces.map List.reverse, w ≠ [] by decide) _ ha')
    | cons x a =>
      simp only [List.head?_cons, ne_eq, Option.some.injEq] at this
      simp [List.isPrefixOf, this]
  rw [hfind]
  simp only [List.length_singleton, List.drop_succ_cons, List.drop_zero]
  have h2 : ∀ w ∈ Api.spaces.map List.reverse, ¬ w <+: c.reverse := by
    intro w hw hp
    obtain ⟨v, hv, rfl⟩ := List.mem_map.1 hw
    refine hfirst (w := v.reverse) (s := c.reverse) ?_ ?_ (by simpa using hne)
      (fun b hb => hd b (by simpa using hb)) [] (by simpa using hp)
    · simpa using (hsp v hv).1
    · intro b hb; exact (hsp v hv).2 b (by simpa using hb)
  rw [trimLeftLoop_id h2]
  simp

/-! ### The head branch -/

theorem takeWhile_append_of {p : UInt8 → Bool} {a b : Bytes} (h : ∀ x ∈ a, p x = true)
    (hb : b = [] ∨ ∃ x, b.head? = some x ∧ p x = false) : (a ++ b).takeWhile p = a := by
  induction a with
  | nil =>
    rcases hb with rfl | ⟨x, hx, hp⟩
    · rfl
    · cases b with
      | nil => simp at hx
      | cons y b =>
        simp only [List.head?_cons, Option.some.injEq] at hx
        subst hx
        simp [hp]
  | cons y a ih =>
    simp only [List.cons_append, List.takeWhile, h y (by simp)]
    rw [ih (fun x hx => h x (by simp [hx]))]

theorem dropWhile_head (t : Bytes) : t.dropWhile (fun x => decide (x ≠ NL)) = [] ∨
    (t.dropWhile (fun x => decide (x ≠ NL))).head? = some NL := by
  induction t with
  | nil => exact .inl rfl
  | cons x t ih =>
    by_cases hx : x = NL
    · subst hx; right; simp [List.dropWhile]
    · rw [List.dropWhile_cons_of_pos (by simpa using hx)]
      exact ih

theorem findHeadBranch_some {out b : Bytes} : findHeadBranch out = some b → NamesHead out b := by
  induction out with
  | nil => intro h; simp [findHeadBranch] at h
  | cons c cs ih =>
    intro h
    simp only [findHeadBranch] at h
    split at h
    · rename_i hc
      obtain ⟨⟨t, ht⟩, hne⟩ := hc
      have hdrop : (c :: cs).drop headBranchKey.length = t := by rw [← ht]; simp
      rw [hdrop] at h hne
      cases h
      refine ⟨[], t.dropWhile (· ≠ NL), ?_, hne, ?_, ?_, ?_⟩
      · rw [← ht]
        show headBranchKey ++ t = [] ++ headBranchKey ++ _ ++ _
        rw [List.nil_append, List.append_assoc, List.takeWhile_append_dropWhile]
      · intro hm
        have := List.all_eq_true.1 (List.all_takeWhile (p := fun x => decide (x ≠ NL)) (l := t)) NL hm
        simp at this
      · exact dropWhile_head t
      · intro pre' rest _ _ _
        simp
    · rename_i hc
      obtain ⟨pre, post, he, hb, hnl, hpost, hmin⟩ := ih h
      refine ⟨c :: pre, post, by rw [he]; simp, hb, hnl, hpost, ?_⟩
      intro pre' rest he' hr hr'
      cases pre' with
      | nil =>
        exfalso
        apply hc
        have hk : headBranchKey <+: c :: cs := ⟨rest, by rw [he']; rfl⟩
        refine ⟨hk, ?_⟩
        have : (c :: cs).drop headBranchKey.length = rest := by
          rw [he']
          exact List.drop_left (l₁ := headBranchKey)
        rw [this]
        cases rest with
        | nil => exact absurd rfl hr
        | cons y rest =>
          have : y ≠ NL := by simpa using hr'
          simp [List.takeWhile, this]
      | cons d pre' =>
        simp only [List.cons_append, List.cons.injEq] at he'
        have := hmin pre' rest (by simpa using he'.2) hr hr'
        simp only [List.length_cons]
        omega

theorem findHeadBranch_of {out b : Bytes} (h : NamesHead out b) : findHeadBranch out = some b := by
  obtain ⟨pre, post, he, hb, hnl, hpost, hmin⟩ := h
  induction pre generalizing out with
  | nil =>
    cases hout : out with
    | nil => rw [he] at hout; simp at hout
    | cons c cs =>
      simp only [findHeadBranch]
      have hdrop : (c :: cs).drop headBranchKey.length = b ++ post := by
        rw [← hout, he, List.nil_append, List.append_assoc]
        exact List.drop_left (l₁ := headBranchKey)
      have htw : (b ++ post).takeWhile (fun x => decide (x ≠ NL)) = b := by
        apply takeWhile_append_of
        · intro x hx
          simp only [ne_eq, decide_eq_true_eq]
          rintro rfl; exact hnl hx
        · rcases hpost with rfl | hp
          · exact .inl rfl
          · exact .inr ⟨NL, hp, by simp⟩
      rw [hdrop, htw, if_pos]
      refine ⟨⟨b ++ post, ?_⟩, hb⟩
      rw [← hout, he, List.nil_append, List.append_assoc]
      rfl
  | cons d pre ih =>
    cases hout : out with
    | nil => rw [he] at hout; simp at hout
    | cons c cs =>
      rw [hout] at he
      simp only [List.cons_append, List.cons.injEq] at he
      obtain ⟨rfl, hcs⟩ := he
      have hrec := ih (out := cs) hcs (by
        intro pre' rest h1 h2 h3
        have := hmin (c :: pre') rest (by rw [hout, h1]; simp) h2 h3
        simpa using this)
      simp only [findHeadBranch]
      rw [if_neg, hrec]
      rintro ⟨⟨t, ht⟩, hne⟩
      have hd : (c :: cs).drop headBranchKey.length = t := by rw [← ht]; simp
      rw [hd] at hne
      have := hmin [] t (by rw [hout, ← ht]; rfl) (by
        rintro rfl; simp at hne) (by
        intro hh
        cases t with
        | nil => simp at hne
        | cons y t =>
          simp only [List.head?_cons, Option.some.injEq] at hh
          subst hh
          simp [List.takeWhile] at hne)
      simp at this

theorem namesHead_unique {out a b : Bytes} (ha : NamesHead out a) (hb : NamesHead out b) : a = b := by
  have h1 := findHeadBranch_of ha
  rw [findHeadBranch_of hb] at h1
  exact (Option.some.inj h1).symm

/-! ### Attributes -/

theorem splitByte_append (sep : UInt8) {a : Bytes} (h : sep ∉ a) (b : Bytes) :
    splitByte sep (a ++ sep :: b) = a :: splitByte sep b := by
  induction a with
  | nil => simp [splitByte]
  | cons x a ih =>
    simp only [List.mem_cons, not_or] at h
    simp only [List.cons_append, splitByte, if_neg (Ne.symm h.1), ih h.2]

theorem split_attrOutput {rs : List AttrRecord} (h : NulFree rs) :
    splitByte 0 (attrOutput rs) = (rs.flatMap fun r => [r.path, r.attr, r.info]) ++ [[]] := by
  induction rs with
  | nil => simp [attrOutput, splitByte]
  | cons r rs ih =>
    obtain ⟨h1, h2, h3⟩ := h r (by simp)
    have hr : NulFree rs := fun x hx => h x (by simp [hx])
    simp only [attrOutput, List.append_assoc, List.cons_append, List.nil_append]
    rw [splitByte_append 0 h1, splitByte_append 0 h2, splitByte_append 0 h3, ih hr]
    simp

theorem generatedTokens_records (rs : List AttrRecord) :
    generatedTokens ((rs.flatMap fun r => [r.path, r.attr, r.info]) ++ [[]]) =
      (rs.filter fun r => decide (r.info = b!"true" ∧ r.attr = b!"linguist-generated")).map (·.path) := by
  induction rs with
  | nil => simp [generatedTokens]
  | cons r rs ih =>
    simp only [List.flatMap_cons, List.cons_append, List.nil_append, generatedTokens]
    rw [ih]
    have e : generatedAttr = b!"linguist-generated" := rfl
    rw [e]
    by_cases hc : r.info = b!"true" ∧ r.attr = b!"linguist-generated"
    · rw [if_pos hc, List.filter_cons_of_pos (by simpa using hc)]; rfl
    · rw [if_neg hc, List.filter_cons_of_neg (by simpa using hc)]

/-! ### Local directories -/

theorem bytesLt_trichotomy (a b : Bytes) : bytesLt a b = false → bytesLt b a = false → a = b := by
  induction a generalizing b with
  | nil => cases b <;> simp [bytesLt]
  | cons x a ih =>
    cases b with
    | nil => simp [bytesLt]
    | cons y b =>
      simp only [bytesLt]
      by_cases h1 : x < y
      · simp [h1]
      · by_cases h2 : y < x
        · simp [h1, h2]
        · simp only [h1, h2, if_false]
          have : x = y := UInt8.le_antisymm (UInt8.not_lt.1 h2) (UInt8.not_lt.1 h1)
          subst this
          intro h3 h4
          rw [ih b h3 h4]

theorem bytesLt_asymm (a b : Bytes) : bytesLt a b = true → bytesLt b a = false := by
  induction a generalizing b with
  | nil => cases b <;> simp [bytesLt]
  | cons x a ih =>
    cases b with
    | nil => simp [bytesLt]
    | cons y b =>
      simp only [bytesLt]
      by_cases h1 : x < y
      · have : ¬ y < x := UInt8.not_lt.2 (UInt8.le_of_lt h1)
        simp [h1, this]
      · by_cases h2 : y < x
        · simp [h1, h2]
        · simp only [h1, h2, if_false]
          exact ih b

theorem bytesLt_trans (a b c : Bytes) : bytesLt a b = true → bytesLt b c = true → bytesLt a c = true := by
  induction a generalizing b c with
  | nil => cases b <;> cases c <;> simp [bytesLt]
  | cons x a ih =>
    cases b with
    | nil => simp [bytesLt]
    | cons y b =>
      cases c with
      | nil => simp [bytesLt]
      | cons z c =>
        simp only [bytesLt]
        intro h1 h2
        by_cases hxy : x < y
        · by_cases hyz : y < z
          · simp [UInt8.lt_trans hxy hyz]
          · by_cases hzy : z < y
            · simp [hyz, hzy] at h2
            · have : y = z := UInt8.le_antisymm (UInt8.not_lt.1 hzy) (UInt8.not_lt.1 hyz)
              subst this; simp [hxy]
        · by_cases hyx : y < x
          · simp [hxy, hyx] at h1
          · have : x = y := UInt8.le_antisymm (UInt8.not_lt.1 hyx) (UInt8.not_lt.1 hxy)
            subst this
            by_cases hyz : x < z
            · simp [hyz]
            · by_cases hzy : z < x
              · simp [hyz, hzy] at h2
              · simp only [hxy, hyz, hzy, if_false] at h1 h2 ⊢
                exact ih b c h1 h2

/-- Not greater. -/
def bytesLe (a b : Bytes) : Prop := bytesLt b a = false

theorem bytesLe_trans {a b c : Bytes} (h1 : bytesLe a b) (h2 : bytesLe b c) : bytesLe a c := by
  unfold bytesLe at *
  cases hc : bytesLt c a with
  | false => rfl
  | true =>
    cases hb : bytesLt b c with
    | true => rw [bytesLt_trans b c a hb hc] at h1; exact absurd h1 (by simp)
    | false =>
      have := bytesLt_trichotomy b c hb h2
      subst this
      rw [hc] at h1
      exact absurd h1 (by simp)

theorem insertSorted_perm (x : Bytes) (l : List Bytes) : (insertSorted bytesLt x l).Perm (x :: l) := by
  induction l with
  | nil => exact List.Perm.refl _
  | cons y ys ih =>
    simp only [insertSorted]
    split
    · exact (List.Perm.cons y ih).trans (List.Perm.swap x y ys)
    · exact List.Perm.refl _

theorem sortStrings_perm (l : List Bytes) : (sortStrings bytesLt l).Perm l := by
  induction l with
  | nil => exact List.Perm.refl _
  | cons x xs ih =>
    simp only [sortStrings]
    exact (insertSorted_perm x _).trans (List.Perm.cons x ih)

theorem insertSorted_sorted (x : Bytes) (l : List Bytes) (h : l.Pairwise bytesLe) :
    (insertSorted bytesLt x l).Pairwise bytesLe := by
  induction l with
  | nil => simp [insertSorted]
  | cons y ys ih =>
    simp only [insertSorted]
    have hy := List.pairwise_cons.1 h
    split
    · rename_i hlt
      refine List.pairwise_cons.2 ⟨?_, ih hy.2⟩
      intro z hz
      rcases mem_insertSorted.1 hz with rfl | hz
      · exact bytesLt_asymm _ _ hlt
      · exact hy.1 z hz
    · rename_i hlt
      have hxy : bytesLe x y := by unfold bytesLe; simpa using hlt
      refine List.pairwise_cons.2 ⟨?_, h⟩
      intro z hz
      rcases List.mem_cons.1 hz with rfl | hz
      · exact hxy
      · exact bytesLe_trans hxy (hy.1 z hz)

theorem sortStrings_sorted (l : List Bytes) : (sortStrings bytesLt l).Pairwise bytesLe := by
  induction l with
  | nil => simp [sortStrings]
  | cons x xs ih => exact insertSorted_sorted x _ ih

theorem sortStrings_eq {a b : List Bytes} (h : a.Perm b) : sortStrings bytesLt a = sortStrings bytesLt b :=
  List.Perm.eq_of_pairwise (le := bytesLe) (fun x y _ _ h1 h2 => bytesLt_trichotomy x y h2 h1)
    (sortStrings_sorted a) (sortStrings_sorted b)
    ((sortStrings_perm a).trans (h.trans (sortStrings_perm b).symm))

theorem hexDigit_inj : ∀ a < 16, ∀ b < 16, hexDigit a = hexDigit b → a = b := by decide
theorem hexDigit_range : ∀ a < 16, hexDigit a ≠ 32 ∧ hexDigit a ≠ 10 := by decide

theorem hexOf_inj {a b : Bytes} (h : hexOf a = hexOf b) : a = b := by
  induction a generalizing b with
  | nil => cases b with
    | nil => rfl
    | cons _ _ => simp [hexOf] at h
  | cons x a ih =>
    cases b with
    | nil => simp [hexOf] at h
    | cons y b =>
      simp only [hexOf, List.cons.injEq] at h
      obtain ⟨h1, h2, h3⟩ := h
      have hx := UInt8.toNat_lt x
      have hy := UInt8.toNat_lt y
      have e1 := hexDigit_inj _ (by omega) _ (by omega) h1
      have e2 := hexDigit_inj _ (by omega) _ (by omega) h2
      have : x = y := UInt8.toNat_inj.1 (by omega)
      rw [this, ih h3]

theorem hexOf_mem {a : Bytes} : ∀ c ∈ hexOf a, c ≠ 32 ∧ c ≠ 10 := by
  induction a with
  | nil => simp [hexOf]
  | cons x a ih =>
    have hx := UInt8.toNat_lt x
    intro c hc
    simp only [hexOf, List.mem_cons] at hc
    rcases hc with rfl | rfl | hc
    · exact hexDigit_range _ (by omega)
    · exact hexDigit_range _ (by omega)
    · exact ih c hc

theorem append_sep_inj {sep : UInt8} {a b c d : Bytes} (ha : sep ∉ a) (hc : sep ∉ c)
    (h : a ++ sep :: b = c ++ sep :: d) : a = c ∧ b = d := by
  induction a generalizing c with
  | nil =>
    cases c with
    | nil => exact ⟨rfl, by simpa using h⟩
    | cons x c =>
      simp only [List.nil_append, List.cons_append, List.cons.injEq] at h
      exact absurd (h.1 ▸ List.mem_cons_self) hc
  | cons x a ih =>
    cases c with
    | nil =>
      simp only [List.nil_append, List.cons_append, List.cons.injEq] at h
      exact absurd (h.1 ▸ List.mem_cons_self) ha
    | cons y c =>
      simp only [List.cons_append, List.cons.injEq] at h
      simp only [List.mem_cons, not_or] at ha hc
      obtain ⟨e1, e2⟩ := ih ha.2 hc.2 h.2
      exact ⟨by rw [h.1, e1], e2⟩

/-- The text hashed determines the names and the hashes of the contents. -/
theorem hashText_inj (H : Bytes → Bytes) {ra rb : Bytes → Option Bytes} {a b : List Bytes} {t : Bytes}
    (ha : hashText H ra a = some t) (hb : hashText H rb b = some t) :
    a = b ∧ ∀ f ∈ a, ∃ x y, ra f = some x ∧ rb f = some y ∧ H x = H y := by
  induction a generalizing b t with
  | nil =>
    simp only [hashText, Option.some.injEq] at ha
    subst ha
    cases b with
    | nil => simp
    | cons f b =>
      simp only [hashText] at hb
      split at hb
      · simp at hb
      · split at hb <;> simp at hb
  | cons f a ih =>
    simp only [hashText] at ha
    split at ha
    · simp at ha
    · rename_i hf
      split at ha
      · rename_i x rest hx hrest
        cases ha
        cases b with
        | nil => simp [hashText] at hb
        | cons g b =>
          simp only [hashText] at hb
          split at hb
          · simp at hb
          · rename_i hg
            split at hb
            · rename_i y rest' hy hrest'
              simp only [Option.some.injEq, List.append_assoc, List.cons_append, List.nil_append] at hb
              obtain ⟨e1, e2⟩ := append_sep_inj (fun h => (hexOf_mem _ h).1 rfl)
                (fun h => (hexOf_mem _ h).1 rfl) hb
              simp only [List.cons.injEq, true_and] at e2
              obtain ⟨e3, e4⟩ := append_sep_inj hg hf e2
              subst e3 e4
              obtain ⟨rfl, hall⟩ := ih hrest hrest'
              refine ⟨rfl, ?_⟩
              intro k hk
              rcases List.mem_cons.1 hk with rfl | hk
              · exact ⟨x, y, hx, hy, (hexOf_inj e1).symm⟩
              · exact hall k hk
            · simp at hb
      · simp at ha

theorem lastIndexSub_spec (sub : Bytes) (hs : sub ≠ []) (s : Bytes) :
    (lastIndexSub sub s = none ↔ ¬ sub <:+: s) ∧
    (∀ i, lastIndexSub sub s = some i → s = s.take i ++ sub ++ s.drop (i + sub.length) ∧
      ∀ p r, s = p ++ sub ++ r → p.length ≤ i) := by
  induction s with
  | nil =>
    refine ⟨?_, by simp [lastIndexSub]⟩
    simp [lastIndexSub, hs]
  | cons c cs ih =>
    simp only [lastIndexSub]
    cases hr : lastIndexSub sub cs with
    | some i =>
      obtain ⟨h1, h2⟩ := ih.2 i hr
      refine ⟨?_, ?_⟩
      · simp only [reduceCtorEq, false_iff, Decidable.not_not]
        exact ⟨c :: cs.take i, cs.drop (i + sub.length), by
          rw [List.cons_append, List.cons_append, ← h1]⟩
      · intro j hj
        cases hj
        refine ⟨?_, ?_⟩
        · rw [List.take_succ_cons, show i + 1 + sub.length = (i + sub.length) + 1 by omega,
            List.drop_succ_cons, List.cons_append, List.cons_append, ← h1]
        · intro p r hp
          cases p with
          | nil => simp
          | cons d p =>
            simp only [List.cons_append, List.cons.injEq] at hp
            have := h2 p r hp.2
            simp only [List.length_cons]
            omega
    | none =>
      have hno := ih.1.1 hr
      simp only
      by_cases hp : sub <+: c :: cs
      · rw [if_pos hp]
        obtain ⟨t, ht⟩ := hp
        refine ⟨?_, ?_⟩
        · simp only [reduceCtorEq, false_iff, Decidable.not_not]
          exact ⟨[], t, by simpa using ht⟩
        · intro j hj
          cases hj
          refine ⟨?_, ?_⟩
          · rw [← ht]; simp
          · intro p r hp
            cases p with
            | nil => simp
            | cons d p =>
              simp only [List.cons_append, List.cons.injEq] at hp
              exact absurd ⟨p, r, hp.2.symm⟩ hno
      · rw [if_neg hp]
        refine ⟨?_, by simp⟩
        simp only [true_iff]
        rintro ⟨p, r, h⟩
        cases p with
        | nil => exact hp ⟨r, by simpa using h⟩
        | cons d p =>
          simp only [List.cons_append, List.cons.injEq] at h
          exact hno ⟨p, r, h.2⟩

end Hound.Vcs
