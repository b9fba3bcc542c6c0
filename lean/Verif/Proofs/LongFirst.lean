import Verif.Proofs.HeapAnalyze
import Verif.Spec.Words

/-!
If of the alternatives in each place the first is long, or all the others are short, the flag of the heap model of `RegexpQuery`
stays down.
-/

namespace Hound
open Spec

namespace RegexpInfo

theorem simplifySets_exact (i : RegexpInfo) : (simplifySets i).exact = i.exact := rfl

theorem simplify_none {i : RegexpInfo} (h : i.exact = none) (f : Bool) : (i.simplify f).exact = none := by
  unfold simplify
  rw [h]
  exact h

theorem concat_none {x y : RegexpInfo} (h : x.exact = none ∨ y.exact = none) : (x.concat y).exact = none := by
  obtain ⟨xc, xe, xp, xu, xm⟩ := x
  obtain ⟨yc, ye, yp, yu, ym⟩ := y
  unfold concat
  apply simplify_none
  cases xe <;> cases ye <;> simp at h ⊢

theorem alternate_none {x y : RegexpInfo} (h : x.exact = none ∨ y.exact = none) : (x.alternate y).exact = none := by
  obtain ⟨xc, xe, xp, xu, xm⟩ := x
  obtain ⟨yc, ye, yp, yu, ym⟩ := y
  unfold alternate
  apply simplify_none
  cases xe <;> cases ye <;> simp at h ⊢

theorem foldl_none {f : RegexpInfo → RegexpInfo → RegexpInfo} (hf : ∀ x y : RegexpInfo, x.exact = none ∨ y.exact = none → (f x y).exact = none) :
    ∀ (l : List RegexpInfo) (x : RegexpInfo), (x.exact = none ∨ ∃ y ∈ l, y.exact = none) → (l.foldl f x).exact = none
  | [], x, h => by
    rcases h with h | ⟨y, hy, -⟩
    · exact h
    · simp at hy
  | y :: l, x, h => by
    rw [List.foldl_cons]
    apply foldl_none hf l
    rcases h with h | ⟨z, hz, h⟩
    · exact .inl (hf x y (.inl h))
    · rcases List.mem_cons.1 hz with rfl | hz
      · exact .inl (hf x z (.inr h))
      · exact .inr ⟨z, hz, h⟩

/-- Either the set has been given up, or it has something, and all in it have `k` bytes. -/
def Thick (k : Nat) (i : RegexpInfo) : Prop := ∀ e, i.exact = some e → e ≠ [] ∧ ∀ s ∈ e, k ≤ s.length

theorem thick_simplify {k : Nat} {i : RegexpInfo} (h : Thick k i) (f : Bool) : Thick k (i.simplify f) := by
  intro e he
  cases hx : i.exact with
  | none => rw [simplify_none hx] at he; cases he
  | some e0 =>
    obtain ⟨h1, h2⟩ := h e0 hx
    unfold simplify at he
    rw [hx] at he
    simp only at he
    split at he
    · rw [simplifySets_exact] at he; cases he
    · cases he
      refine ⟨fun h0 => ?_, fun s hs => h2 s (mem_cleanSet.1 hs)⟩
      cases e0 with
      | nil => exact h1 rfl
      | cons a t =>
        have : a ∈ cleanSet false (a :: t) := mem_cleanSet.2 List.mem_cons_self
        rw [h0] at this
        simp at this

theorem thick_four {i : RegexpInfo} (h : Thick 4 i) (f : Bool) : (i.simplify f).exact = none := by
  cases hx : i.exact with
  | none => exact simplify_none hx f
  | some e0 =>
    obtain ⟨h1, h2⟩ := h e0 hx
    have hne : cleanSet false e0 ≠ [] := by
      intro h0
      cases e0 with
      | nil => exact h1 rfl
      | cons a t =>
        have : a ∈ cleanSet false (a :: t) := mem_cleanSet.2 List.mem_cons_self
        rw [h0] at this
        simp at this
    have hm : 4 ≤ minLen (cleanSet false e0) := minLen_cons_of_all hne fun s hs => h2 s (mem_cleanSet.1 hs)
    have ht : tooBig (cleanSet false e0) f = true := by
      unfold tooBig
      simp only [ge_iff_le, Bool.or_eq_true, decide_eq_true_eq]
      exact .inr hm
    unfold simplify
    rw [hx]
    simp only [ht, if_true]
    rfl

theorem encodeRune_pos (r : Rune) : 1 ≤ (encodeRune r).length := by
  unfold encodeRune
  split <;> unfold encodeRaw <;> (repeat' split) <;> simp

theorem encodeRunes_length : ∀ rs : List Rune, rs.length ≤ (encodeRunes rs).length
  | [] => by simp
  | r :: rs => by
    have h1 := encodeRune_pos r
    have h2 := encodeRunes_length rs
    unfold encodeRunes at h2 ⊢
    simp only [List.flatMap_cons, List.length_append, List.length_cons]
    omega

theorem fold1_thick {orbit : Rune → List Rune} (r : Rune) : Thick 1 (analyzeFold1 orbit r) := by
  unfold analyzeFold1 analyzeClass
  split
  · intro e he; cases he
  split
  · intro e he; cases he
  · apply thick_simplify
    intro e he
    cases he
    refine ⟨?_, ?_⟩
    · simp [classStrings]
    · intro s hs
      unfold classStrings at hs
      simp only [List.mem_flatMap, List.mem_map] at hs
      obtain ⟨p, -, x, -, rfl⟩ := hs
      exact encodeRune_pos x

theorem concat_thick {k : Nat} {x y : RegexpInfo} (hx : Thick k x) (hy : Thick 1 y) :
    Thick (k + 1) (x.concat y) ∧ (4 ≤ k + 1 → (x.concat y).exact = none) := by
  obtain ⟨xc, xe, xp, xu, xm⟩ := x
  obtain ⟨yc, ye, yp, yu, ym⟩ := y
  cases xe with
  | none =>
    have : (concat ⟨xc, none, xp, xu, xm⟩ ⟨yc, ye, yp, yu, ym⟩).exact = none := concat_none (.inl rfl)
    exact ⟨fun e he => (by rw [this] at he; cases he), fun _ => this⟩
  | some a =>
    cases ye with
    | none =>
      have : (concat ⟨xc, some a, xp, xu, xm⟩ ⟨yc, none, yp, yu, ym⟩).exact = none := concat_none (.inr rfl)
      exact ⟨fun e he => (by rw [this] at he; cases he), fun _ => this⟩
    | some b =>
      obtain ⟨a1, a2⟩ := hx a rfl
      obtain ⟨b1, b2⟩ := hy b rfl
      have hn : crossSet a b false ≠ [] := by
        intro h0
        cases a with
        | nil => exact a1 rfl
        | cons u a =>
          cases b with
          | nil => exact b1 rfl
          | cons v b =>
            have : u ++ v ∈ crossSet (u :: a) (v :: b) false := mem_crossSet.2 ⟨u, List.mem_cons_self, v, List.mem_cons_self, rfl⟩
            rw [h0] at this
            simp at this
      have hl : ∀ s ∈ crossSet a b false, k + 1 ≤ s.length := by
        intro s hs
        obtain ⟨u, hu, v, hv, rfl⟩ := mem_crossSet.1 hs
        have := a2 u hu
        have := b2 v hv
        simp only [List.length_append]
        omega
      unfold concat
      simp only
      constructor
      · apply thick_simplify
        intro e he
        cases he
        exact ⟨hn, hl⟩
      · intro h4
        apply thick_four
        intro e he
        cases he
        exact ⟨hn, fun s hs => Nat.le_trans h4 (hl s hs)⟩

theorem foldLit_thick {orbit : Rune → List Rune} : ∀ (rs : List Rune) {k : Nat} {x : RegexpInfo}, Thick k x → (4 ≤ k → x.exact = none) →
    4 ≤ k + rs.length → (rs.foldl (fun info r => concat info (analyzeFold1 orbit r)) x).exact = none
  | [], k, x, _, h1, h2 => h1 (by simpa using h2)
  | r :: rs, k, x, h0, h1, h2 => by
    rw [List.foldl_cons]
    obtain ⟨g1, g2⟩ := concat_thick h0 (fold1_thick (orbit := orbit) r)
    exact foldLit_thick rs g1 g2 (by simp only [List.length_cons] at h2; omega)

theorem literal_long {orbit : Rune → List Rune} {rs : List Rune} (h : 4 ≤ rs.length) (fold : Bool) : (analyzeLiteral orbit rs fold).exact = none := by
  cases fold with
  | false =>
    unfold analyzeLiteral
    simp only [Bool.false_eq_true, if_false]
    apply thick_four
    intro e he
    cases he
    refine ⟨by simp, fun s hs => ?_⟩
    rw [List.mem_singleton] at hs
    subst hs
    exact Nat.le_trans h (encodeRunes_length rs)
  | true =>
    unfold analyzeLiteral
    rw [if_pos rfl]
    match rs, h with
    | a :: b :: rs, h =>
      refine foldLit_thick (orbit := orbit) (a :: b :: rs) (k := 0) (x := emptyString) ?_ (by intro h; omega) (by omega)
      intro e he
      cases he
      exact ⟨by simp, fun s _ => Nat.zero_le _⟩

theorem analyzePlus_none (i : RegexpInfo) : (analyzePlus i).exact = none := by
  unfold analyzePlus
  split
  · exact simplify_none rfl _
  · rename_i h; exact simplify_none h _

mutual
/-- What is long is not described by a set of all it matches. -/
theorem long_none {orbit : Rune → List Rune} : ∀ (re : Re), Long re → (analyze orbit re).exact = none
  | .literal rs f, h => by
    rw [Long] at h
    rw [analyze]
    exact literal_long h f
  | .star _, _ => rfl
  | .plus r, _ => by rw [analyze]; exact analyzePlus_none _
  | .rep r lo hi, _ => by
    rw [analyze]
    split
    · rfl
    · exact analyzePlus_none _
  | .anyChar, _ => rfl
  | .anyCharNotNL, _ => rfl
  | .capture r, h => by rw [Long] at h; rw [analyze]; exact long_none r h
  | .quest r, h => by rw [Long] at h; rw [analyze]; exact alternate_none (.inl (long_none r h))
  | .concat rs, h => by
    rw [Long] at h
    rw [analyze]
    have := longL_none (orbit := orbit) rs h
    cases rs with
    | nil => exact absurd h (by simp [LongL])
    | cons r rs =>
      rw [analyzeList] at this ⊢
      rw [foldInfos]
      apply foldl_none (fun _ _ => concat_none)
      obtain ⟨y, hy, h0⟩ := this
      rcases List.mem_cons.1 hy with rfl | hy
      · exact .inl h0
      · exact .inr ⟨y, hy, h0⟩
  | .alternate rs, h => by
    rw [Long] at h
    rw [analyze]
    have := longL_none (orbit := orbit) rs h
    cases rs with
    | nil => exact absurd h (by simp [LongL])
    | cons r rs =>
      rw [analyzeList] at this ⊢
      rw [foldInfos]
      apply foldl_none (fun _ _ => alternate_none)
      obtain ⟨y, hy, h0⟩ := this
      rcases List.mem_cons.1 hy with rfl | hy
      · exact .inl h0
      · exact .inr ⟨y, hy, h0⟩
  | .noMatch, h => by simp [Long] at h
  | .emptyMatch, h => by simp [Long] at h
  | .beginLine, h => by simp [Long] at h
  | .endLine, h => by simp [Long] at h
  | .beginText, h => by simp [Long] at h
  | .endText, h => by simp [Long] at h
  | .wordBoundary, h => by simp [Long] at h
  | .noWordBoundary, h => by simp [Long] at h
  | .charClass _, h => by simp [Long] at h
theorem longL_none {orbit : Rune → List Rune} : ∀ (rs : List Re), LongL rs → ∃ y ∈ analyzeList orbit rs, y.exact = none
  | [], h => by simp [LongL] at h
  | r :: rs, h => by
    rw [LongL] at h
    rw [analyzeList]
    rcases h with h | h
    · exact ⟨_, List.mem_cons_self, long_none r h⟩
    · obtain ⟨y, hy, h0⟩ := longL_none rs h
      exact ⟨y, List.mem_cons_of_mem _ hy, h0⟩
end

theorem minLen_one (a : Bytes) : minLen [a] = a.length := rfl

/-- What is short is described by a set of all it matches. -/
theorem short_some {orbit : Rune → List Rune} {re : Re} (h : Short re) : (analyze orbit re).exact ≠ none := by
  cases re with
  | literal rs f =>
    obtain ⟨rfl, hl⟩ := h
    have hc : cleanSet false [encodeRunes rs] = [encodeRunes rs] := rfl
    have ht : tooBig [encodeRunes rs] false = false := by
      unfold tooBig
      rw [minLen_one]
      simp only [List.length_singleton, Bool.and_false, Bool.or_false, Bool.or_eq_false_iff, decide_eq_false_iff_not]
      exact ⟨by decide, by omega⟩
    rw [analyze]
    unfold analyzeLiteral simplify
    simp only [Bool.false_eq_true, if_false, hc, ht]
    simp
  | emptyMatch => rw [analyze]; simp [emptyString]
  | beginLine => rw [analyze]; simp [emptyString]
  | endLine => rw [analyze]; simp [emptyString]
  | beginText => rw [analyze]; simp [emptyString]
  | endText => rw [analyze]; simp [emptyString]
  | wordBoundary => rw [analyze]; simp [emptyString]
  | noWordBoundary => rw [analyze]; simp [emptyString]
  | _ => exact absurd h (by simp [Short])

end RegexpInfo

/-! ## The slices -/

variable {grow : Nat → Nat → Nat} {orbit : Rune → List Rune}

theorem none_ref {st st' : HSt} {i : HInfo} {v : RegexpInfo} (h : Ref st st' i v) : i.exact = none ↔ v.exact = none := by
  have := congrArg RegexpInfo.exact h.val
  rw [← this]
  unfold absI
  simp

theorem hsimplify_none {h : Heap} {i : HInfo} (hn : i.exact = none) (f : Bool) : (HInfo.simplify grow h i f).2.exact = none := by
  unfold HInfo.simplify
  rw [hn]
  exact hn

theorem halternate_first {x y : HInfo} {st : HSt} (hx : x.exact = none) : (HInfo.alternate grow x y st).1.hazard = st.hazard ∧
    (HInfo.alternate grow x y st).2.exact = none := by
  obtain ⟨xc, xe, xp, xu, xm⟩ := x
  obtain ⟨yc, ye, yp, yu, ym⟩ := y
  cases hx
  cases ye
  · refine ⟨rfl, ?_⟩
    simp only [HInfo.alternate]
    exact hsimplify_none rfl _
  · refine ⟨rfl, ?_⟩
    simp only [HInfo.alternate]
    exact hsimplify_none rfl _

theorem halternate_later {x y : HInfo} {st : HSt} (hy : y.exact ≠ none) : (HInfo.alternate grow x y st).1.hazard = st.hazard := by
  obtain ⟨xc, xe, xp, xu, xm⟩ := x
  obtain ⟨yc, ye, yp, yu, ym⟩ := y
  cases ye with
  | none => exact absurd rfl hy
  | some b => cases xe <;> rfl

mutual
theorem analyze_longFirst : ∀ (re : Re) (st : HSt), LongFirst re → st.hazard = false → (HInfo.analyze grow orbit re st).1.hazard = false
  | .noMatch, _, _, h => h
  | .emptyMatch, _, _, h => h
  | .beginLine, _, _, h => h
  | .endLine, _, _, h => h
  | .beginText, _, _, h => h
  | .endText, _, _, h => h
  | .wordBoundary, _, _, h => h
  | .noWordBoundary, _, _, h => h
  | .literal _ _, _, _, h => by rw [HInfo.analyze, analyzeLiteral_hz]; exact h
  | .anyCharNotNL, _, _, h => h
  | .anyChar, _, _, h => h
  | .capture r, st, hl, h => by rw [LongFirst] at hl; rw [HInfo.analyze]; exact analyze_longFirst r st hl h
  | .concat [], _, _, h => h
  | .concat (r :: rs), st, hl, h => by
    rw [LongFirst, LongFirstL] at hl
    simp only [HInfo.analyze]
    exact foldConcat_longFirst rs _ _ hl.2 (analyze_longFirst r st hl.1 h)
  | .alternate [], _, _, h => h
  | .alternate (r :: rs), st, hl, h => by
    rw [LongFirst, LongFirstL] at hl
    obtain ⟨⟨h1, h2⟩, h3⟩ := hl
    simp only [HInfo.analyze]
    have h4 := analyze_longFirst r st h1 h
    refine foldAlternate_longFirst rs _ _ h2 ?_ h4
    rcases h3 r rs rfl with h3 | h3
    · exact .inl ((none_ref (analyze_ref r st h4)).2 (RegexpInfo.long_none r h3))
    · exact .inr h3
  | .quest r, st, hl, h => by
    rw [LongFirst] at hl
    simp only [HInfo.analyze]
    rw [alternate_emptyString_hz]
    exact analyze_longFirst r st hl h
  | .star _, _, _, h => h
  | .rep r lo _, st, hl, h => by
    rw [LongFirst] at hl
    simp only [HInfo.analyze]
    split
    · exact h
    · rw [analyzePlus_hz]; exact analyze_longFirst r st hl h
  | .plus r, st, hl, h => by
    rw [LongFirst] at hl
    simp only [HInfo.analyze]
    rw [analyzePlus_hz]; exact analyze_longFirst r st hl h
  | .charClass _, _, _, h => by rw [HInfo.analyze, analyzeClass_hz]; exact h
theorem foldConcat_longFirst : ∀ (rs : List Re) (x : HInfo) (st : HSt), LongFirstL rs → st.hazard = false →
    (HInfo.foldConcat grow orbit rs x st).1.hazard = false
  | [], _, _, _, h => h
  | r :: rs, x, st, hl, h => by
    rw [LongFirstL] at hl
    simp only [HInfo.foldConcat]
    refine foldConcat_longFirst rs _ _ hl.2 ?_
    rw [concat_hz]
    exact analyze_longFirst r st hl.1 h
theorem foldAlternate_longFirst : ∀ (rs : List Re) (x : HInfo) (st : HSt), LongFirstL rs → (x.exact = none ∨ ∀ s ∈ rs, Short s) → st.hazard = false →
    (HInfo.foldAlternate grow orbit rs x st).1.hazard = false
  | [], _, _, _, _, h => h
  | r :: rs, x, st, hl, hx, h => by
    rw [LongFirstL] at hl
    simp only [HInfo.foldAlternate]
    have h1 : (HInfo.analyze grow orbit r st).1.hazard = false := analyze_longFirst r st hl.1 h
    rcases hx with hx | hx
    · obtain ⟨g1, g2⟩ := halternate_first (grow := grow) (y := (HInfo.analyze grow orbit r st).2) (st := (HInfo.analyze grow orbit r st).1) hx
      exact foldAlternate_longFirst rs _ _ hl.2 (.inl g2) (g1.trans h1)
    · have hy : (HInfo.analyze grow orbit r st).2.exact ≠ none :=
        fun h0 => RegexpInfo.short_some (hx r List.mem_cons_self) ((none_ref (analyze_ref r st h1)).1 h0)
      refine foldAlternate_longFirst rs _ _ hl.2 (.inr fun s hs => hx s (List.mem_cons_of_mem _ hs)) ?_
      rw [halternate_later hy]
      exact h1
end

/-- The flag stays down. -/
theorem regexpQuery_longFirst {re : Re} (h : LongFirst re) : (HInfo.regexpQuery grow orbit re).2 = false := by
  simp only [HInfo.regexpQuery]
  exact analyze_longFirst re _ h rfl

end Hound
