import Verif.Proofs.HeapRefine

/-!
When the hazard flag of the heap model of `RegexpQuery` stays down, its answer is the one of the
value model.
-/

namespace Hound
open HInfo

variable {grow : Nat → Nat → Nat} {orbit : Rune → List Rune}

theorem alternate_hz {x y : HInfo} {st : HSt} (h : (HInfo.alternate grow x y st).1.hazard = false) :
    st.hazard = false := by
  obtain ⟨xc, xe, xp, xu, xm⟩ := x
  obtain ⟨yc, ye, yp, yu, ym⟩ := y
  cases xe <;> cases ye <;> simp only [HInfo.alternate] at h <;> first | exact h | skip
  simp only [Bool.or_eq_false_iff] at h
  exact h.1.1

theorem analyzeClass_hz {rs} {st : HSt} : (HInfo.analyzeClass grow rs st).1.hazard = st.hazard := by
  unfold HInfo.analyzeClass
  split
  · rfl
  split <;> rfl

theorem analyzeFolds_hz : ∀ (rs : List Rune) (x : HInfo) (st : HSt),
    (HInfo.analyzeFolds grow orbit rs x st).1.hazard = st.hazard
  | [], _, _ => rfl
  | r :: rs, x, st => by
    simp only [HInfo.analyzeFolds]
    rw [analyzeFolds_hz rs]
    exact analyzeClass_hz

theorem analyzeLiteral_hz {rs f} {st : HSt} :
    (HInfo.analyzeLiteral grow orbit rs f st).1.hazard = st.hazard := by
  unfold HInfo.analyzeLiteral
  split
  · split
    · rfl
    · exact analyzeClass_hz
    · exact analyzeFolds_hz _ _ _
  · rfl

theorem analyzePlus_hz {x} {st : HSt} : (HInfo.analyzePlus grow x st).1.hazard = st.hazard := by
  unfold HInfo.analyzePlus
  split <;> rfl

theorem emptyString_hz {st : HSt} : (emptyString st).1.hazard = st.hazard := rfl

theorem concat_hz {x y} {st : HSt} : (HInfo.concat grow x y st).1.hazard = st.hazard := rfl

mutual
theorem analyze_hz : ∀ (re : Re) (st : HSt),
    (HInfo.analyze grow orbit re st).1.hazard = false → st.hazard = false
  | .noMatch, _, h => h
  | .emptyMatch, _, h => h
  | .beginLine, _, h => h
  | .endLine, _, h => h
  | .beginText, _, h => h
  | .endText, _, h => h
  | .wordBoundary, _, h => h
  | .noWordBoundary, _, h => h
  | .literal _ _, _, h => by
    simp only [HInfo.analyze] at h
    rwa [analyzeLiteral_hz] at h
  | .anyCharNotNL, _, h => h
  | .anyChar, _, h => h
  | .capture r, st, h => by
    simp only [HInfo.analyze] at h
    exact analyze_hz r st h
  | .concat [], _, h => h
  | .concat (r :: rs), st, h => by
    simp only [HInfo.analyze] at h
    have h0 := foldConcat_hz rs _ _ h
    exact analyze_hz r st h0
  | .alternate [], _, h => h
  | .alternate (r :: rs), st, h => by
    simp only [HInfo.analyze] at h
    have h0 := foldAlternate_hz rs _ _ h
    exact analyze_hz r st h0
  | .quest r, st, h => by
    simp only [HInfo.analyze] at h
    have h0 := alternate_hz h
    rw [emptyString_hz] at h0
    exact analyze_hz r st h0
  | .star _, _, h => h
  | .rep r lo _, st, h => by
    simp only [HInfo.analyze] at h
    split at h
    · exact h
    · rw [analyzePlus_hz] at h; exact analyze_hz r st h
  | .plus r, st, h => by
    simp only [HInfo.analyze] at h
    rw [analyzePlus_hz] at h; exact analyze_hz r st h
  | .charClass _, _, h => by
    simp only [HInfo.analyze] at h
    rwa [analyzeClass_hz] at h
theorem foldConcat_hz : ∀ (rs : List Re) (x : HInfo) (st : HSt),
    (HInfo.foldConcat grow orbit rs x st).1.hazard = false → st.hazard = false
  | [], _, _, h => h
  | r :: rs, x, st, h => by
    simp only [HInfo.foldConcat] at h
    have h0 := foldConcat_hz rs _ _ h
    rw [concat_hz] at h0
    exact analyze_hz r st h0
theorem foldAlternate_hz : ∀ (rs : List Re) (x : HInfo) (st : HSt),
    (HInfo.foldAlternate grow orbit rs x st).1.hazard = false → st.hazard = false
  | [], _, _, h => h
  | r :: rs, x, st, h => by
    simp only [HInfo.foldAlternate] at h
    have h0 := foldAlternate_hz rs _ _ h
    have h1 := alternate_hz h0
    exact analyze_hz r st h1
end

mutual
theorem analyze_ref : ∀ (re : Re) (st : HSt),
    (HInfo.analyze grow orbit re st).1.hazard = false →
    Ref st (HInfo.analyze grow orbit re st).1 (HInfo.analyze grow orbit re st).2
      (RegexpInfo.analyze orbit re)
  | .noMatch, _, h => noMatch_ref h
  | .emptyMatch, _, h => emptyString_ref h
  | .beginLine, _, h => emptyString_ref h
  | .endLine, _, h => emptyString_ref h
  | .beginText, _, h => emptyString_ref h
  | .endText, _, h => emptyString_ref h
  | .wordBoundary, _, h => emptyString_ref h
  | .noWordBoundary, _, h => emptyString_ref h
  | .literal _ _, st, h => by
    simp only [HInfo.analyze, RegexpInfo.analyze] at h ⊢
    rw [analyzeLiteral_hz] at h
    exact analyzeLiteral_ref h
  | .anyCharNotNL, _, h => anyChar_ref h
  | .anyChar, _, h => anyChar_ref h
  | .capture r, st, h => by
    simp only [HInfo.analyze, RegexpInfo.analyze] at h ⊢
    exact analyze_ref r st h
  | .concat [], _, h => emptyString_ref h
  | .concat (r :: rs), st, h => by
    simp only [HInfo.analyze, RegexpInfo.analyze, RegexpInfo.analyzeList, RegexpInfo.foldInfos] at h ⊢
    have h0 := foldConcat_hz rs _ _ h
    exact foldConcat_ref rs (analyze_ref r st h0) h
  | .alternate [], _, h => noMatch_ref h
  | .alternate (r :: rs), st, h => by
    simp only [HInfo.analyze, RegexpInfo.analyze, RegexpInfo.analyzeList, RegexpInfo.foldInfos] at h ⊢
    have h0 := foldAlternate_hz rs _ _ h
    exact foldAlternate_ref rs (analyze_ref r st h0) h
  | .quest r, st, h => by
    simp only [HInfo.analyze, RegexpInfo.analyze] at h ⊢
    have h0 := alternate_hz h
    rw [emptyString_hz] at h0
    exact alternate_ref (analyze_ref r st h0) (emptyString_ref h0) h
  | .star _, _, h => anyMatch_ref h
  | .rep r lo _, st, h => by
    simp only [HInfo.analyze, RegexpInfo.analyze] at h ⊢
    split
    · rename_i hl
      rw [if_pos hl] at h
      exact anyMatch_ref h
    · rename_i hl
      rw [if_neg hl, analyzePlus_hz] at h
      exact analyzePlus_ref (analyze_ref r st h)
  | .plus r, st, h => by
    simp only [HInfo.analyze, RegexpInfo.analyze] at h ⊢
    rw [analyzePlus_hz] at h
    exact analyzePlus_ref (analyze_ref r st h)
  | .charClass _, _, h => by
    simp only [HInfo.analyze, RegexpInfo.analyze] at h ⊢
    rw [analyzeClass_hz] at h
    exact analyzeClass_ref h
theorem foldConcat_ref : ∀ (rs : List Re) {st st1 : HSt} {x : HInfo} {v : RegexpInfo},
    Ref st st1 x v →
    (HInfo.foldConcat grow orbit rs x st1).1.hazard = false →
    Ref st (HInfo.foldConcat grow orbit rs x st1).1 (HInfo.foldConcat grow orbit rs x st1).2
      ((RegexpInfo.analyzeList orbit rs).foldl RegexpInfo.concat v)
  | [], _, _, _, _, hx, _ => hx
  | r :: rs, st, st1, x, v, hx, h => by
    simp only [HInfo.foldConcat, RegexpInfo.analyzeList, List.foldl_cons] at h ⊢
    have h1 := foldConcat_hz rs _ _ h
    rw [concat_hz] at h1
    exact foldConcat_ref rs (concat_ref hx (analyze_ref r st1 h1)) h
theorem foldAlternate_ref : ∀ (rs : List Re) {st st1 : HSt} {x : HInfo} {v : RegexpInfo},
    Ref st st1 x v →
    (HInfo.foldAlternate grow orbit rs x st1).1.hazard = false →
    Ref st (HInfo.foldAlternate grow orbit rs x st1).1 (HInfo.foldAlternate grow orbit rs x st1).2
      ((RegexpInfo.analyzeList orbit rs).foldl RegexpInfo.alternate v)
  | [], _, _, _, _, hx, _ => hx
  | r :: rs, st, st1, x, v, hx, h => by
    simp only [HInfo.foldAlternate, RegexpInfo.analyzeList, List.foldl_cons] at h ⊢
    have h1 := foldAlternate_hz rs _ _ h
    have h2 := alternate_hz h1
    exact foldAlternate_ref rs (alternate_ref hx (analyze_ref r st1 h2) h1) h
end

theorem regexpQuery_refines {re : Re} (h : (HInfo.regexpQuery grow orbit re).2 = false) :
    (HInfo.regexpQuery grow orbit re).1 = RegexpInfo.regexpQuery orbit re := by
  simp only [HInfo.regexpQuery] at h ⊢
  have r := analyze_ref re _ h
  obtain ⟨a, b⟩ := simplify_spec (grow := grow) (f := true) r.step.sep
  rw [r.val] at b
  unfold RegexpInfo.regexpQuery
  rw [← b]
  obtain ⟨c, e, p, u, m⟩ := (simplify grow (HInfo.analyze grow orbit re ⟨⟨[]⟩, false⟩).1.heap
    (HInfo.analyze grow orbit re ⟨⟨[]⟩, false⟩).2 true).2
  cases e <;> rfl

/-! ## Patterns without `|` never raise the flag -/

mutual
/-- No alternation operator anywhere in the pattern. -/
def Spec.NoAlternate : Re → Prop
  | .alternate _ => False
  | .capture r | .star r | .plus r | .quest r | .rep r _ _ => Spec.NoAlternate r
  | .concat rs => Spec.NoAlternateL rs
  | _ => True
def Spec.NoAlternateL : List Re → Prop
  | [] => True
  | r :: rs => Spec.NoAlternate r ∧ Spec.NoAlternateL rs
end

theorem alternate_emptyString_hz {x : HInfo} {st : HSt} :
    (HInfo.alternate grow x (emptyString st).2 (emptyString st).1).1.hazard = st.hazard := by
  obtain ⟨xc, xe, xp, xu, xm⟩ := x
  cases xe <;> simp [HInfo.alternate, HInfo.emptyString]

open Spec in
mutual
theorem analyze_noalt : ∀ (re : Re) (st : HSt), NoAlternate re →
    (HInfo.analyze grow orbit re st).1.hazard = st.hazard
  | .noMatch, _, _ => rfl
  | .emptyMatch, _, _ => rfl
  | .beginLine, _, _ => rfl
  | .endLine, _, _ => rfl
  | .beginText, _, _ => rfl
  | .endText, _, _ => rfl
  | .wordBoundary, _, _ => rfl
  | .noWordBoundary, _, _ => rfl
  | .literal _ _, _, _ => by simp only [HInfo.analyze]; exact analyzeLiteral_hz
  | .anyCharNotNL, _, _ => rfl
  | .anyChar, _, _ => rfl
  | .capture r, st, h => by simp only [HInfo.analyze]; exact analyze_noalt r st (by simpa [NoAlternate] using h)
  | .concat [], _, _ => rfl
  | .concat (r :: rs), st, h => by
    simp only [NoAlternate, NoAlternateL] at h
    simp only [HInfo.analyze]
    rw [foldConcat_noalt rs _ _ h.2, analyze_noalt r st h.1]
  | .alternate _, _, h => by simp [NoAlternate] at h
  | .quest r, st, h => by
    simp only [NoAlternate] at h
    simp only [HInfo.analyze]
    rw [alternate_emptyString_hz, analyze_noalt r st h]
  | .star _, _, _ => rfl
  | .rep r lo _, st, h => by
    simp only [NoAlternate] at h
    simp only [HInfo.analyze]
    split
    · rfl
    · rw [analyzePlus_hz, analyze_noalt r st h]
  | .plus r, st, h => by
    simp only [NoAlternate] at h
    simp only [HInfo.analyze]
    rw [analyzePlus_hz, analyze_noalt r st h]
  | .charClass _, _, _ => by simp only [HInfo.analyze]; exact analyzeClass_hz
theorem foldConcat_noalt : ∀ (rs : List Re) (x : HInfo) (st : HSt), NoAlternateL rs →
    (HInfo.foldConcat grow orbit rs x st).1.hazard = st.hazard
  | [], _, _, _ => rfl
  | r :: rs, x, st, h => by
    simp only [NoAlternateL] at h
    simp only [HInfo.foldConcat]
    rw [foldConcat_noalt rs _ _ h.2, concat_hz, analyze_noalt r st h.1]
end

theorem regexpQuery_noalt {re : Re} (h : Spec.NoAlternate re) :
    (HInfo.regexpQuery grow orbit re).2 = false := by
  simp only [HInfo.regexpQuery]
  exact analyze_noalt re _ h

end Hound
