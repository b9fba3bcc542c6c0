import Verif.Proofs.ParseLoop
import Verif.Spec.GoTree

/-!
# What the trees of the parser are made of
-/

namespace Hound.GoRe
open Hound.Spec Hound.Spec.Pat

mutual
/-- The characters and sets of a tree are of `L` and `C`, every repetition `x{n,m}` has `n ≤ m`, and if there is a `\A`, then `B`. -/
def Made (B : Prop) (L : Rune → Bool → Prop) (C : (Rune → Prop) → Prop) : Syn → Prop
  | .literal rs f => ∀ x ∈ rs, x ≤ maxRune ∧ L x f
  | .charClass r => ROk r ∧ C (InR r)
  | .capture _ _ s => Made B L C s
  | .star _ s => Made B L C s
  | .plus _ s => Made B L C s
  | .quest _ s => Made B L C s
  | .rep _ s lo hi => (∀ h, hi = some h → lo ≤ h) ∧ Made B L C s
  | .concat ss => MadeAll B L C ss
  | .alternate ss => MadeAll B L C ss
  | .beginText => B
  | _ => True
/-- The same for a list. -/
def MadeAll (B : Prop) (L : Rune → Bool → Prop) (C : (Rune → Prop) → Prop) : List Syn → Prop
  | [] => True
  | s :: ss => Made B L C s ∧ MadeAll B L C ss
end

/-- What the parser's operations need of `L` and `C`. -/
structure Marks (orbit : Rune → List Rune) (L : Rune → Bool → Prop) (C : (Rune → Prop) → Prop) : Prop where
  union : ∀ S S', C S → C S' → C (fun x => S x ∨ S' x)
  lit : ∀ x f, L x f → C (FoldsTo orbit f x)
  one : ∀ a, C (· = a) → L a false
  same : ∀ a, orbit a = [] → C (· = a) → L a true
  two : ∀ a c, orbit a = [c] → C (fun x => x = a ∨ x = c) → L a true

variable {T : Tables} {B : Prop} {L : Rune → Bool → Prop} {C : (Rune → Prop) → Prop} {uni : Bytes → Option (Rune → Prop)}

theorem madeAll_iff : ∀ {ss : List Syn}, MadeAll B L C ss ↔ ∀ s ∈ ss, Made B L C s
  | [] => by simp [MadeAll]
  | s :: ss => by rw [MadeAll, madeAll_iff]; simp

theorem class_congr {S S' : Rune → Prop} (h : ∀ x, S x ↔ S' x) (hS : C S) : C S' := by
  rwa [← show S = S' from funext fun x => propext (h x)]

/-- A character or class is of `C`, or one of the two that match nearly everything. -/
theorem made_class (hm : Marks T.orbit L C) {s : Syn} (hs : isCharClass s = true) (h : Made B L C s) :
    s = .anyChar ∨ s = .anyCharNotNL ∨ C (CharSet T.orbit s) := by
  unfold isCharClass at hs
  split at hs
  · simp only [Made, List.mem_singleton, forall_eq] at h
    exact .inr (.inr (hm.lit _ _ h.2))
  · simp only [Made] at h
    exact .inr (.inr h.2)
  · exact .inr (.inl rfl)
  · exact .inl rfl
  · exact absurd hs (by decide)

theorem made_merge (hc : FoldCycles T.orbit) (hm : Marks T.orbit L C) {a b : Syn} (ha : isCharClass a = true) (hb : isCharClass b = true)
    (hr : charRank b ≤ charRank a) (h1 : Made B L C a) (h2 : Made B L C b) : Made B L C (mergeCharClass T.orbit a b) := by
  unfold isCharClass at ha
  split at ha
  · rename_i x f
    unfold isCharClass at hb
    split at hb
    · rename_i y g
      simp only [mergeCharClass]
      split
      · exact h1
      · simp only [Made, List.mem_singleton, forall_eq] at h1 h2 ⊢
        obtain ⟨k1, k2⟩ := appendLiteral_spec hc.bounds (f := f) ROk_nil h1.1
        obtain ⟨k3, k4⟩ := appendLiteral_spec hc.bounds (f := g) k1 h2.1
        refine ⟨k3, class_congr (fun z => ?_) (hm.union _ _ (hm.lit _ _ h1.2) (hm.lit _ _ h2.2))⟩
        rw [k4, k2]
        simp [InR_nil]
    · exact absurd hr (by simp [charRank])
    · exact absurd hr (by simp [charRank])
    · exact absurd hr (by simp [charRank])
    · exact absurd hb (by decide)
  · rename_i r
    unfold isCharClass at hb
    split at hb
    · rename_i y g
      simp only [mergeCharClass]
      simp only [Made, List.mem_singleton, forall_eq] at h1 h2 ⊢
      obtain ⟨k3, k4⟩ := appendLiteral_spec hc.bounds (f := g) h1.1 h2.1
      refine ⟨k3, class_congr (fun z => ?_) (hm.union _ _ h1.2 (hm.lit _ _ h2.2))⟩
      rw [k4]
    · rename_i x
      simp only [mergeCharClass]
      simp only [Made] at h1 h2 ⊢
      obtain ⟨k3, k4⟩ := appendClass_spec x h1.1 h2.1
      refine ⟨k3, class_congr (fun z => ?_) (hm.union _ _ h1.2 h2.2)⟩
      rw [k4]
    · exact absurd hr (by simp [charRank])
    · exact absurd hr (by simp [charRank])
    · exact absurd hb (by decide)
  · simp only [mergeCharClass]
    split <;> simp [Made]
  · simp only [mergeCharClass]
    simp [Made]
  · exact absurd ha (by decide)

theorem made_asLiteral (hc : FoldCycles T.orbit) (hm : Marks T.orbit L C) {r : Ranges} (h : Made B L C (.charClass r)) :
    Made B L C (asLiteral T (.charClass r)) := by
  have h' := h
  simp only [Made] at h'
  unfold asLiteral
  split
  · rename_i a b e
    rw [Syn.charClass.injEq] at e
    subst e
    have hb : b ≤ maxRune := (h'.1 (a, b) (by simp)).2
    split
    · rename_i e
      subst e
      simp only [Made, List.mem_singleton, forall_eq]
      refine ⟨hb, hm.one a (class_congr (fun x => ?_) h'.2)⟩
      rw [InR_cons]
      simp only [InR_nil, or_false]
      exact one_iff
    · rename_i hne
      split
      · rename_i k
        simp only [Made, List.mem_singleton, forall_eq]
        refine ⟨Nat.le_trans (h'.1 (a, b) (by simp)).1 hb, hm.two a b (simpleFold_pair hc k.2.1 k.2.2 hne) (class_congr (fun x => ?_) h'.2)⟩
        rw [InR_cons]
        simp only [InR_nil, or_false]
        exact two_iff k.1
      · exact h
  · rename_i a b c d e
    rw [Syn.charClass.injEq] at e
    subst e
    have hb : b ≤ maxRune := (h'.1 (a, b) (by simp)).2
    split
    · rename_i k
      obtain ⟨rfl, rfl, k1, k2⟩ := k
      have hset : ∀ x, InR [(a, a), (c, c)] x ↔ x = a ∨ x = c := fun x => by
        rw [InR_cons, InR_cons]
        simp only [InR_nil, or_false]
        rw [one_iff, one_iff]
      simp only [Made, List.mem_singleton, forall_eq]
      refine ⟨hb, ?_⟩
      by_cases hne : a = c
      · subst hne
        exact hm.same a (simpleFold_nil hc k1) (class_congr (fun x => by rw [hset, or_self]) h'.2)
      · exact hm.two a c (simpleFold_pair hc k1 k2 hne) (class_congr hset h'.2)
    · exact h
  · exact h

theorem made_keeper (hc : FoldCycles T.orbit) (hm : Marks T.orbit L C) : Keeper T (Made B L C) where
  cat ss := by rw [Made, madeAll_iff]
  empty := by simp [Made]
  none := by simp [Made]
  any := by simp [Made]
  anyNL := by simp [Made]
  lits a b f := by
    simp only [Made, List.mem_append]
    exact ⟨fun h => ⟨fun x hx => h x (.inl hx), fun x hx => h x (.inr hx)⟩, fun h x hx => hx.elim (h.1 x) (h.2 x)⟩
  bound r f h := by
    simp only [Made, List.mem_singleton, forall_eq] at h
    exact h.1
  ranges r h := by
    rw [Made] at h
    exact h.1
  clean r h := by
    rw [Made] at h ⊢
    obtain ⟨k1, -, k2⟩ := cleanClass_spec h.1
    exact ⟨k1, class_congr (fun x => (k2 x).symm) h.2⟩
  asLit r h := made_asLiteral hc hm h
  bol := by simp [Made]
  eol := by simp [Made]
  eot b := by simp [Made]
  wb := by simp [Made]
  nwb := by simp [Made]
  cap n name s h := by rwa [Made]
  star ng s h := by rwa [Made]
  plus ng s h := by rwa [Made]
  quest ng s h := by rwa [Made]
  rep ng s lo hi hb h := by rw [Made]; exact ⟨hb, h⟩

mutual
theorem Made.mono {L' : Rune → Bool → Prop} {C' : (Rune → Prop) → Prop} (hL : ∀ x f, L x f → L' x f) (hC : ∀ S, C S → C' S) :
    ∀ s, Made B L C s → Made B L' C' s
  | .literal rs f, h => by
    rw [Made] at h ⊢
    exact fun x hx => ⟨(h x hx).1, hL _ _ (h x hx).2⟩
  | .charClass r, h => by
    rw [Made] at h ⊢
    exact ⟨h.1, hC _ h.2⟩
  | .capture _ _ s, h | .star _ s, h | .plus _ s, h | .quest _ s, h => by
    rw [Made] at h ⊢
    exact Made.mono hL hC s h
  | .rep _ s _ _, h => by
    rw [Made] at h ⊢
    exact ⟨h.1, Made.mono hL hC s h.2⟩
  | .concat ss, h | .alternate ss, h => by
    rw [Made] at h ⊢
    exact MadeAll.mono hL hC ss h
  | .beginText, h => by
    rw [Made] at h ⊢
    exact h
  | .noMatch, _ | .emptyMatch, _ | .anyCharNotNL, _ | .anyChar, _ | .beginLine, _ | .endLine, _ | .endText _, _
  | .wordBoundary, _ | .noWordBoundary, _ => by simp [Made]
theorem MadeAll.mono {L' : Rune → Bool → Prop} {C' : (Rune → Prop) → Prop} (hL : ∀ x f, L x f → L' x f) (hC : ∀ S, C S → C' S) :
    ∀ ss, MadeAll B L C ss → MadeAll B L' C' ss
  | [], _ => by simp [MadeAll]
  | s :: ss, h => by
    rw [MadeAll] at h ⊢
    exact ⟨Made.mono hL hC s h.1, MadeAll.mono hL hC ss h.2⟩
end

mutual
theorem made_bounded : ∀ s, Made B L C s → Bounded s
  | .capture _ _ s, h | .star _ s, h | .plus _ s, h | .quest _ s, h => by
    rw [Made] at h
    rw [Bounded]
    exact made_bounded s h
  | .rep _ s _ _, h => by
    rw [Made] at h
    rw [Bounded]
    exact ⟨made_bounded s h.2, h.1⟩
  | .concat ss, h | .alternate ss, h => by
    rw [Made] at h
    rw [Bounded]
    exact made_boundedL ss h
  | .noMatch, _ | .emptyMatch, _ | .anyCharNotNL, _ | .anyChar, _ | .beginLine, _ | .endLine, _ | .beginText, _ | .endText _, _
  | .wordBoundary, _ | .noWordBoundary, _ | .literal _ _, _ | .charClass _, _ => by simp [Bounded]
theorem made_boundedL : ∀ ss, MadeAll B L C ss → BoundedL ss
  | [], _ => by simp [BoundedL]
  | s :: ss, h => by
    rw [MadeAll] at h
    rw [BoundedL]
    exact ⟨made_bounded s h.1, made_boundedL ss h.2⟩
end

theorem eqv_rep {orbit : Rune → List Rune} {s s' : Syn} (h : Eqv orbit s s') (ng ng' : Bool) (lo : Nat) (hi : Option Nat) :
    Eqv orbit (.rep ng s lo hi) (.rep ng' s' lo hi) := by
  intro w i j
  have e : MatchAt orbit w s.re = MatchAt orbit w s'.re := funext fun i => funext fun j => propext (h w i j)
  simp only [SynAt, Syn.re, MatchAt, e]

theorem made_charEqual (hL : ∀ x f g, L x f → L x g → f ≠ g → T.equalFold = false → T.orbit x = []) {a b : Syn}
    (hs : isCharClass a = true) (h : charEqual T.equalFold a b = true) (ha : Made B L C a) (hb : Made B L C b) : Eqv T.orbit a b := by
  unfold isCharClass at hs
  split at hs
  · rename_i x f
    unfold charEqual at h
    split at h
    · rename_i a' f' b' g' e1
      rw [Syn.literal.injEq] at e1
      obtain ⟨rfl, rfl⟩ := e1
      simp only [Bool.and_eq_true, beq_iff_eq, Bool.or_eq_true, Bool.not_eq_true'] at h
      obtain ⟨rfl, h2⟩ := h
      simp only [Made, List.mem_singleton, forall_eq] at ha hb
      by_cases hfg : f = g'
      · subst hfg
        exact fun _ _ _ => Iff.rfl
      · have ho := hL x f g' ha.2 hb.2 hfg (h2.resolve_right hfg)
        intro w i j
        rw [charSet_at rfl, charSet_at rfl]
        simp only [CharSet, FoldsTo, ho, List.not_mem_nil, and_false, or_false]
    all_goals simp_all
  · rename_i r
    unfold charEqual at h
    split at h
    all_goals simp_all
    exact fun _ _ _ => Iff.rfl
  · unfold charEqual at h
    split at h
    all_goals simp_all
    exact fun _ _ _ => Iff.rfl
  · unfold charEqual at h
    split at h
    all_goals simp_all
    exact fun _ _ _ => Iff.rfl
  · exact absurd hs (by decide)

theorem made_agrees (hL : ∀ x f g, L x f → L x g → f ≠ g → T.equalFold = false → T.orbit x = []) : Agrees T (Made B L C) := by
  intro a b h ha hb
  unfold sameLead at h
  split at h
  · simp only [Bool.and_eq_true, beq_iff_eq] at h
    obtain ⟨⟨⟨⟨⟨rfl, rfl⟩, rfl⟩, -⟩, hs⟩, he⟩ := h
    rw [Made] at ha hb
    exact eqv_rep (made_charEqual hL hs he ha.2 hb.2) _ _ _ _
  · simp only [Bool.and_eq_true] at h
    exact made_charEqual hL h.1 h.2 ha hb

theorem made_many (hc : FoldCycles T.orbit) (hm : Marks T.orbit L C)
    (hL : ∀ x f g, L x f → L x g → f ≠ g → T.equalFold = false → T.orbit x = []) : Many T (Made B L C) where
  alt ss := by rw [Made, madeAll_iff]
  merge a b ha hb hr h1 h2 := made_merge hc hm ha hb hr h1 h2
  lead := made_agrees hL

mutual
theorem made_noBegin : ∀ s, Made False L C s → NoBeginTextTree s
  | .capture _ _ s, h | .star _ s, h | .plus _ s, h | .quest _ s, h => by
    rw [Made] at h
    rw [NoBeginTextTree]
    exact made_noBegin s h
  | .rep _ s _ _, h => by
    rw [Made] at h
    rw [NoBeginTextTree]
    exact made_noBegin s h.2
  | .concat ss, h | .alternate ss, h => by
    rw [Made] at h
    rw [NoBeginTextTree]
    exact made_noBeginL ss h
  | .beginText, h => by
    rw [Made] at h
    exact h.elim
  | .noMatch, _ | .emptyMatch, _ | .anyCharNotNL, _ | .anyChar, _ | .beginLine, _ | .endLine, _ | .endText _, _
  | .wordBoundary, _ | .noWordBoundary, _ | .literal _ _, _ | .charClass _, _ => by simp [NoBeginTextTree]
theorem made_noBeginL : ∀ ss, MadeAll False L C ss → NoBeginTextTreeL ss
  | [], _ => by simp [NoBeginTextTreeL]
  | s :: ss, h => by
    rw [MadeAll] at h
    rw [NoBeginTextTreeL]
    exact ⟨made_noBegin s h.1, made_noBeginL ss h.2⟩
end

/-! ## The three kinds of trees -/

/-- No more than being within the code points. -/
def anyL (_ : Rune) (_ : Bool) : Prop := True
/-- The same for sets. -/
def anyC (_ : Rune → Prop) : Prop := True

theorem marks_any (orbit : Rune → List Rune) : Marks orbit anyL anyC := by
  constructor <;> intros <;> trivial

theorem minFoldRune_le (orbit : Rune → List Rune) (r : Rune) : minFoldRune orbit r ≤ r := by
  have : ∀ (l : List Rune) (a : Nat), l.foldl min a ≤ a := by
    intro l
    induction l with
    | nil => exact fun a => Nat.le_refl _
    | cons x l ih => exact fun a => Nat.le_trans (ih _) (Nat.min_le_left _ _)
  exact this _ _

theorem leaves_any (hc : FoldCycles T.orbit) : Leaves T (Made B anyL anyC) (fun _ _ => True) (fun _ _ => True) where
  char f r hr _ := by
    simp only [Made, List.mem_singleton, forall_eq]
    refine ⟨?_, trivial⟩
    split
    · exact Nat.le_trans (minFoldRune_le _ _) hr
    · exact hr
  set f r S hr _ _ _ _ := by
    refine asLiteral_keeps (made_keeper hc (marks_any _)).toKeepsAll ?_
    rw [Made]
    exact ⟨hr, trivial⟩

/-- Case does not matter to it. -/
def foldL (orbit : Rune → List Rune) (x : Rune) (f : Bool) : Prop := f = true ∨ orbit x = []

theorem marks_fold {orbit : Rune → List Rune} (hc : FoldCycles orbit) : Marks orbit (foldL orbit) (Closed orbit) where
  union S S' h h' x y hy hx := hx.imp (h x y hy) (h' x y hy)
  lit x f h := by
    intro y z hz hy
    rcases hy with rfl | ⟨hf, hy⟩
    · rcases h with rfl | h
      · exact .inr ⟨rfl, hz⟩
      · rw [h] at hz; exact absurd hz (by simp)
    · refine ((hc.same x y hy z).1 (.inr hz)).imp id fun h => ⟨hf, h⟩
  one a h := by
    refine .inr (List.eq_nil_iff_forall_not_mem.2 fun y hy => ?_)
    have := h a y hy rfl
    rw [this] at hy
    exact hc.self a hy
  same a ho _ := .inl rfl
  two a c _ _ := .inl rfl

theorem agree_fold (x : Rune) (f g : Bool) (h1 : foldL T.orbit x f) (h2 : foldL T.orbit x g) (hne : f ≠ g) (_ : T.equalFold = false) : T.orbit x = [] := by
  rcases h1 with h1 | h1
  · rcases h2 with h2 | h2
    · exact absurd (h1.trans h2.symm) hne
    · exact h2
  · exact h1

theorem orbit_le (hc : FoldCycles T.orbit) {x y : Rune} (h : y ∈ T.orbit x) : x ≤ maxRune ∧ y ≤ maxRune :=
  have := hc.bounds x y h
  ⟨Nat.le_trans this.1.2 maxFold_le, Nat.le_trans this.2.2 maxFold_le⟩

theorem leaves_fold (hc : FoldCycles T.orbit) :
    Leaves T (Made B (foldL T.orbit) (Closed T.orbit)) (fun f _ => f = true) (fun f _ => f = true) where
  char f r hr h := by
    simp only [Made, List.mem_singleton, forall_eq]
    rw [h]
    exact ⟨Nat.le_trans (minFoldRune_le _ _) hr, .inl rfl⟩
  set f r S hr _ hS hcl h := by
    refine asLiteral_keeps (made_keeper hc (marks_fold hc)).toKeepsAll ?_
    rw [Made]
    refine ⟨hr, fun x y hy hx => ?_⟩
    obtain ⟨b1, b2⟩ := orbit_le hc hy
    exact (hS y b2).2 (hcl h x y hy ((hS x b1).1 hx))

/-- Case matters, and it is of `K`. -/
def caseL (orbit : Rune → List Rune) (K : Rune → Prop) (x : Rune) (f : Bool) : Prop := K x ∧ x ≤ maxRune ∧ (f = true → orbit x = [])

/-- The same for sets. -/
def caseC (orbit : Rune → List Rune) (K : Rune → Prop) (S : Rune → Prop) : Prop := (∀ x, S x → x ≤ maxRune) ∧ SetIn orbit K S

theorem caseC_one {orbit : Rune → List Rune} {K S : Rune → Prop} (h : caseC orbit K S) {x : Rune} (hx : ∀ y, S y ↔ y = x) : K x :=
  h.2.1 x fun y => ⟨fun k => (hx y).1 k.2, fun k => ⟨h.1 y ((hx y).2 k), (hx y).2 k⟩⟩

theorem caseC_two {orbit : Rune → List Rune} {K S : Rune → Prop} (h : caseC orbit K S) {x y : Rune} (hy : y ∈ orbit x) :
    ¬ ∀ z, S z ↔ z = x ∨ z = y :=
  fun hx => h.2.2 x y hy fun z => ⟨fun k => (hx z).1 k.2, fun k => ⟨h.1 z ((hx z).2 k), (hx z).2 k⟩⟩

theorem marks_case {orbit : Rune → List Rune} (hc : FoldCycles orbit) {K : Rune → Prop} (hK : OneCase orbit K) :
    Marks orbit (caseL orbit K) (caseC orbit K) where
  union S S' h h' := by
    refine ⟨fun x hx => hx.elim (h.1 x) (h'.1 x), fun x hx => ?_, fun x y hy hx => ?_⟩
    · have hb : x ≤ maxRune ∧ (S x ∨ S' x) := (hx x).2 rfl
      have hs : ∀ y, S y → y = x := fun y hy => (hx y).1 ⟨h.1 y hy, .inl hy⟩
      have hs' : ∀ y, S' y → y = x := fun y hy => (hx y).1 ⟨h'.1 y hy, .inr hy⟩
      rcases hb.2 with k | k
      · exact caseC_one h fun y => ⟨hs y, fun e => e ▸ k⟩
      · exact caseC_one h' fun y => ⟨hs' y, fun e => e ▸ k⟩
    · have hs : ∀ z, S z → z = x ∨ z = y := fun z hz => (hx z).1 ⟨h.1 z hz, .inl hz⟩
      have hs' : ∀ z, S' z → z = x ∨ z = y := fun z hz => (hx z).1 ⟨h'.1 z hz, .inr hz⟩
      have k1 := ((hx x).2 (.inl rfl)).2
      have k2 := ((hx y).2 (.inr rfl)).2
      have n1 : ¬ (S x ∧ S y) := fun k => caseC_two h hy fun z => ⟨hs z, fun e => e.elim (fun e => e ▸ k.1) fun e => e ▸ k.2⟩
      have n2 : ¬ (S' x ∧ S' y) := fun k => caseC_two h' hy fun z => ⟨hs' z, fun e => e.elim (fun e => e ▸ k.1) fun e => e ▸ k.2⟩
      rcases k1 with k1 | k1
      · have k3 : ¬ S y := fun k => n1 ⟨k1, k⟩
        have k4 := k2.resolve_left k3
        have k5 : ¬ S' x := fun k => n2 ⟨k, k4⟩
        refine hK x y (caseC_one h fun z => ⟨fun hz => (hs z hz).resolve_right fun e => k3 (e ▸ hz), fun e => e ▸ k1⟩)
          (caseC_one h' fun z => ⟨fun hz => (hs' z hz).resolve_left fun e => k5 (e ▸ hz), fun e => e ▸ k4⟩) hy
      · have k3 : ¬ S' y := fun k => n2 ⟨k1, k⟩
        have k4 := k2.resolve_right k3
        have k5 : ¬ S x := fun k => n1 ⟨k, k4⟩
        refine hK x y (caseC_one h' fun z => ⟨fun hz => (hs' z hz).resolve_right fun e => k3 (e ▸ hz), fun e => e ▸ k1⟩)
          (caseC_one h fun z => ⟨fun hz => (hs z hz).resolve_left fun e => k5 (e ▸ hz), fun e => e ▸ k4⟩) hy
  lit x f h := by
    have e : ∀ y, FoldsTo orbit f x y ↔ y = x := fun y => by
      rw [FoldsTo]
      constructor
      · rintro (h' | ⟨hf, hy⟩)
        · exact h'
        · rw [h.2.2 hf] at hy; exact absurd hy (by simp)
      · exact .inl
    refine ⟨fun y hy => by rw [(e y).1 hy]; exact h.2.1, fun y hy => ?_, fun y z hz hy => ?_⟩
    · have := (hy x).1 ⟨h.2.1, (e x).2 rfl⟩
      rw [← this]
      exact h.1
    · have a1 := (e y).1 ((hy y).2 (.inl rfl)).2
      have a2 := (e z).1 ((hy z).2 (.inr rfl)).2
      rw [a1, a2] at hz
      exact hc.self x hz
  one a h := ⟨caseC_one h fun y => Iff.rfl, h.1 a rfl, fun h => absurd h (by decide)⟩
  same a ho h := ⟨caseC_one h fun y => Iff.rfl, h.1 a rfl, fun _ => ho⟩
  two a c ho h := absurd (fun z => Iff.rfl) (caseC_two h (x := a) (y := c) (by rw [ho]; simp))

theorem agree_case {K : Rune → Prop} (x : Rune) (f g : Bool) (h1 : caseL T.orbit K x f) (h2 : caseL T.orbit K x g) (hne : f ≠ g)
    (_ : T.equalFold = false) : T.orbit x = [] := by
  cases f with
  | true => exact h1.2.2 rfl
  | false =>
    cases g with
    | true => exact h2.2.2 rfl
    | false => exact absurd rfl hne

theorem ROk_le {r : Ranges} (h : ROk r) {x : Rune} (hx : InR r x) : x ≤ maxRune := by
  obtain ⟨p, hp, h1, h2⟩ := hx
  exact Nat.le_trans h2 (h p hp).2

theorem leaves_case (hc : FoldCycles T.orbit) {K : Rune → Prop} (hK : OneCase T.orbit K) :
    Leaves T (Made B (caseL T.orbit K) (caseC T.orbit K)) (fun f r => f = false ∧ K r) (fun f S => f = false ∧ SetIn T.orbit K S) where
  char f r hr h := by
    simp only [Made, List.mem_singleton, forall_eq]
    obtain ⟨rfl, hk⟩ := h
    exact ⟨hr, hk, hr, fun h => absurd h (by decide)⟩
  set f r S hr _ hS _ h := by
    refine asLiteral_keeps (made_keeper hc (marks_case hc hK)).toKeepsAll ?_
    rw [Made]
    have e : ∀ y, y ≤ 0x10FFFF ∧ InR r y ↔ y ≤ 0x10FFFF ∧ S y := fun y => and_congr_right fun hy => hS y hy
    refine ⟨hr, fun x hx => ROk_le hr hx, ?_, ?_⟩
    · intro x hx
      exact h.2.1 x fun y => (e y).symm.trans (hx y)
    · intro x y hy hx
      exact h.2.2 x y hy fun z => (e z).symm.trans (hx z)

/-! ## Patterns -/

section
variable (hc : FoldCycles T.orbit) (hd : Describes T uni)
include hc hd

theorem uniform_group {o : Opening} {body : Alts} {m : Mode} {next : Bytes} (h : (Atom.group o body).Ok uni next) (hu : body.Uniform T.orbit uni (o.mode m))
    (hst : body.Starts (o.mode m) → B) (hk : (Atom.group o body).copies ≤ 1000) :
    AtomRuns T (Made B anyL anyC) m (Atom.group o body).text next (Atom.group o body).copies (fun w i j => (Atom.group o body).Means T.orbit uni w m i j) := by
  rcases hu with hu | ⟨K, hK, hu⟩
  · exact (atom_runs hc hd (made_keeper hc (marks_fold hc)) (leaves_fold hc) _ h hu (by simpa [Made, Atom.Starts] using hst)
      (fun _ => made_many hc (marks_fold hc) agree_fold) hk).mono
      (Made.mono (fun _ _ _ => trivial) fun _ _ => trivial)
  · exact (atom_runs hc hd (made_keeper hc (marks_case hc hK)) (leaves_case hc hK) _ h hu (by simpa [Made, Atom.Starts] using hst)
      (fun _ => made_many hc (marks_case hc hK) agree_case) hk).mono
      (Made.mono (fun _ _ _ => trivial) fun _ _ => trivial)

mutual
theorem settled_atom : ∀ (a : Atom) {m : Mode} {next : Bytes}, a.Ok uni next → a.Settled T.orbit uni m → (a.Starts m → B) → a.copies ≤ 1000 →
    AtomRuns T (Made B anyL anyC) m a.text next a.copies (fun w i j => a.Means T.orbit uni w m i j)
  | .group o (.one s), m, next, h, hs, hst, hk => by
    simp only [Atom.Ok, Atom.Settled, Alts.Settled, Atom.text, Atom.Means, Atom.copies, Alts.copies, Atom.Starts, Alts.Starts] at h hs hst hk ⊢
    refine atom_group (several := False) hc (made_keeper hc (marks_any _)) (fun h => h.elim) h.1 (alts_head h.2 (by simp)) ?_
    have h2 := h.2
    simp only [Alts.Ok, Alts.text, Alts.Means] at h2 ⊢
    exact alts_one (settled_seq s h2 (by simp) hs hst hk)
  | .group o (.or s more), m, next, h, hs, hst, hk => by
    simp only [Atom.Settled, Alts.Settled] at hs
    exact uniform_group hc hd h hs (by simpa only [Atom.Starts] using hst) hk
  | .char _, _, _, h, _, hst, _ | .dot, _, _, h, _, hst, _ | .caret, _, _, h, _, hst, _ | .dollar, _, _, h, _, hst, _ | .textStart, _, _, h, _, hst, _
  | .textEnd, _, _, h, _, hst, _ | .edge, _, _, h, _, hst, _ | .noEdge, _, _, h, _, hst, _ | .named _, _, _, h, _, hst, _ | .set _ _, _, _, h, _, hst, _ =>
    leaf_runs hc hd (made_keeper hc (marks_any _)) (leaves_any hc) _ h (by simp [Atom.All]) (by simpa only [Made] using hst) trivial
theorem settled_piece : ∀ (p : Piece) {m : Mode} {next : Bytes}, p.Ok uni next → next.head? ≠ some 63 → p.Settled T.orbit uni m → (p.Starts m → B) → p.copies ≤ 1000 →
    PartRuns T (Made B anyL anyC) m (p.after m) p.text next p.copies (fun w i j => p.Means T.orbit uni w m i j)
  | .once a, m, next, h, _, ha, hst, hk => by
    simp only [Piece.Ok, Piece.Settled, Piece.text, Piece.Means, Piece.copies, Piece.after, Piece.Starts] at h ha hst hk ⊢
    exact part_atom (made_keeper hc (marks_any _)) (settled_atom a h ha hst hk)
  | .times a t lazy, m, next, h, hn, ha, hst, hk => by
    simp only [Piece.Ok, Piece.Settled, Piece.text, Piece.Means, Piece.copies, Piece.after, Piece.Starts] at h ha hst hk ⊢
    exact part_times (made_keeper hc (marks_any _)) h.2 hn (atom_copies a) hk
      (settled_atom a h.1 ha hst (Nat.le_trans (Nat.le_mul_of_pos_left _ (times_copies t)) hk))
  | .flags f, m, next, h, _, ha, _, hk => by
    simp only [Piece.Ok, Piece.text, Piece.Means, Piece.copies, Piece.after] at h ⊢
    exact part_flags h next
  | .quoted rs closed, m, next, h, _, ha, _, hk => by
    simp only [Piece.Ok, Piece.text, Piece.Means, Piece.copies, Piece.after] at h ⊢
    exact part_quoted hc (made_keeper hc (marks_any _)) (leaves_any hc) h.1 h.2.1 h.2.2 (fun _ _ => trivial)
theorem settled_seq : ∀ (s : Seq) {m : Mode} {next : Bytes}, s.Ok uni next → next.head? ≠ some 63 → s.Settled T.orbit uni m → (s.Starts m → B) → s.copies ≤ 1000 →
    PartRuns T (Made B anyL anyC) m (s.after m) s.text next s.copies (fun w i j => s.Means T.orbit uni w m i j)
  | .nil, m, next, _, _, _, _, _ => by
    simp only [Seq.text, Seq.Means, Seq.copies, Seq.after]
    exact part_nil
  | .cons p s, m, next, h, hn, ha, hst, hk => by
    simp only [Seq.Ok, Seq.Settled, Seq.text, Seq.Means, Seq.copies, Seq.after, Seq.Starts] at h ha hst hk ⊢
    exact part_cons (settled_piece p h.1 (seq_head h.2 hn) ha.1 (fun x => hst (.inl x)) (Nat.le_trans (Nat.le_max_left _ _) hk))
      (settled_seq s h.2 hn ha.2 (fun x => hst (.inr x)) (Nat.le_trans (Nat.le_max_right _ _) hk))
end

theorem parse_uniform {p : Alts} (h : p.Ok uni []) (hk : p.copies ≤ 1000) (hu : p.Uniform T.orbit uni ⟨false, false, false⟩)
    (hst : p.Starts ⟨false, false, false⟩ → B) :
    ∃ s, parse T p.text = .ok s ∧ Made B anyL anyC s ∧ ∀ w i j, SynAt T.orbit w s i j ↔ p.Means T.orbit uni w ⟨false, false, false⟩ i j := by
  rcases hu with hu | ⟨K, hK, hu⟩
  · obtain ⟨s, h1, h2, h3⟩ := parse_end hc (made_keeper (B := B) hc (marks_fold hc)) (fun _ => made_many hc (marks_fold hc) agree_fold)
      (alts_runs hc hd (made_keeper hc (marks_fold hc)) (leaves_fold hc) p h (by simp) hu (by simpa only [Made] using hst)
        (fun _ => made_many hc (marks_fold hc) agree_fold) hk)
    exact ⟨s, h1, Made.mono (fun _ _ _ => trivial) (fun _ _ => trivial) s h2, h3⟩
  · obtain ⟨s, h1, h2, h3⟩ := parse_end hc (made_keeper (B := B) hc (marks_case hc hK)) (fun _ => made_many hc (marks_case hc hK) agree_case)
      (alts_runs hc hd (made_keeper hc (marks_case hc hK)) (leaves_case hc hK) p h (by simp) hu (by simpa only [Made] using hst)
        (fun _ => made_many hc (marks_case hc hK) agree_case) hk)
    exact ⟨s, h1, Made.mono (fun _ _ _ => trivial) (fun _ _ => trivial) s h2, h3⟩

theorem parse_settled {p : Alts} (h : p.Ok uni []) (hk : p.copies ≤ 1000) (hs : p.Settled T.orbit uni ⟨false, false, false⟩)
    (hst : p.Starts ⟨false, false, false⟩ → B) :
    ∃ s, parse T p.text = .ok s ∧ Made B anyL anyC s ∧ ∀ w i j, SynAt T.orbit w s i j ↔ p.Means T.orbit uni w ⟨false, false, false⟩ i j := by
  cases p with
  | or s more => exact parse_uniform hc hd h hk (by simpa only [Alts.Settled] using hs) hst
  | one s =>
    simp only [Alts.Ok, Alts.Settled, Alts.copies, Alts.Starts] at h hs hst hk
    refine parse_end (several := False) hc (made_keeper hc (marks_any _)) (fun h => h.elim) (copies := s.copies) ?_
    simp only [Alts.text, Alts.Means]
    exact alts_one (settled_seq hc hd s h (by simp) hs hst hk)

end

mutual
theorem atom_allTrue {orbit : Rune → List Rune} : ∀ (a : Atom) (m : Mode), a.All orbit uni (fun _ _ => True) (fun _ _ => True) m
  | .group o body, m => by rw [Atom.All]; exact alts_allTrue body _
  | .char _, _ | .dot, _ | .caret, _ | .dollar, _ | .textStart, _ | .textEnd, _ | .edge, _ | .noEdge, _ | .named _, _ | .set _ _, _ => by simp [Atom.All]
theorem piece_allTrue {orbit : Rune → List Rune} : ∀ (p : Piece) (m : Mode), p.All orbit uni (fun _ _ => True) (fun _ _ => True) m
  | .once a, m => by rw [Piece.All]; exact atom_allTrue a _
  | .times a _ _, m => by rw [Piece.All]; exact atom_allTrue a _
  | .flags _, m => by simp [Piece.All]
  | .quoted _ _, m => by simp [Piece.All]
theorem seq_allTrue {orbit : Rune → List Rune} : ∀ (s : Seq) (m : Mode), s.All orbit uni (fun _ _ => True) (fun _ _ => True) m
  | .nil, m => by simp [Seq.All]
  | .cons p s, m => by rw [Seq.All]; exact ⟨piece_allTrue p _, seq_allTrue s _⟩
theorem alts_allTrue {orbit : Rune → List Rune} : ∀ (a : Alts) (m : Mode), a.All orbit uni (fun _ _ => True) (fun _ _ => True) m
  | .one s, m => by rw [Alts.All]; exact seq_allTrue s _
  | .or s more, m => by rw [Alts.All]; exact ⟨seq_allTrue s _, alts_allTrue more _⟩
end

theorem parse_equalFold (he : T.equalFold = true) (hc : FoldCycles T.orbit) (hd : Describes T uni) {p : Alts} (h : p.Ok uni []) (hk : p.copies ≤ 1000)
    (hst : p.Starts ⟨false, false, false⟩ → B) :
    ∃ s, parse T p.text = .ok s ∧ Made B anyL anyC s ∧ ∀ w i j, SynAt T.orbit w s i j ↔ p.Means T.orbit uni w ⟨false, false, false⟩ i j := by
  have hA : Many T (Made B anyL anyC) := made_many hc (marks_any _) fun _ _ _ _ _ _ e => absurd e (by rw [he]; decide)
  exact parse_end hc (made_keeper hc (marks_any _)) (fun _ => hA)
    (alts_runs hc hd (made_keeper hc (marks_any _)) (leaves_any hc) p h (by simp) (alts_allTrue p _) (by simpa only [Made] using hst) (fun _ => hA) hk)

end Hound.GoRe
