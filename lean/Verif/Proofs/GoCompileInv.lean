import Verif.Proofs.GoCompile

/-! # Instructions of compiled programs: their targets, and where they come from -/

namespace Hound.GoRe
open Spec

variable {orbit : Rune → List Rune}

mutual
/-- The instructions made for the leaves of a tree. -/
def leaves (orbit : Rune → List Rune) : Syn → List Inst
  | .noMatch => []
  | .emptyMatch => []
  | .literal rs fold => rs.map fun r => runeInstOf orbit [r] fold
  | .charClass ranges => [runeInstOf orbit (flatRanges ranges) false]
  | .anyCharNotNL => [.runeAnyNotNL 0]
  | .anyChar => [.runeAny 0]
  | .beginLine => [.empty { bol := true } 0]
  | .endLine => [.empty { eol := true } 0]
  | .beginText => [.empty { bot := true } 0]
  | .endText _ => [.empty { eot := true } 0]
  | .wordBoundary => [.empty { wb := true } 0]
  | .noWordBoundary => [.empty { nwb := true } 0]
  | .capture _ _ r => leaves orbit r
  | .star _ r => leaves orbit r
  | .plus _ r => leaves orbit r
  | .quest _ r => leaves orbit r
  | .rep _ r _ _ => leaves orbit r
  | .concat rs => leavesL orbit rs
  | .alternate rs => leavesL orbit rs
def leavesL (orbit : Rune → List Rune) : List Syn → List Inst
  | [] => []
  | r :: rs => leaves orbit r ++ leavesL orbit rs
end

theorem leavesL_append : ∀ a b : List Syn, leavesL orbit (a ++ b) = leavesL orbit a ++ leavesL orbit b
  | [], b => by rw [leavesL]; rfl
  | x :: a, b => by rw [List.cons_append, leavesL, leavesL, leavesL_append a b, List.append_assoc]

theorem mem_leavesL_replicate {s : Syn} {i : Inst} : ∀ {n : Nat}, i ∈ leavesL orbit (List.replicate n s) → i ∈ leaves orbit s
  | 0, h => by rw [List.replicate_zero, leavesL] at h; cases h
  | n + 1, h => by
    rw [List.replicate_succ, leavesL, List.mem_append] at h
    rcases h with h | h
    · exact h
    · exact mem_leavesL_replicate h

theorem leaves_node (op : Op) (ng : Bool) (s : Syn) : leaves orbit (op.node ng s) = leaves orbit s := by
  cases op <;> simp only [Op.node, leaves]

theorem leaves_simplify1 {op : Op} {ng : Bool} {s : Syn} {i : Inst} (h : i ∈ leaves orbit (simplify1 op ng s)) :
    i ∈ leaves orbit s := by
  unfold simplify1 at h
  split at h
  · exact h
  · split at h
    · exact h
    · rwa [leaves_node] at h

theorem leaves_nestQuest {ng : Bool} {s : Syn} {i : Inst} : ∀ {n : Nat}, i ∈ leaves orbit (nestQuest ng s n) → i ∈ leaves orbit s
  | 0, h => leaves_simplify1 h
  | n + 1, h => by
    have := leaves_simplify1 h
    simp only [leaves, leavesL, List.mem_append, List.not_mem_nil, or_false] at this
    rcases this with h | h
    · exact h
    · exact leaves_nestQuest h

theorem leaves_simplifyRep {ng : Bool} {s : Syn} {lo : Nat} {hi : Option Nat} {i : Inst}
    (h : i ∈ leaves orbit (simplifyRep ng s lo hi)) : i ∈ leaves orbit s := by
  rw [simplifyRep.eq_def] at h
  cases hi with
  | none =>
    simp only [] at h
    split at h
    · exact leaves_simplify1 h
    · split at h
      · exact leaves_simplify1 h
      · rw [leaves, leavesL_append, List.mem_append] at h
        rcases h with h | h
        · exact mem_leavesL_replicate h
        · simp only [leavesL, List.append_nil] at h
          exact leaves_simplify1 h
  | some hi =>
    simp only [] at h
    split at h
    · simp only [leaves, List.not_mem_nil] at h
    · split at h
      · exact h
      · split at h
        · split at h
          · exact leaves_nestQuest h
          · rw [leaves, leavesL_append, List.mem_append] at h
            rcases h with h | h
            · exact mem_leavesL_replicate h
            · simp only [leavesL, List.append_nil] at h
              exact leaves_nestQuest h
        · split at h
          · rw [leaves] at h; exact mem_leavesL_replicate h
          · simp only [leaves, List.not_mem_nil] at h

mutual
theorem leaves_simplify : ∀ (s : Syn) {i : Inst}, i ∈ leaves orbit (simplify s) → i ∈ leaves orbit s
  | .noMatch, _, h | .emptyMatch, _, h | .literal _ _, _, h | .charClass _, _, h | .anyCharNotNL, _, h
  | .anyChar, _, h | .beginLine, _, h | .endLine, _, h | .beginText, _, h | .endText _, _, h
  | .wordBoundary, _, h | .noWordBoundary, _, h => by simpa only [simplify] using h
  | .capture _ _ r, _, h => by
    simp only [simplify, leaves] at h ⊢; exact leaves_simplify r h
  | .star _ r, _, h => by
    simp only [simplify, leaves] at h ⊢; exact leaves_simplify r (leaves_simplify1 h)
  | .plus _ r, _, h => by
    simp only [simplify, leaves] at h ⊢; exact leaves_simplify r (leaves_simplify1 h)
  | .quest _ r, _, h => by
    simp only [simplify, leaves] at h ⊢; exact leaves_simplify r (leaves_simplify1 h)
  | .rep _ r _ _, _, h => by
    simp only [simplify, leaves] at h ⊢; exact leaves_simplify r (leaves_simplifyRep h)
  | .concat rs, _, h => by
    simp only [simplify, leaves] at h ⊢; exact leaves_simplifyL rs h
  | .alternate rs, _, h => by
    simp only [simplify, leaves] at h ⊢; exact leaves_simplifyL rs h
theorem leaves_simplifyL : ∀ (rs : List Syn) {i : Inst}, i ∈ leavesL orbit (simplifyL rs) → i ∈ leavesL orbit rs
  | [], _, h => h
  | r :: rs, _, h => by
    simp only [simplifyL, leavesL, List.mem_append] at h ⊢
    rcases h with h | h
    · exact .inl (leaves_simplify r h)
    · exact .inr (leaves_simplifyL rs h)
end

/-! ## `Simplify` leaves no repetition `x{n,m}` -/

mutual
/-- No node `x{n,m}`. -/
def NoRep : Syn → Prop
  | .capture _ _ r => NoRep r
  | .star _ r => NoRep r
  | .plus _ r => NoRep r
  | .quest _ r => NoRep r
  | .rep _ _ _ _ => False
  | .concat rs => NoRepL rs
  | .alternate rs => NoRepL rs
  | _ => True
def NoRepL : List Syn → Prop
  | [] => True
  | r :: rs => NoRep r ∧ NoRepL rs
end

theorem noRepL_append : ∀ {a b : List Syn}, NoRepL a → NoRepL b → NoRepL (a ++ b)
  | [], _, _, h => h
  | x :: a, b, h, h' => by
    rw [NoRepL] at h
    rw [List.cons_append, NoRepL]
    exact ⟨h.1, noRepL_append h.2 h'⟩

theorem noRepL_replicate {s : Syn} (h : NoRep s) : ∀ n, NoRepL (List.replicate n s)
  | 0 => trivial
  | n + 1 => by rw [List.replicate_succ, NoRepL]; exact ⟨h, noRepL_replicate h n⟩

theorem noRep_simplify1 {op : Op} {ng : Bool} {s : Syn} (h : NoRep s) : NoRep (simplify1 op ng s) := by
  unfold simplify1
  split
  · trivial
  · split
    · exact h
    · cases op <;> simpa only [Op.node, NoRep] using h

theorem noRep_nestQuest {ng : Bool} {s : Syn} (h : NoRep s) : ∀ n, NoRep (nestQuest ng s n)
  | 0 => noRep_simplify1 h
  | n + 1 => noRep_simplify1 (by simp only [NoRep, NoRepL, and_true]; exact ⟨h, noRep_nestQuest h n⟩)

theorem noRep_simplifyRep {ng : Bool} {s : Syn} {lo : Nat} {hi : Option Nat} (h : NoRep s) :
    NoRep (simplifyRep ng s lo hi) := by
  rw [simplifyRep.eq_def]
  cases hi with
  | none =>
    simp only []
    split
    · exact noRep_simplify1 h
    · split
      · exact noRep_simplify1 h
      · rw [NoRep]
        refine noRepL_append (noRepL_replicate h _) ?_
        simp only [NoRepL, and_true]; exact noRep_simplify1 h
  | some hi =>
    simp only []
    split
    · trivial
    · split
      · exact h
      · split
        · split
          · exact noRep_nestQuest h _
          · rw [NoRep]
            refine noRepL_append (noRepL_replicate h _) ?_
            simp only [NoRepL, and_true]; exact noRep_nestQuest h _
        · split
          · rw [NoRep]; exact noRepL_replicate h _
          · trivial

mutual
theorem noRep_simplify : ∀ s : Syn, NoRep (simplify s)
  | .noMatch | .emptyMatch | .literal _ _ | .charClass _ | .anyCharNotNL | .anyChar | .beginLine | .endLine
  | .beginText | .endText _ | .wordBoundary | .noWordBoundary => by simp only [simplify, NoRep]
  | .capture _ _ r => by simp only [simplify, NoRep]; exact noRep_simplify r
  | .star _ r => by simp only [simplify]; exact noRep_simplify1 (noRep_simplify r)
  | .plus _ r => by simp only [simplify]; exact noRep_simplify1 (noRep_simplify r)
  | .quest _ r => by simp only [simplify]; exact noRep_simplify1 (noRep_simplify r)
  | .rep _ r _ _ => by simp only [simplify]; exact noRep_simplifyRep (noRep_simplify r)
  | .concat rs => by simp only [simplify, NoRep]; exact noRep_simplifyL rs
  | .alternate rs => by simp only [simplify, NoRep]; exact noRep_simplifyL rs
theorem noRep_simplifyL : ∀ rs : List Syn, NoRepL (simplifyL rs)
  | [] => by rw [simplifyL]; trivial
  | r :: rs => by rw [simplifyL, NoRepL]; exact ⟨noRep_simplify r, noRep_simplifyL rs⟩
end

/-! ## What holds of all instructions -/

theorem mem_modify {X : List Inst} {n : Nat} {g : Inst → Inst} {i : Inst} (h : i ∈ X.modify n g) :
    ∃ j ∈ X, i = j ∨ i = g j := by
  obtain ⟨m, hm⟩ := List.getElem?_of_mem h
  rw [List.getElem?_modify] at hm
  cases hx : X[m]? with
  | none => rw [hx] at hm; simp at hm
  | some j =>
    rw [hx] at hm
    refine ⟨j, List.mem_of_getElem? hx, ?_⟩
    have : (if n = m then g j else j) = i := by simpa using hm
    split at this
    · exact .inr this.symm
    · exact .inl this.symm

theorem all_patch {R : Inst → Prop} {v : Nat} (hs : ∀ a j, R j → R (setSlot a v j)) :
    ∀ {out : List Slot} {X : List Inst}, (∀ j ∈ X, R j) → ∀ j ∈ patch out v X, R j
  | [], _, h => h
  | s :: l, X, h => by
    rw [patch]
    refine all_patch hs (out := l) fun j hj => ?_
    obtain ⟨k, hk, rfl | rfl⟩ := mem_modify hj
    · exact h _ hk
    · exact hs _ _ (h _ hk)

theorem nexts_set {a : Bool} {v N : Nat} (hv : v < N) {j : Inst} (h : ∀ t ∈ nextsOf j, t < N) :
    ∀ t ∈ nextsOf (setSlot a v j), t < N := by
  cases j <;> cases a <;> simp_all [nextsOf, setSlot]

/-- A property of instructions that does not depend on where they lead. -/
structure Inner (Q : Inst → Prop) : Prop where
  set : ∀ a v i, Q i → Q (setSlot a v i)
  nop : Q (.nop 0)
  capture : Q (.capture 0)
  alt : ∀ a b, Q (.alt a b)

/-- All instructions have the property and lead to instructions. -/
structure Inv (Q : Inst → Prop) (X : List Inst) : Prop where
  all : ∀ i ∈ X, Q i
  targets : ∀ i ∈ X, ∀ t ∈ nextsOf i, t < X.length

variable {Q : Inst → Prop} {X : List Inst} {f f1 f2 : Frag}

theorem inv_snoc {i : Inst} (h : Inv Q X) (hi : Q i) (ht : ∀ t ∈ nextsOf i, t < X.length + 1) : Inv Q (X ++ [i]) where
  all j hj := by
    rcases List.mem_append.1 hj with hj | hj
    · exact h.all j hj
    · rw [List.mem_singleton.1 hj]; exact hi
  targets j hj t htj := by
    rw [List.length_append, List.length_singleton]
    rcases List.mem_append.1 hj with hj | hj
    · exact Nat.lt_succ_of_lt (h.targets j hj t htj)
    · rw [List.mem_singleton.1 hj] at htj; exact ht t htj

theorem inv_patch (hQ : Inner Q) {out : List Slot} {v : Nat} (h : Inv Q X) (hv : v < X.length) : Inv Q (patch out v X) where
  all := all_patch (fun a j hj => hQ.set a v j hj) h.all
  targets := by
    rw [patch_length]
    exact all_patch (R := fun j => ∀ t ∈ nextsOf j, t < X.length) (fun a j hj => nexts_set hv hj) h.targets

theorem inv_single {i : Inst} {nl : Bool} (h : Inv Q X) (hi : Q i) (ht : ∀ t ∈ nextsOf i, t = 0) :
    Inv Q (single i nl X).2 ∧ (single i nl X).1.i < (single i nl X).2.length ∧ X.length ≤ (single i nl X).2.length := by
  rw [single_length]
  exact ⟨inv_snoc h hi fun t h' => by rw [ht t h']; omega, Nat.lt_succ_self _, Nat.le_succ _⟩

/-- What a step of the compiler gives. -/
abbrev InvB (Q : Inst → Prop) (X : List Inst) (b : Built) : Prop := Inv Q b.2 ∧ b.1.i < b.2.length ∧ X.length ≤ b.2.length

theorem inv_cat (hQ : Inner Q) (h : Inv Q X) (h1 : f1.i < X.length) (h2 : f2.i < X.length) : InvB Q X (cat f1 f2 X) := by
  unfold cat
  split
  · exact ⟨h, by simp only []; omega, Nat.le_refl _⟩
  · refine ⟨inv_patch hQ h h2, ?_, ?_⟩ <;> simp only [patch_length]
    · exact h1
    · exact Nat.le_refl _

theorem inv_alt (hQ : Inner Q) (h : Inv Q X) (h1 : f1.i < X.length) (h2 : f2.i < X.length) : InvB Q X (alt f1 f2 X) := by
  unfold alt
  split
  · exact ⟨h, h2, Nat.le_refl _⟩
  · split
    · exact ⟨h, h1, Nat.le_refl _⟩
    · refine ⟨inv_snoc h (hQ.alt _ _) ?_, ?_, ?_⟩
      · intro t ht
        simp only [nextsOf, List.mem_cons, List.not_mem_nil, or_false] at ht
        omega
      · simp
      · simp

theorem choice_inner (hQ : Inner Q) (i : Nat) (ng : Bool) : Q (choice i ng) := by
  cases ng <;> exact hQ.alt _ _

theorem choice_nexts {i n : Nat} (ng : Bool) (h : i < n) : ∀ t ∈ nextsOf (choice i ng), t < n + 1 := by
  cases ng <;> simp [choice, nextsOf] <;> omega

theorem inv_quest (hQ : Inner Q) (ng : Bool) (h : Inv Q X) (h1 : f.i < X.length) : InvB Q X (quest ng f X) := by
  refine ⟨inv_snoc h (choice_inner hQ _ _) (choice_nexts ng h1), ?_, ?_⟩
  · rw [quest_length]; exact Nat.lt_succ_self _
  · rw [quest_length]; exact Nat.le_succ _

theorem inv_loop (hQ : Inner Q) (ng : Bool) (h : Inv Q X) (h1 : f.i < X.length) : InvB Q X (loop ng f X) := by
  refine ⟨inv_patch hQ (inv_snoc h (choice_inner hQ _ _) (choice_nexts ng h1)) (by simp), ?_, ?_⟩
  · rw [loop_length]; exact Nat.lt_succ_self _
  · rw [loop_length]; exact Nat.le_succ _

theorem inv_plus (hQ : Inner Q) (ng : Bool) (h : Inv Q X) (h1 : f.i < X.length) : InvB Q X (plus ng f X) := by
  obtain ⟨h2, _, h4⟩ := inv_loop hQ ng h h1
  exact ⟨h2, by simp only [plus]; omega, h4⟩

theorem inv_star (hQ : Inner Q) (ng : Bool) (h : Inv Q X) (h1 : f.i < X.length) : InvB Q X (star ng f X) := by
  unfold star
  split
  · obtain ⟨h2, h3, h4⟩ := inv_plus hQ ng h h1
    obtain ⟨h5, h6, h7⟩ := inv_quest hQ ng h2 h3
    exact ⟨h5, h6, Nat.le_trans h4 h7⟩
  · exact inv_loop hQ ng h h1

theorem runeInst_nexts (orbit : Rune → List Rune) (rs : List Rune) (fold : Bool) : ∀ t ∈ nextsOf (runeInstOf orbit rs fold), t = 0 := by
  intro t ht
  unfold runeInstOf at ht
  split at ht
  · split at ht <;> simpa [nextsOf] using ht
  · split at ht
    · simpa [nextsOf] using ht
    · split at ht <;> simpa [nextsOf] using ht
  · split at ht <;> simpa [nextsOf] using ht
  · simpa [nextsOf] using ht

theorem inv_runes (hQ : Inner Q) {fold : Bool} : ∀ {rs : List Rune} {f : Frag} {X : List Inst}, Inv Q X → f.i < X.length →
    (∀ r ∈ rs, Q (runeInstOf orbit [r] fold)) → InvB Q X (compileRunes orbit fold rs (f, X))
  | [], f, X, h, h1, _ => ⟨h, h1, Nat.le_refl _⟩
  | r :: rs, f, X, h, h1, hr => by
    obtain ⟨h2, h3, h4⟩ := inv_single (nl := false) h (hr r (List.mem_cons_self ..)) (runeInst_nexts orbit [r] fold)
    obtain ⟨h5, h6, h7⟩ := inv_cat hQ h2 (Nat.lt_of_lt_of_le h1 h4) h3
    obtain ⟨h8, h9, h10⟩ := inv_runes hQ h5 h6 (rs := rs) fun x hx => hr x (List.mem_cons_of_mem _ hx)
    exact ⟨h8, h9, Nat.le_trans h4 (Nat.le_trans h7 h10)⟩

mutual
/-- Compiling never panics without `x{n,m}`, and keeps the invariant. -/
theorem compile_inv (hQ : Inner Q) : ∀ (s : Syn), NoRep s → (∀ i ∈ leaves orbit s, Q i) → ∀ {X : List Inst}, Inv Q X →
    0 < X.length → ∃ b, compile orbit s X = some b ∧ InvB Q X b
  | .noMatch, _, _, X, h, hX => ⟨_, by rw [compile], h, hX, Nat.le_refl _⟩
  | .emptyMatch, _, _, X, h, hX => ⟨_, by rw [compile], inv_single h hQ.nop (by simp [nextsOf])⟩
  | .literal [] _, _, _, X, h, hX => ⟨_, by rw [compile], inv_single h hQ.nop (by simp [nextsOf])⟩
  | .literal (r :: rs) fold, _, hl, X, h, hX => by
    refine ⟨_, by rw [compile], ?_⟩
    rw [leaves] at hl
    obtain ⟨h2, h3, h4⟩ := inv_single (nl := false) h (hl _ (List.mem_map.2 ⟨r, List.mem_cons_self .., rfl⟩))
      (runeInst_nexts orbit [r] fold)
    obtain ⟨h8, h9, h10⟩ := inv_runes (orbit := orbit) (fold := fold) hQ h2 h3 (rs := rs)
      fun x hx => hl _ (List.mem_map.2 ⟨x, List.mem_cons_of_mem _ hx, rfl⟩)
    exact ⟨h8, h9, Nat.le_trans h4 h10⟩
  | .charClass ranges, _, hl, X, h, hX =>
    ⟨_, by rw [compile], inv_single h (hl _ (by rw [leaves]; exact List.mem_singleton.2 rfl)) (runeInst_nexts _ _ _)⟩
  | .anyCharNotNL, _, hl, X, h, hX =>
    ⟨_, by rw [compile], inv_single h (hl _ (by rw [leaves]; exact List.mem_singleton.2 rfl)) (runeInst_nexts _ _ _)⟩
  | .anyChar, _, hl, X, h, hX =>
    ⟨_, by rw [compile], inv_single h (hl _ (by rw [leaves]; exact List.mem_singleton.2 rfl)) (runeInst_nexts _ _ _)⟩
  | .beginLine, _, hl, X, h, hX =>
    ⟨_, by rw [compile], inv_single h (hl _ (by rw [leaves]; exact List.mem_singleton.2 rfl)) (by simp [nextsOf])⟩
  | .endLine, _, hl, X, h, hX =>
    ⟨_, by rw [compile], inv_single h (hl _ (by rw [leaves]; exact List.mem_singleton.2 rfl)) (by simp [nextsOf])⟩
  | .beginText, _, hl, X, h, hX =>
    ⟨_, by rw [compile], inv_single h (hl _ (by rw [leaves]; exact List.mem_singleton.2 rfl)) (by simp [nextsOf])⟩
  | .endText _, _, hl, X, h, hX =>
    ⟨_, by rw [compile], inv_single h (hl _ (by rw [leaves]; exact List.mem_singleton.2 rfl)) (by simp [nextsOf])⟩
  | .wordBoundary, _, hl, X, h, hX =>
    ⟨_, by rw [compile], inv_single h (hl _ (by rw [leaves]; exact List.mem_singleton.2 rfl)) (by simp [nextsOf])⟩
  | .noWordBoundary, _, hl, X, h, hX =>
    ⟨_, by rw [compile], inv_single h (hl _ (by rw [leaves]; exact List.mem_singleton.2 rfl)) (by simp [nextsOf])⟩
  | .capture _ _ r, hr, hl, X, h, hX => by
    rw [NoRep] at hr
    rw [leaves] at hl
    obtain ⟨h1, h2, h3⟩ := inv_single (nl := true) h hQ.capture (by simp [nextsOf])
    obtain ⟨b, hb, h4, h5, h6⟩ := compile_inv hQ r hr hl h1 (by omega)
    refine ⟨_, by rw [compile, hb, Option.map_some], ?_⟩
    obtain ⟨h7, h8, h9⟩ := inv_single (nl := true) h4 hQ.capture (by simp [nextsOf])
    obtain ⟨h10, h11, h12⟩ := inv_cat hQ h7 (f1 := (single (.capture 0) true X).1) (f2 := b.1) (by omega) (by omega)
    obtain ⟨h13, h14, h15⟩ := inv_cat hQ h10 (f1 := (cat (single (.capture 0) true X).1 b.1 (single (.capture 0) true b.2).2).1)
      (f2 := (single (.capture 0) true b.2).1) h11 (by omega)
    exact ⟨h13, h14, Nat.le_trans h3 (Nat.le_trans h6 (Nat.le_trans h9 (Nat.le_trans h12 h15)))⟩
  | .star ng r, hr, hl, X, h, hX => by
    rw [NoRep] at hr
    rw [leaves] at hl
    obtain ⟨b, hb, h4, h5, h6⟩ := compile_inv hQ r hr hl h hX
    obtain ⟨h7, h8, h9⟩ := inv_star hQ ng h4 h5
    exact ⟨_, by rw [compile, hb, Option.map_some], h7, h8, by omega⟩
  | .plus ng r, hr, hl, X, h, hX => by
    rw [NoRep] at hr
    rw [leaves] at hl
    obtain ⟨b, hb, h4, h5, h6⟩ := compile_inv hQ r hr hl h hX
    obtain ⟨h7, h8, h9⟩ := inv_plus hQ ng h4 h5
    exact ⟨_, by rw [compile, hb, Option.map_some], h7, h8, by omega⟩
  | .quest ng r, hr, hl, X, h, hX => by
    rw [NoRep] at hr
    rw [leaves] at hl
    obtain ⟨b, hb, h4, h5, h6⟩ := compile_inv hQ r hr hl h hX
    obtain ⟨h7, h8, h9⟩ := inv_quest hQ ng h4 h5
    exact ⟨_, by rw [compile, hb, Option.map_some], h7, h8, by omega⟩
  | .rep _ _ _ _, hr, _, _, _, _ => by rw [NoRep] at hr; exact hr.elim
  | .concat [], _, _, X, h, hX => ⟨_, by rw [compile], inv_single h hQ.nop (by simp [nextsOf])⟩
  | .concat (r :: rs), hr, hl, X, h, hX => by
    rw [NoRep, NoRepL] at hr
    rw [leaves, leavesL] at hl
    obtain ⟨b, hb, h4, h5, h6⟩ := compile_inv hQ r hr.1 (fun i hi => hl i (List.mem_append_left _ hi)) h hX
    obtain ⟨c, hc, h7, h8, h9⟩ := compileCat_inv hQ rs hr.2 (fun i hi => hl i (List.mem_append_right _ hi)) h4 h5
    exact ⟨c, by rw [compile, hb, Option.bind_some, hc], h7, h8, by omega⟩
  | .alternate rs, hr, hl, X, h, hX => by
    rw [NoRep] at hr
    rw [leaves] at hl
    rw [compile]
    exact compileAlt_inv hQ rs hr hl h hX
theorem compileCat_inv (hQ : Inner Q) : ∀ (rs : List Syn), NoRepL rs → (∀ i ∈ leavesL orbit rs, Q i) →
    ∀ {f : Frag} {X : List Inst}, Inv Q X → f.i < X.length → ∃ b, compileCat orbit rs f X = some b ∧ InvB Q X b
  | [], _, _, f, X, h, h1 => ⟨_, by rw [compileCat], h, h1, Nat.le_refl _⟩
  | r :: rs, hr, hl, f, X, h, h1 => by
    rw [NoRepL] at hr
    rw [leavesL] at hl
    obtain ⟨b, hb, h4, h5, h6⟩ := compile_inv hQ r hr.1 (fun i hi => hl i (List.mem_append_left _ hi)) h (by omega)
    obtain ⟨h7, h8, h9⟩ := inv_cat hQ h4 (f1 := f) (f2 := b.1) (by omega) h5
    obtain ⟨c, hc, h10, h11, h12⟩ := compileCat_inv hQ rs hr.2 (fun i hi => hl i (List.mem_append_right _ hi)) h7 h8
    exact ⟨c, by rw [compileCat, hb, Option.bind_some, hc], h10, h11, by omega⟩
theorem compileAlt_inv (hQ : Inner Q) : ∀ (rs : List Syn), NoRepL rs → (∀ i ∈ leavesL orbit rs, Q i) →
    ∀ {f : Frag} {X : List Inst}, Inv Q X → f.i < X.length → ∃ b, compileAlt orbit rs f X = some b ∧ InvB Q X b
  | [], _, _, f, X, h, h1 => ⟨_, by rw [compileAlt], h, h1, Nat.le_refl _⟩
  | r :: rs, hr, hl, f, X, h, h1 => by
    rw [NoRepL] at hr
    rw [leavesL] at hl
    obtain ⟨b, hb, h4, h5, h6⟩ := compile_inv hQ r hr.1 (fun i hi => hl i (List.mem_append_left _ hi)) h (by omega)
    obtain ⟨h7, h8, h9⟩ := inv_alt hQ h4 (f1 := f) (f2 := b.1) (by omega) h5
    obtain ⟨c, hc, h10, h11, h12⟩ := compileAlt_inv hQ rs hr.2 (fun i hi => hl i (List.mem_append_right _ hi)) h7 h8
    exact ⟨c, by rw [compileAlt, hb, Option.bind_some, hc], h10, h11, by omega⟩
end

/-- Compiling a simplified tree succeeds, and its instructions have what the leaves have. -/
theorem compileProg_inv (hQ : Inner Q) (hfail : Q .fail) (haccept : Q .accept) (s : Syn) (hl : ∀ i ∈ leaves orbit s, Q i) :
    ∃ p, compileProg orbit (simplify s) = some p ∧ (∀ i ∈ p.inst, Q i) ∧ p.start < p.inst.length ∧
      ∀ i ∈ p.inst, ∀ t ∈ nextsOf i, t < p.inst.length := by
  have h0 : Inv Q [.fail] := ⟨fun i hi => by rw [List.mem_singleton.1 hi]; exact hfail,
    fun i hi t ht => by rw [List.mem_singleton.1 hi] at ht; cases ht⟩
  obtain ⟨b, hb, h1, h2, h3⟩ := compile_inv hQ (simplify s) (noRep_simplify s) (fun i hi => hl i (leaves_simplify s hi)) h0
    (Nat.lt_succ_self 0)
  have h4 := inv_patch hQ (out := b.1.out) (v := b.2.length) (inv_snoc h1 haccept (by simp [nextsOf])) (by simp)
  refine ⟨_, by rw [compileProg, hb, Option.map_some], h4.all, ?_, h4.targets⟩
  simp only [patch_length, List.length_append, List.length_singleton]
  omega

end Hound.GoRe
