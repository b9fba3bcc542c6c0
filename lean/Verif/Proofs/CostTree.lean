import Verif.Proofs.ByteTotal
import Verif.Props.GoCompile
import Verif.Spec.Cost

/-! Trees that match no newline have programs that read none. -/

namespace Hound
open Spec

/-- The instruction reads no newline. -/
def Dry (orbit : Rune → List Rune) (i : Inst) : Prop :=
  RuneOK orbit i ∧ (∀ r, InstHas orbit i r → validRune r = true ∧ r ≠ 10) ∧
    ∀ lo hi f out, i = .byteRange lo hi f out → inByteRange lo hi f NL = false

variable {orbit : Rune → List Rune}

theorem dry_set {X : List Inst} {pc : Nat} {i : Inst} (h : ∀ i ∈ X, Dry orbit i) (hi : Dry orbit i) : ∀ j ∈ X.set pc i, Dry orbit j := by
  intro j hj
  rcases List.mem_or_eq_of_mem_set hj with h1 | rfl
  · exact h j h1
  · exact hi

theorem dry_snoc {X : List Inst} {i : Inst} (h : ∀ i ∈ X, Dry orbit i) (hi : Dry orbit i) : ∀ j ∈ X ++ [i], Dry orbit j := by
  intro j hj
  rcases List.mem_append.1 hj with h1 | h1
  · exact h j h1
  · rw [List.mem_singleton] at h1
    subst h1
    exact hi

theorem dry_byte {lo hi : UInt8} {f : Bool} {out : Nat} (h : inByteRange lo hi f NL = false) : Dry orbit (.byteRange lo hi f out) :=
  ⟨trivial, fun _ h => h.elim, fun _ _ _ _ e => by cases e; exact h⟩

theorem dry_plain {i : Inst} (h : (∃ o, i = .nop o) ∨ (∃ o a, i = .alt o a) ∨ i = .fail) : Dry orbit i := by
  rcases h with ⟨o, rfl⟩ | ⟨o, a, rfl⟩ | rfl <;> exact ⟨trivial, fun _ h => h.elim, fun _ _ _ _ e => by cases e⟩

theorem dry_suffix {b : RB} {lo hi : UInt8} {f : Bool} {next : Nat} (h : ∀ i ∈ b.inst, Dry orbit i) (hd : inByteRange lo hi f NL = false) :
    ∀ i ∈ (b.suffix lo hi f next).1.inst, Dry orbit i := by
  unfold RB.suffix
  split
  · exact dry_snoc h (dry_byte hd)
  · split
    · exact h
    · exact dry_snoc h (dry_byte hd)

theorem dry_addBranch {b : RB} {pc : Nat} (h : ∀ i ∈ b.inst, Dry orbit i) : ∀ i ∈ (b.addBranch pc).inst, Dry orbit i := by
  unfold RB.addBranch
  split
  · exact dry_set h (dry_plain (.inl ⟨_, rfl⟩))
  · exact dry_set h (dry_plain (.inr (.inl ⟨_, _, rfl⟩)))
  · exact dry_set (dry_snoc h (dry_plain (.inr (.inl ⟨_, _, rfl⟩)))) (dry_plain (.inr (.inl ⟨_, _, rfl⟩)))
  · exact h

theorem dry_addBytes {b : RB} (h : ∀ i ∈ b.inst, Dry orbit i) : ∀ ws : List (UInt8 × UInt8), (∀ w ∈ ws, 0x80 ≤ w.1) →
    ∀ i ∈ (b.addBytes ws).1.inst, Dry orbit i
  | [], _ => h
  | (lo, hi) :: ws, hw => by
    have h1 := dry_addBytes h ws fun w hm => hw w (List.mem_cons_of_mem _ hm)
    refine dry_suffix h1 ?_
    have h2 := hw (lo, hi) List.mem_cons_self
    rw [Bool.eq_false_iff]
    intro h3
    have h4 := (inByteRange_false.1 h3).1
    have h5 : (0x80 : UInt8) ≤ NL := UInt8.le_trans h2 h4
    exact absurd h5 (by decide)

theorem dryRaw_high {r : Nat} (h : 0x80 ≤ r) (h' : r ≤ 0x10FFFF) : ∀ b ∈ encodeRaw r, (0x80 : UInt8) ≤ b := by
  have key : ∀ n : Nat, 0x80 ≤ n → n < 256 → (0x80 : UInt8) ≤ UInt8.ofNat n := by
    intro n h1 h2
    rw [UInt8.le_iff_toNat_le, toNat_ofNat_lt h2]
    exact h1
  rw [encodeRaw_nat]
  intro b hb
  repeat' split at hb
  · omega
  all_goals
    simp only [List.mem_cons, List.not_mem_nil, or_false] at hb
  · rcases hb with rfl | rfl <;> exact key _ (by omega) (by omega)
  · rcases hb with rfl | rfl | rfl <;> exact key _ (by omega) (by omega)
  · rcases hb with rfl | rfl | rfl | rfl <;> exact key _ (by omega) (by omega)

theorem dryRune_high {r : Nat} (h : 0x80 ≤ r) (h' : r ≤ 0x10FFFF) : ∀ b ∈ encodeRune r, (0x80 : UInt8) ≤ b := by
  unfold encodeRune
  split
  · exact dryRaw_high h h'
  · intro b hb
    have : ∀ b ∈ encodeRaw runeError, (0x80 : UInt8) ≤ b := by decide
    exact this b hb

theorem addRange_dry : ∀ (fuel : Nat) (b b' : RB) (lo hi : Nat), (∀ i ∈ b.inst, Dry orbit i) → hi ≤ 0x10FFFF → ¬ (lo ≤ 10 ∧ 10 ≤ hi) →
    RB.addRange fuel b lo hi false = some b' → ∀ i ∈ b'.inst, Dry orbit i := by
  intro fuel
  induction fuel with
  | zero =>
    intro b b' lo hi hb _ _ h
    rw [RB.addRange] at h
    split at h
    · cases h; exact hb
    · cases h
  | succ fuel ih =>
    intro b b' lo hi hb hmax hnl h
    have two : ∀ e : Nat, lo ≤ e → e < hi → (match RB.addRange fuel b lo e false with
            | none => none
            | some b => RB.addRange fuel b (e + 1) hi false) = some b' → ∀ i ∈ b'.inst, Dry orbit i := by
      intro e h1 h2 h3
      split at h3
      · cases h3
      · rename_i b1 hb1
        exact ih b1 b' (e + 1) hi (ih b b1 lo e hb (by omega) (by omega) hb1) hmax (by omega) h3
    rw [RB.addRange] at h
    by_cases hlh : hi < lo
    · rw [if_pos (show lo > hi from hlh)] at h
      cases h
      exact hb
    have hle : lo ≤ hi := by omega
    rw [if_neg (show ¬ lo > hi from hlh)] at h
    cases hls : lengthSplit lo hi with
    | some mx =>
      obtain ⟨h1, h2, _⟩ := lengthSplit_some hls
      rw [hls] at h
      exact two mx h1 h2 h
    | none =>
      obtain ⟨l1, l2, l3⟩ := lengthSplit_none hls
      rw [hls] at h
      simp only at h
      by_cases hascii : hi < 0x80
      · rw [if_pos (show hi < 0x80 from hascii)] at h
        cases h
        refine dry_addBranch (dry_suffix hb ?_)
        rw [Bool.eq_false_iff]
        intro h3
        obtain ⟨h4, h5⟩ := inByteRange_false.1 h3
        rw [UInt8.le_iff_toNat_le] at h4 h5
        have e1 : (byteOf lo).toNat = lo := toNat_ofNat_lt (by omega)
        have e2 : (byteOf hi).toNat = hi := toNat_ofNat_lt (by omega)
        rw [e1] at h4
        rw [e2] at h5
        exact hnl ⟨h4, h5⟩
      · rw [if_neg (show ¬ hi < 0x80 from hascii)] at h
        have hlo : 0x80 ≤ lo := by omega
        cases hms : maskSplit lo hi [1, 2, 3] with
        | some es =>
          obtain ⟨e, s⟩ := es
          rw [hms] at h
          simp only at h
          obtain ⟨i, hi', h1, h2, h3⟩ := maskSplit_some hle hms
          subst h2
          simp only [List.mem_cons, List.not_mem_nil, or_false] at hi'
          rcases hi' with rfl | rfl | rfl
          · rw [pow6] at h1 h3
            exact two e (by omega) (by omega) h
          · rw [pow12] at h1 h3
            exact two e (by omega) (by omega) h
          · rw [pow18] at h1 h3
            exact two e (by omega) (by omega) h
        | none =>
          rw [hms] at h
          simp only at h
          split at h
          · cases h
          · cases h
            refine dry_addBranch (dry_addBytes hb _ fun w hw => ?_)
            exact dryRune_high hlo (by omega) w.1 (List.of_mem_zip hw).1

theorem buildRanges_dry {X X' : List Inst} {pc out : Nat} {ranges : List (Rune × Rune)} (hX : ∀ i ∈ X, Dry orbit i)
    (hr : ∀ p ∈ ranges, p.2 ≤ 0x10FFFF ∧ ¬ (p.1 ≤ 10 ∧ 10 ≤ p.2)) (h : buildRanges X pc out ranges = some X') : ∀ i ∈ X', Dry orbit i := by
  have go : ∀ (ranges : List (Rune × Rune)) (b b' : RB), (∀ i ∈ b.inst, Dry orbit i) →
      (∀ p ∈ ranges, p.2 ≤ 0x10FFFF ∧ ¬ (p.1 ≤ 10 ∧ 10 ≤ p.2)) →
      ranges.foldl (fun b p => b.bind fun b => b.range p.1 p.2) (some b) = some b' → ∀ i ∈ b'.inst, Dry orbit i := by
    intro ranges
    induction ranges with
    | nil => intro b b' hb _ h; cases h; exact hb
    | cons p ranges ih =>
      intro b b' hb hr h
      rw [List.foldl_cons, Option.bind_some] at h
      cases hp : b.range p.1 p.2 with
      | none =>
        rw [hp] at h
        have : ∀ rs : List (Rune × Rune), rs.foldl (fun b p => b.bind fun b => b.range p.1 p.2) (none : Option RB) = none := by
          intro rs
          induction rs with
          | nil => rfl
          | cons _ _ ih => rw [List.foldl_cons]; exact ih
        rw [this] at h
        cases h
      | some b1 =>
        rw [hp] at h
        have hp' := hr p List.mem_cons_self
        exact ih b1 b' (addRange_dry _ _ _ _ _ hb hp'.1 hp'.2 hp) (fun q hq => hr q (List.mem_cons_of_mem _ hq)) h
  unfold buildRanges at h
  cases hf : ranges.foldl (fun b p => b.bind fun b => b.range p.1 p.2) (some (RB.init X pc out)) with
  | none => rw [hf] at h; cases h
  | some b' =>
    rw [hf] at h
    cases h
    exact go ranges _ b' (dry_set hX (dry_plain (.inr (.inr rfl)))) hr hf

theorem oneByte_dry (hf : AsciiFolds orbit) {i : Inst} (hi : Dry orbit i) {lo hi' : UInt8} {f : Bool}
    (h : oneByteRange orbit i = some (lo, hi', f)) : inByteRange lo hi' f NL = false := by
  rw [Bool.eq_false_iff]
  intro hc
  obtain ⟨r, _, h2, h3⟩ := (oneByte_words hf hi.1 h [NL]).1 ⟨NL, rfl, hc⟩
  obtain ⟨h4, h5⟩ := raw_single h3
  have : r = 10 := by
    have := congrArg UInt8.toNat h5
    rw [toNat_ofNat_lt (by omega)] at this
    exact this.symm
  exact (hi.2.1 r h2).2 this

theorem toByteInst_dry (hf : AsciiFolds orbit) {X X' : List Inst} {pc : Nat} (hX : ∀ i ∈ X, Dry orbit i)
    (h : toByteInst orbit X pc = some X') : ∀ i ∈ X', Dry orbit i := by
  unfold toByteInst at h
  split at h
  · rename_i rs fold out he
    have hd := hX _ (List.mem_of_getElem? he)
    split at h
    · rename_i hob
      cases h
      exact dry_set hX (dry_byte (oneByte_dry hf hd hob))
    · obtain ⟨h1, h2⟩ := instRanges_ok hf hd.1
      refine buildRanges_dry hX (fun p hp => ⟨(h1 p hp).2, fun hh => ?_⟩) h
      exact (hd.2.1 10 ((h2 10).1 ⟨p, hp, hh⟩)).2 rfl
  · rename_i r out he
    have hd := hX _ (List.mem_of_getElem? he)
    split at h
    · rename_i hob
      cases h
      exact dry_set hX (dry_byte (oneByte_dry hf hd hob))
    · refine buildRanges_dry hX (fun p hp => ?_) h
      rw [List.mem_singleton] at hp
      subst hp
      have hv := hd.2.1 r rfl
      refine ⟨?_, fun hh => hv.2 (Nat.le_antisymm hh.1 hh.2)⟩
      have := valid_iff.1 hv.1
      show (r : Nat) ≤ 0x10FFFF
      rcases this with h | h
      · exact Nat.le_trans (Nat.le_of_lt h) (by decide)
      · exact h.2
  · rename_i out he
    exact absurd ((hX _ (List.mem_of_getElem? he)).2.1 0xD800 trivial).1 (by decide)
  · rename_i out he
    exact absurd ((hX _ (List.mem_of_getElem? he)).2.1 0xD800 (by show (0xD800 : Nat) ≠ 10; decide)).1 (by decide)
  · cases h
    exact hX

theorem toByteProg_dry (hf : AsciiFolds orbit) {p q : Prog} (hp : ∀ i ∈ p.inst, Dry orbit i) (h : toByteProg orbit p = some q) :
    NoNewline q := by
  have go : ∀ (pcs : List Nat) (X X' : List Inst), (∀ i ∈ X, Dry orbit i) →
      pcs.foldl (fun inst pc => inst.bind fun inst => toByteInst orbit inst pc) (some X) = some X' → ∀ i ∈ X', Dry orbit i := by
    intro pcs
    induction pcs with
    | nil => intro X X' hX h; cases h; exact hX
    | cons pc pcs ih =>
      intro X X' hX h
      rw [List.foldl_cons, Option.bind_some] at h
      cases hp : toByteInst orbit X pc with
      | none =>
        rw [hp] at h
        have : ∀ pcs : List Nat, pcs.foldl (fun inst pc => inst.bind fun inst => toByteInst orbit inst pc) (none : Option (List Inst)) = none := by
          intro pcs
          induction pcs with
          | nil => rfl
          | cons _ _ ih => rw [List.foldl_cons]; exact ih
        rw [this] at h
        cases h
      | some X1 =>
        rw [hp] at h
        exact ih X1 X' (toByteInst_dry hf hX hp) h
  unfold toByteProg at h
  cases hfold : (List.range p.inst.length).foldl (fun inst pc => inst.bind fun inst => toByteInst orbit inst pc) (some p.inst) with
  | none => rw [hfold] at h; cases h
  | some X' =>
    rw [hfold] at h
    cases h
    intro lo hi fold out hm hb
    have := (go _ _ _ hp hfold _ hm).2.2 lo hi fold out rfl
    rw [inByteRange_iff.2 hb] at this
    cases this

namespace GoRe

/-- The instruction asks for no newline. -/
def Asks (orbit : Rune → List Rune) (i : Inst) : Prop :=
  (∀ r, InstHas orbit i r → validRune r = true ∧ r ≠ 10) ∧ ∀ lo hi f out, i ≠ .byteRange lo hi f out

theorem asks_inner : Inner (Asks orbit) where
  set a v i h := by
    cases i with
    | rune rs f o =>
      refine ⟨fun r hr => h.1 r ?_, fun _ _ _ _ e => by simp [setSlot] at e⟩
      cases rs with
      | nil => exact hr
      | cons x t => cases t <;> exact hr
    | alt o a' => cases a <;> simp [setSlot, Asks, InstHas]
    | altMatch o a' => cases a <;> simp [setSlot, Asks, InstHas]
    | rune1 x o => exact ⟨h.1, fun _ _ _ _ e => by simp [setSlot] at e⟩
    | runeAny o => exact ⟨h.1, fun _ _ _ _ e => by simp [setSlot] at e⟩
    | runeAnyNotNL o => exact ⟨h.1, fun _ _ _ _ e => by simp [setSlot] at e⟩
    | byteRange lo hi f o => exact absurd rfl (h.2 lo hi f o)
    | _ => simp [setSlot, Asks, InstHas]
  nop := by simp [Asks, InstHas]
  capture := by simp [Asks, InstHas]
  alt _ _ := by simp [Asks, InstHas]

theorem runeInst_notByte (rs : List Rune) (fold : Bool) : ∀ lo hi f out, runeInstOf orbit rs fold ≠ .byteRange lo hi f out := by
  intro lo hi f out h
  unfold runeInstOf at h
  split at h
  · split at h <;> cases h
  · split at h
    · cases h
    · split at h <;> cases h
  · split at h <;> cases h
  · cases h

theorem asks_lit {r : Rune} {fold : Bool} (h : ∀ x, FoldsTo orbit fold r x → validRune x = true ∧ x ≠ 10) :
    Asks orbit (runeInstOf orbit [r] fold) := by
  refine ⟨fun x hx => ?_, runeInst_notByte _ _⟩
  unfold runeInstOf at hx
  simp only at hx
  split at hx
  · rename_i hf
    simp only [Bool.and_eq_true] at hf
    rw [hf.1] at h
    exact h x hx
  · exact h x (.inl hx)

theorem asks_class {ranges : List (Rune × Rune)} (h : ∀ p ∈ ranges, ∀ x : Rune, p.1 ≤ x → x ≤ p.2 → validRune x = true ∧ x ≠ 10) :
    Asks orbit (runeInstOf orbit (flatRanges ranges) false) := by
  refine ⟨?_, runeInst_notByte _ _⟩
  have hgen : ∀ x, (∃ p ∈ rangePairs (flatRanges ranges), p.1 ≤ x ∧ x ≤ p.2) → validRune x = true ∧ x ≠ 10 := by
    rw [rangePairs_flat]
    rintro x ⟨p, hp, h1, h2⟩
    exact h p hp x h1 h2
  match ranges, h, hgen with
  | [], _, hgen => exact fun x hx => hgen x hx
  | [(a, b)], h, hgen =>
    intro x hx
    simp only [flatRanges, runeInstOf] at hgen hx
    split at hx
    · rename_i hab
      rw [InstHas] at hx
      subst hx
      exact h _ (List.mem_singleton.2 rfl) x (Nat.le_refl _) (Nat.le_of_eq hab)
    · split at hx
      · rename_i hab
        have := h _ (List.mem_singleton.2 rfl) 0xD800 (by rw [hab.1]; exact Nat.zero_le _) (by rw [hab.2]; show (0xD800 : Nat) ≤ 0x10FFFF; decide)
        exact absurd this.1 (by decide)
      · exact hgen x hx
  | [(a, b), (c, d)], h, hgen =>
    intro x hx
    simp only [flatRanges, runeInstOf] at hgen hx
    split at hx
    · rename_i hab
      have := h (c, d) (by simp) 0xD800 (by rw [hab.2.2.1]; show (11 : Nat) ≤ 0xD800; decide) (by rw [hab.2.2.2]; show (0xD800 : Nat) ≤ 0x10FFFF; decide)
      exact absurd this.1 (by decide)
    · exact hgen x hx
  | (a, b) :: (c, d) :: (e, f) :: rs, _, hgen =>
    intro x hx
    simp only [flatRanges, runeInstOf] at hgen hx
    exact hgen x hx

mutual
theorem asks_leaves : ∀ s : Syn, OneLine orbit s → ∀ i ∈ leaves orbit s, Asks orbit i
  | .noMatch, _, i, hi | .emptyMatch, _, i, hi => by simp [leaves] at hi
  | .anyCharNotNL, h, _, _ | .anyChar, h, _, _ => by simp [OneLine] at h
  | .beginLine, _, i, hi | .endLine, _, i, hi | .beginText, _, i, hi
  | .endText _, _, i, hi | .wordBoundary, _, i, hi | .noWordBoundary, _, i, hi => by
    simp only [leaves, List.mem_singleton] at hi; subst hi; simp [Asks, InstHas]
  | .literal rs fold, h, i, hi => by
    simp only [OneLine] at h
    simp only [leaves, List.mem_map] at hi
    obtain ⟨r, hr, rfl⟩ := hi
    exact asks_lit (h r hr)
  | .charClass ranges, h, i, hi => by
    simp only [OneLine] at h
    simp only [leaves, List.mem_singleton] at hi; subst hi
    exact asks_class h
  | .capture _ _ r, h, i, hi | .star _ r, h, i, hi | .plus _ r, h, i, hi | .quest _ r, h, i, hi
  | .rep _ r _ _, h, i, hi => by
    simp only [OneLine] at h
    simp only [leaves] at hi
    exact asks_leaves r h i hi
  | .concat rs, h, i, hi | .alternate rs, h, i, hi => by
    simp only [OneLine] at h
    simp only [leaves] at hi
    exact asksL_leaves rs h i hi
theorem asksL_leaves : ∀ rs : List Syn, OneLineL orbit rs → ∀ i ∈ leavesL orbit rs, Asks orbit i
  | [], _, i, hi => by simp [leavesL] at hi
  | r :: rs, h, i, hi => by
    simp only [OneLineL] at h
    simp only [leavesL, List.mem_append] at hi
    exact hi.elim (asks_leaves r h.1 i) (asksL_leaves rs h.2 i)
end

/-- The program of a tree that matches no newline reads none. -/
theorem compile_noNewline (hf : AsciiFolds orbit) {s : Syn} {p q : Prog} (h : compileProg orbit (simplify s) = some p)
    (hr : RunesOK orbit s) (ho : OneLine orbit s) (hq : toByteProg orbit p = some q) : NoNewline q := by
  have h1 := compile_runeOK h hr
  obtain ⟨p', h', h2, _⟩ := compileProg_inv asks_inner (by simp [Asks, InstHas]) (by simp [Asks, InstHas]) s (asks_leaves s ho)
  rw [h] at h'
  cases h'
  exact toByteProg_dry hf (fun i hi => ⟨h1 i hi, (h2 i hi).1, fun lo hi' f out e => absurd e ((h2 i hi).2 lo hi' f out)⟩) hq

end GoRe

end Hound
