import Verif.Proofs.ByteProg

/-!
Every program with code points is turned into one of byte ranges: `toByteProg` never stops with a panic, whatever
the code points are, also if they are surrogates.
-/
namespace Hound

/-- The code points of an instruction are at most U+10FFFF, and there is one of them or they come in pairs. -/
def InstBounded : Inst → Prop
  | .rune rs _ _ => (rs.length = 1 ∨ rs.length % 2 = 0) ∧ ∀ r ∈ rs, r ≤ 0x10FFFF
  | .rune1 r _ => r ≤ 0x10FFFF
  | _ => True

/-- A builder whose program is closed and bounded. -/
structure RBOk (b : RB) : Prop where
  closed : Closed b.inst
  begin : b.begin < b.inst.length
  out : b.out < b.inst.length
  cache : ∀ e ∈ b.cache, e.2 < b.inst.length
  all : ∀ i ∈ b.inst, InstBounded i

theorem closed_set {X : List Inst} {pc : Nat} {i : Inst} (h : Closed X)
    (hi : ∀ t, t ∈ (match i with
    | .nop out | .capture out | .empty _ out | .byteRange _ _ _ out | .rune _ _ out | .rune1 _ out
    | .runeAny out | .runeAnyNotNL out => [out]
    | .alt out arg | .altMatch out arg => [out, arg]
    | .fail | .accept => []) → t < X.length) : Closed (X.set pc i) := by
  intro j hj t ht
  rw [List.length_set]
  rcases List.mem_or_eq_of_mem_set hj with h1 | rfl
  · exact h j h1 t ht
  · exact hi t ht

theorem closed_snoc {X : List Inst} {i : Inst} (h : Closed X)
    (hi : ∀ t, t ∈ (match i with
    | .nop out | .capture out | .empty _ out | .byteRange _ _ _ out | .rune _ _ out | .rune1 _ out
    | .runeAny out | .runeAnyNotNL out => [out]
    | .alt out arg | .altMatch out arg => [out, arg]
    | .fail | .accept => []) → t < X.length + 1) : Closed (X ++ [i]) := by
  intro j hj t ht
  rw [List.length_append, List.length_singleton]
  rcases List.mem_append.1 hj with h1 | h1
  · exact Nat.lt_succ_of_lt (h j h1 t ht)
  · rw [List.mem_singleton] at h1
    subst h1
    exact hi t ht

theorem bounded_set {X : List Inst} {pc : Nat} {i : Inst} (h : ∀ i ∈ X, InstBounded i) (hi : InstBounded i) :
    ∀ j ∈ X.set pc i, InstBounded j := by
  intro j hj
  rcases List.mem_or_eq_of_mem_set hj with h1 | rfl
  · exact h j h1
  · exact hi

theorem bounded_snoc {X : List Inst} {i : Inst} (h : ∀ i ∈ X, InstBounded i) (hi : InstBounded i) :
    ∀ j ∈ X ++ [i], InstBounded j := by
  intro j hj
  rcases List.mem_append.1 hj with h1 | h1
  · exact h j h1
  · rw [List.mem_singleton] at h1
    subst h1
    exact hi

theorem rbok_init {X : List Inst} {pc out : Nat} (h : Closed X) (hb : ∀ i ∈ X, InstBounded i) (hp : pc < X.length)
    (ho : out < X.length) : RBOk (RB.init X pc out) where
  closed := closed_set h (by simp)
  begin := by simpa [RB.init] using hp
  out := by simpa [RB.init] using ho
  cache := by simp [RB.init]
  all := bounded_set hb trivial

theorem rbok_uncached {b : RB} {lo hi : UInt8} {f : Bool} {next : Nat} (h : RBOk b) (hn : next < b.inst.length) :
    RBOk (b.uncachedSuffix lo hi f next).1 ∧ (b.uncachedSuffix lo hi f next).2 = b.inst.length ∧
      (b.uncachedSuffix lo hi f next).1.inst.length = b.inst.length + 1 := by
  have ho := h.out
  have hb := h.begin
  refine ⟨⟨?_, ?_, ?_, ?_, ?_⟩, rfl, by simp [RB.uncachedSuffix]⟩
  · refine closed_snoc h.closed ?_
    intro t ht
    simp only [List.mem_singleton] at ht
    subst ht
    split <;> omega
  · simp only [RB.uncachedSuffix, List.length_append, List.length_singleton]; omega
  · simp only [RB.uncachedSuffix, List.length_append, List.length_singleton]; omega
  · intro e he
    simp only [RB.uncachedSuffix, List.length_append, List.length_singleton]
    exact Nat.lt_succ_of_lt (h.cache e he)
  · exact bounded_snoc h.all trivial

theorem mem_of_lookup {α β : Type} [BEq α] [LawfulBEq α] {k : α} {v : β} : ∀ {l : List (α × β)}, l.lookup k = some v → (k, v) ∈ l
  | [], h => by simp at h
  | (a, b) :: l, h => by
    rw [List.lookup_cons] at h
    split at h
    · rename_i hk
      cases h
      rw [eq_of_beq hk]
      exact List.mem_cons_self
    · exact List.mem_cons_of_mem _ (mem_of_lookup h)

theorem rbok_suffix {b : RB} {lo hi : UInt8} {f : Bool} {next : Nat} (h : RBOk b) (hn : next < b.inst.length) :
    RBOk (b.suffix lo hi f next).1 ∧ (b.suffix lo hi f next).2 < (b.suffix lo hi f next).1.inst.length ∧
      b.inst.length ≤ (b.suffix lo hi f next).1.inst.length := by
  obtain ⟨h1, h2, h3⟩ := rbok_uncached (lo := lo) (hi := hi) (f := f) h hn
  unfold RB.suffix
  split
  · exact ⟨h1, by omega, by omega⟩
  · split
    · rename_i pc hpc
      exact ⟨h, h.cache _ (mem_of_lookup hpc), Nat.le_refl _⟩
    · refine ⟨⟨h1.closed, h1.begin, h1.out, ?_, h1.all⟩, ?_, ?_⟩
      · intro e he
        simp only [List.mem_cons] at he
        rcases he with rfl | he
        · simp only; omega
        · exact h1.cache e he
      · simp only; omega
      · simp only; omega

theorem rbok_addBranch {b : RB} {pc : Nat} (h : RBOk b) (hp : pc < b.inst.length) :
    RBOk (b.addBranch pc) ∧ b.inst.length ≤ (b.addBranch pc).inst.length := by
  have hb := h.begin
  have ho := h.out
  unfold RB.addBranch
  split
  · refine ⟨⟨closed_set h.closed (by simpa using hp), by simpa using hb, by simpa using ho, ?_, bounded_set h.all trivial⟩, by simp⟩
    simpa using h.cache
  · rename_i out he
    have ht := h.closed _ (List.mem_of_getElem? he) out (by simp)
    refine ⟨⟨closed_set h.closed (by simp [hp, ht]), by simpa using hb, by simpa using ho, ?_, bounded_set h.all trivial⟩, by simp⟩
    simpa using h.cache
  · rename_i out arg he
    have ht := h.closed _ (List.mem_of_getElem? he) out (by simp)
    have ht' := h.closed _ (List.mem_of_getElem? he) arg (by simp)
    refine ⟨⟨closed_set (closed_snoc h.closed ?_) ?_, ?_, ?_, ?_, bounded_set (bounded_snoc h.all trivial) trivial⟩, ?_⟩
    · intro t ht; simp at ht; omega
    · intro t ht; simp at ht ⊢; omega
    · simp
    · simp; omega
    · intro e he; have := h.cache e he; simp; omega
    · simp
  · exact ⟨h, Nat.le_refl _⟩

theorem rbok_addBytes {b : RB} (h : RBOk b) : ∀ ws : List (UInt8 × UInt8),
    RBOk (b.addBytes ws).1 ∧ (b.addBytes ws).2 < (b.addBytes ws).1.inst.length ∧
      b.inst.length ≤ (b.addBytes ws).1.inst.length
  | [] => ⟨h, by have := h.begin; simp only [RB.addBytes]; omega, Nat.le_refl _⟩
  | (lo, hi) :: ws => by
    obtain ⟨h1, h2, h3⟩ := rbok_addBytes h ws
    obtain ⟨k1, k2, k3⟩ := rbok_suffix (lo := lo) (hi := hi) (f := false) h1 h2
    exact ⟨k1, k2, Nat.le_trans h3 k3⟩

/-- The length of the encoding of a code point, surrogates (which are encoded as U+FFFD) included. -/
theorem encodeRune_length {r : Nat} (h : r ≤ 0x10FFFF) :
    (encodeRune r).length = if r < 0x80 then 1 else if r < 0x800 then 2 else if r < 0x10000 then 3 else 4 := by
  by_cases hs : 0xD800 ≤ r ∧ r < 0xE000
  · have : encodeRune r = encodeRaw runeError := by
      unfold encodeRune
      rw [if_neg]
      simp only [validRune, Bool.or_eq_true, Bool.and_eq_true, decide_eq_true_eq]
      have h1 := hs.1
      have h2 := hs.2
      rintro (h' | ⟨h', _⟩)
      · exact absurd h' (Nat.not_lt.2 h1)
      · exact absurd h2 (Nat.not_lt.2 h')
    rw [this, if_neg (by omega), if_neg (by omega), if_pos (by omega)]
    decide
  · rw [encodeRune_eq_raw hs h, encodeRaw_nat]
    repeat' split
    all_goals simp

theorem addRange_total : ∀ (fuel : Nat) (b : RB) (lo hi : Nat) (f : Bool), RBOk b → hi ≤ 0x10FFFF → hi + 1 - lo ≤ fuel →
    ∃ b', RB.addRange fuel b lo hi f = some b' ∧ RBOk b' ∧ b.inst.length ≤ b'.inst.length := by
  intro fuel
  induction fuel with
  | zero =>
    intro b lo hi f hb _ hf
    exact ⟨b, by rw [RB.addRange, if_pos (show lo > hi by omega)], hb, Nat.le_refl _⟩
  | succ fuel ih =>
    intro b lo hi f hb hmax hf
    have two : ∀ e : Nat, lo ≤ e → e < hi →
        ∃ b', (match RB.addRange fuel b lo e f with
            | none => none
            | some b => RB.addRange fuel b (e + 1) hi f) = some b' ∧ RBOk b' ∧ b.inst.length ≤ b'.inst.length := by
      intro e h1 h2
      obtain ⟨b1, a1, a2, a3⟩ := ih b lo e f hb (by omega) (by omega)
      obtain ⟨b2, d1, d2, d3⟩ := ih b1 (e + 1) hi f a2 hmax (by omega)
      exact ⟨b2, by rw [a1]; exact d1, d2, Nat.le_trans a3 d3⟩
    rw [RB.addRange]
    by_cases hlh : hi < lo
    · rw [if_pos (show lo > hi from hlh)]
      exact ⟨b, rfl, hb, Nat.le_refl _⟩
    have hle : lo ≤ hi := by omega
    rw [if_neg (show ¬ lo > hi from hlh)]
    cases hls : lengthSplit lo hi with
    | some mx =>
      obtain ⟨h1, h2, _⟩ := lengthSplit_some hls
      simp only
      exact two mx h1 h2
    | none =>
      obtain ⟨l1, l2, l3⟩ := lengthSplit_none hls
      simp only
      have hpos : 0 < b.inst.length := Nat.lt_of_le_of_lt (Nat.zero_le _) hb.begin
      by_cases hascii : hi < 0x80
      · rw [if_pos (show hi < 0x80 from hascii)]
        obtain ⟨k1, k2, k3⟩ := rbok_suffix (lo := byteOf lo) (hi := byteOf hi) (f := f) hb hpos
        obtain ⟨m1, m2⟩ := rbok_addBranch k1 k2
        exact ⟨_, rfl, m1, Nat.le_trans k3 m2⟩
      · rw [if_neg (show ¬ hi < 0x80 from hascii)]
        cases hms : maskSplit lo hi [1, 2, 3] with
        | some es =>
          obtain ⟨e, s⟩ := es
          simp only
          obtain ⟨i, hi', h1, h2, h3⟩ := maskSplit_some hle hms
          subst h2
          simp only [List.mem_cons, List.not_mem_nil, or_false] at hi'
          rcases hi' with rfl | rfl | rfl
          · rw [pow6] at h1 h3
            exact two e (by omega) (by omega)
          · rw [pow12] at h1 h3
            exact two e (by omega) (by omega)
          · rw [pow18] at h1 h3
            exact two e (by omega) (by omega)
        | none =>
          simp only
          have hlen : ¬ ((encodeRune lo).length ≠ (encodeRune hi).length) := by
            rw [encodeRune_length (show lo ≤ 0x10FFFF by omega), encodeRune_length hmax]
            intro h
            apply h
            repeat' split
            all_goals omega
          rw [if_neg hlen]
          obtain ⟨k1, k2, k3⟩ := rbok_addBytes hb ((encodeRune lo).zip (encodeRune hi))
          obtain ⟨m1, m2⟩ := rbok_addBranch k1 k2
          exact ⟨_, rfl, m1, Nat.le_trans k3 m2⟩

theorem buildRanges_total {X : List Inst} {pc out : Nat} {ranges : List (Rune × Rune)} (h : Closed X)
    (hb : ∀ i ∈ X, InstBounded i) (hp : pc < X.length) (ho : out < X.length) (hr : ∀ p ∈ ranges, p.2 ≤ 0x10FFFF) :
    ∃ X', buildRanges X pc out ranges = some X' ∧ Closed X' ∧ (∀ i ∈ X', InstBounded i) ∧ X.length ≤ X'.length := by
  have go : ∀ (ranges : List (Rune × Rune)) (b : RB), RBOk b → (∀ p ∈ ranges, p.2 ≤ 0x10FFFF) →
      ∃ b', ranges.foldl (fun b p => b.bind fun b => b.range p.1 p.2) (some b) = some b' ∧ RBOk b' ∧
        b.inst.length ≤ b'.inst.length := by
    intro ranges
    induction ranges with
    | nil => intro b hb _; exact ⟨b, rfl, hb, Nat.le_refl _⟩
    | cons p ranges ih =>
      intro b hb hr
      obtain ⟨b1, a1, a2, a3⟩ := addRange_total (p.2 + 1 - p.1) b p.1 p.2 false hb (hr p List.mem_cons_self) (Nat.le_refl _)
      obtain ⟨b2, d1, d2, d3⟩ := ih b1 a2 (fun q hq => hr q (List.mem_cons_of_mem _ hq))
      refine ⟨b2, ?_, d2, Nat.le_trans a3 d3⟩
      rw [List.foldl_cons]
      simp only [Option.bind_some, RB.range]
      rw [a1]
      exact d1
  obtain ⟨b', h1, h2, h3⟩ := go ranges (RB.init X pc out) (rbok_init h hb hp ho) hr
  refine ⟨b'.inst, by unfold buildRanges; rw [h1]; rfl, h2.closed, h2.all, ?_⟩
  simpa [RB.init] using h3

theorem appendRange_max {rs : List (Rune × Rune)} {lo hi : Rune} {m : Nat} (h : ∀ p ∈ rs, p.2 ≤ m) (hh : hi ≤ m) :
    ∀ p ∈ appendRange rs lo hi, p.2 ≤ m := by
  have key : ∀ (i : Nat) (rlo rhi : Rune), rs[i]? = some (rlo, rhi) → ∀ p ∈ rs.set i (if lo < rlo then lo else rlo, if hi > rhi then hi else rhi), p.2 ≤ m := by
    intro i rlo rhi hi' p hp
    have h1 := h _ (List.mem_of_getElem? hi')
    rcases List.mem_or_eq_of_mem_set hp with h2 | rfl
    · exact h p h2
    · simp only
      split
      · exact hh
      · exact h1
  have app : ∀ p ∈ rs ++ [(lo, hi)], p.2 ≤ m := by
    intro p hp
    rcases List.mem_append.1 hp with h1 | h1
    · exact h p h1
    · rw [List.mem_singleton] at h1
      subst h1
      exact hh
  intro p hp
  unfold appendRange at hp
  simp only at hp
  split at hp
  · rename_i r hr
    split at hr
    · split at hr
      · rename_i rlo rhi he
        split at hr
        · cases hr; exact key _ _ _ he p hp
        · cases hr
      · cases hr
    · cases hr
  · split at hp
    · rename_i r hr
      split at hr
      · split at hr
        · rename_i rlo rhi he
          split at hr
          · cases hr; exact key _ _ _ he p hp
          · cases hr
        · cases hr
      · cases hr
    · exact app p hp

theorem foldLoop_max {orbit : Rune → List Rune} {m : Nat} (ho : ∀ c : Nat, c ≤ m → ∀ f ∈ orbit c, f ≤ m) :
    ∀ (cs : List Rune) {rs : List (Rune × Rune)}, (∀ p ∈ rs, p.2 ≤ m) → (∀ c ∈ cs, c ≤ m) →
      ∀ p ∈ foldLoop orbit rs cs, p.2 ≤ m := by
  have inner : ∀ (fs : List Rune) {rs : List (Rune × Rune)}, (∀ p ∈ rs, p.2 ≤ m) → (∀ f ∈ fs, f ≤ m) →
      ∀ p ∈ fs.foldl (fun r f => appendRange r f f) rs, p.2 ≤ m := by
    intro fs
    induction fs with
    | nil => intro rs h _; exact h
    | cons f fs ih =>
      intro rs h hf
      exact ih (appendRange_max h (hf f List.mem_cons_self)) (fun g hg => hf g (List.mem_cons_of_mem _ hg))
  intro cs
  induction cs with
  | nil => intro rs h _; exact h
  | cons c cs ih =>
    intro rs h hc
    refine ih (inner (c :: orbit c) h ?_) (fun g hg => hc g (List.mem_cons_of_mem _ hg))
    intro f hf
    have hcm := hc c List.mem_cons_self
    rcases List.mem_cons.1 hf with rfl | hf
    · exact hcm
    · exact ho c hcm f hf

theorem appendFoldedRange_max {orbit : Rune → List Rune} (ho : ∀ c : Nat, c ≤ 0x10FFFF → ∀ f ∈ orbit c, f ≤ 0x10FFFF)
    {rs : List (Rune × Rune)} {lo hi : Rune} (h : ∀ p ∈ rs, p.2 ≤ 0x10FFFF) (hh : hi ≤ 0x10FFFF) :
    ∀ p ∈ appendFoldedRange orbit rs lo hi, p.2 ≤ 0x10FFFF := by
  unfold appendFoldedRange
  split
  · exact appendRange_max h hh
  split
  · exact appendRange_max h hh
  have h1 : ∀ (x : List (Rune × Rune) × Rune), x = (if lo < minFold then (appendRange rs lo (minFold - 1), minFold) else (rs, lo)) →
      ∀ p ∈ x.1, p.2 ≤ 0x10FFFF := by
    intro x hx
    subst hx
    split
    · exact appendRange_max h (by decide)
    · exact h
  generalize hx : (if lo < minFold then (appendRange rs lo (minFold - 1), minFold) else (rs, lo)) = x
  obtain ⟨rs1, lo1⟩ := x
  have h2 := h1 _ hx.symm
  simp only
  generalize hy : (if hi > maxFold then (appendRange rs1 (maxFold + 1) hi, maxFold) else (rs1, hi)) = y
  obtain ⟨rs2, hi1⟩ := y
  have h3 : (∀ p ∈ rs2, p.2 ≤ 0x10FFFF) ∧ hi1 ≤ 0x10FFFF := by
    split at hy
    · cases hy
      exact ⟨appendRange_max h2 hh, by decide⟩
    · cases hy
      exact ⟨h2, hh⟩
  simp only
  refine foldLoop_max ho _ h3.1 ?_
  intro c hc
  have h4 := (List.mem_range'_1.1 hc).2
  have h5 : (hi1 : Nat) ≤ 0x10FFFF := h3.2
  show (c : Nat) ≤ 0x10FFFF
  have h6 : (c : Nat) < lo1 + (hi1 + 1 - lo1) := h4
  have h7 := (List.mem_range'_1.1 hc).1
  have h8 : (lo1 : Nat) ≤ c := h7
  exact bound_aux h6 h8 h5
where
  bound_aux {lo hi c : Nat} (h : c < lo + (hi + 1 - lo)) (h1 : lo ≤ c) (h2 : hi ≤ 0x10FFFF) : c ≤ 0x10FFFF := by omega

theorem pairsOf_max {m : Nat} : ∀ {rs : List Rune}, (∀ r ∈ rs, r ≤ m) → ∀ p ∈ pairsOf rs, p.2 ≤ m
  | [], _, p, hp => by simp [pairsOf] at hp
  | [_], _, p, hp => by simp [pairsOf] at hp
  | a :: b :: rs, h, p, hp => by
    rw [pairsOf] at hp
    rcases List.mem_cons.1 hp with rfl | hp
    · exact h b (by simp)
    · exact pairsOf_max (fun r hr => h r (by simp [hr])) p hp

theorem instRanges_max {orbit : Rune → List Rune} (ho : ∀ c : Nat, c ≤ 0x10FFFF → ∀ f ∈ orbit c, f ≤ 0x10FFFF)
    {rs : List Rune} {fold : Bool} (h : ∀ r ∈ rs, r ≤ 0x10FFFF) : ∀ p ∈ instRanges orbit rs fold, p.2 ≤ 0x10FFFF := by
  have go : ∀ (ps : List (Rune × Rune)) {rr : List (Rune × Rune)}, (∀ p ∈ rr, p.2 ≤ 0x10FFFF) → (∀ p ∈ ps, p.2 ≤ 0x10FFFF) →
      ∀ p ∈ ps.foldl (fun rr p => appendFoldedRange orbit rr p.1 p.2) rr, p.2 ≤ 0x10FFFF := by
    intro ps
    induction ps with
    | nil => intro rr h _; exact h
    | cons q ps ih =>
      intro rr h hq
      exact ih (appendFoldedRange_max ho h (hq q List.mem_cons_self)) (fun g hg => hq g (List.mem_cons_of_mem _ hg))
  unfold instRanges
  split
  · split
    · exact appendFoldedRange_max ho (by simp) (h _ (by simp))
    · exact go _ (by simp) (pairsOf_max h)
  · split
    · intro p hp
      rw [List.mem_singleton] at hp
      subst hp
      exact h _ (by simp)
    · exact pairsOf_max h

theorem toByteInst_total {orbit : Rune → List Rune} (ho : ∀ c : Nat, c ≤ 0x10FFFF → ∀ f ∈ orbit c, f ≤ 0x10FFFF)
    {X : List Inst} (h : Closed X) (hb : ∀ i ∈ X, InstBounded i) (pc : Nat) :
    ∃ X', toByteInst orbit X pc = some X' ∧ Closed X' ∧ (∀ i ∈ X', InstBounded i) ∧ X.length ≤ X'.length := by
  unfold toByteInst
  have one : ∀ {lo hi : UInt8} {f : Bool} {out : Nat}, out < X.length → ∃ X', some (X.set pc (.byteRange lo hi f out)) = some X' ∧
      Closed X' ∧ (∀ i ∈ X', InstBounded i) ∧ X.length ≤ X'.length := by
    intro lo hi f out hout
    exact ⟨_, rfl, closed_set h (by simpa using hout), bounded_set hb trivial, by simp⟩
  split
  · rename_i rs fold out he
    have ht := h _ (List.mem_of_getElem? he) out (by simp)
    have hbd := hb _ (List.mem_of_getElem? he)
    split
    · exact one ht
    · exact buildRanges_total h hb (getElem?_lt he) ht (instRanges_max ho hbd.2)
  · rename_i r out he
    have ht := h _ (List.mem_of_getElem? he) out (by simp)
    have hbd := hb _ (List.mem_of_getElem? he)
    split
    · exact one ht
    · refine buildRanges_total h hb (getElem?_lt he) ht ?_
      intro p hp
      rw [List.mem_singleton] at hp
      subst hp
      exact hbd
  · rename_i out he
    refine buildRanges_total h hb (getElem?_lt he) (h _ (List.mem_of_getElem? he) out (by simp)) ?_
    intro p hp
    rw [List.mem_singleton] at hp
    subst hp
    exact Nat.le_refl _
  · rename_i out he
    refine buildRanges_total h hb (getElem?_lt he) (h _ (List.mem_of_getElem? he) out (by simp)) ?_
    intro p hp
    rw [List.mem_singleton] at hp
    subst hp
    exact Nat.le_refl _
  · exact ⟨X, rfl, h, hb, Nat.le_refl _⟩

/-- Every closed program is turned into a closed one of byte ranges, whatever its code points. -/
theorem toByteProg_total {orbit : Rune → List Rune} (ho : ∀ c : Nat, c ≤ 0x10FFFF → ∀ f ∈ orbit c, f ≤ 0x10FFFF)
    {p : Prog} (h : Closed p.inst) (hb : ∀ i ∈ p.inst, InstBounded i) :
    ∃ q, toByteProg orbit p = some q ∧ q.start = p.start ∧ Closed q.inst ∧ p.inst.length ≤ q.inst.length := by
  have go : ∀ (pcs : List Nat) (X : List Inst), Closed X → (∀ i ∈ X, InstBounded i) →
      ∃ X', pcs.foldl (fun inst pc => inst.bind fun inst => toByteInst orbit inst pc) (some X) = some X' ∧ Closed X' ∧
        X.length ≤ X'.length := by
    intro pcs
    induction pcs with
    | nil => intro X h _; exact ⟨X, rfl, h, Nat.le_refl _⟩
    | cons pc pcs ih =>
      intro X h hb
      obtain ⟨X1, a1, a2, a3, a4⟩ := toByteInst_total ho h hb pc
      obtain ⟨X2, b1, b2, b3⟩ := ih X1 a2 a3
      refine ⟨X2, ?_, b2, Nat.le_trans a4 b3⟩
      rw [List.foldl_cons, Option.bind_some, a1]
      exact b1
  obtain ⟨X', h1, h2, h3⟩ := go (List.range p.inst.length) p.inst h hb
  exact ⟨{ p with inst := X' }, by unfold toByteProg; rw [h1]; rfl, rfl, h2, h3⟩

end Hound
