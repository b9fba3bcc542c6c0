import Verif.Proofs.GoCompileInv
import Verif.Props.Walk

/-!
# C01 and C02 from the tree of the pattern

With `Simplify` and `Compile` of Go's `regexp/syntax` modelled, the programs of C01, C02 and C17 are those the code makes:
nothing is assumed of them but that they have fewer than 2^32 instructions.
-/

namespace Hound.GoRe
open Spec

variable {orbit : Rune → List Rune}

/-! ## From the leaves of the tree to the instructions -/

theorem rangePairs_flat : ∀ rs : List (Rune × Rune), rangePairs (flatRanges rs) = rs
  | [] => rfl
  | (a, b) :: rs => by rw [flatRanges, rangePairs, rangePairs_flat rs]

theorem flat_four {a c : Rune} : ∀ {rs : List (Rune × Rune)}, flatRanges rs = [a, a, c, c] → rs = [(a, a), (c, c)]
  | [], h => by cases h
  | [_], h => by simp [flatRanges] at h
  | [(x, y), (z, w)], h => by
    simp only [flatRanges, List.cons.injEq, and_true] at h
    obtain ⟨rfl, rfl, rfl, rfl⟩ := h
    rfl
  | _ :: _ :: _ :: _, h => by simp [flatRanges] at h

theorem valid_of_clear {a : Nat} (h1 : a ≤ 0x10FFFF) (h2 : ClearRange a a) : validRune a = true := by
  simp only [ClearRange] at h2
  have : a < 0xD800 ∨ (0xE000 ≤ a ∧ a ≤ 0x10FFFF) := by omega
  simp only [validRune, Bool.or_eq_true, Bool.and_eq_true, decide_eq_true_eq]
  exact this

theorem runeOK_inner : Inner (RuneOK orbit) where
  set a v i h := by
    cases i with
    | rune rs f o =>
      match rs, f, h with
      | [], _, h => simpa only [setSlot, RuneOK] using h
      | [x], false, h => simpa only [setSlot, RuneOK] using h
      | [x], true, h => simpa only [setSlot, RuneOK] using h
      | x :: y :: rs, _, h => simpa only [setSlot, RuneOK] using h
    | alt o a' => cases a <;> simp [setSlot, RuneOK]
    | altMatch o a' => cases a <;> simp [setSlot, RuneOK]
    | _ => simpa [setSlot, RuneOK] using h
  nop := by simp [RuneOK]
  capture := by simp [RuneOK]
  alt _ _ := by simp [RuneOK]

theorem runeOK_lit {r : Rune} {fold : Bool} (h : RuneOK orbit (.rune [r] fold 0)) : RuneOK orbit (runeInstOf orbit [r] fold) := by
  cases fold with
  | false => simpa [runeInstOf, RuneOK] using h
  | true =>
    simp only [runeInstOf]
    split
    · exact h
    · simp only [RuneOK] at h ⊢; exact h.1

theorem runeOK_class {ranges : List (Rune × Rune)} (h1 : ∀ p ∈ ranges, p.1 ≤ p.2 ∧ p.2 ≤ 0x10FFFF ∧ ClearRange p.1 p.2)
    (h2 : ∀ a c : Rune, ranges = [(a, a), (c, c)] → c = (orbit a).headD a → a = (orbit c).headD c → a < 0x80 ∧ a < c) :
    RuneOK orbit (runeInstOf orbit (flatRanges ranges) false) := by
  have hgen : (∀ p ∈ rangePairs (flatRanges ranges), p.1 ≤ p.2 ∧ p.2 ≤ 0x10FFFF ∧ ClearRange p.1 p.2) ∧
      ∀ a c : Rune, flatRanges ranges = [a, a, c, c] → c = (orbit a).headD a → a = (orbit c).headD c → a < 0x80 ∧ a < c := by
    rw [rangePairs_flat]
    exact ⟨h1, fun a c he => h2 a c (flat_four he)⟩
  match ranges, h1, hgen with
  | [], _, hgen => simpa only [flatRanges, runeInstOf, RuneOK, true_and] using hgen
  | [(a, b)], h1, hgen =>
    simp only [flatRanges, runeInstOf] at hgen ⊢
    split
    · rename_i hab
      obtain ⟨_, h4, h5⟩ := h1 (a, b) (List.mem_singleton.2 rfl)
      simp only [RuneOK]
      subst hab
      exact valid_of_clear h4 h5
    · split
      · simp [RuneOK]
      · simpa only [RuneOK, true_and] using hgen
  | [(a, b), (c, d)], _, hgen =>
    simp only [flatRanges, runeInstOf] at hgen ⊢
    split
    · simp [RuneOK]
    · simpa only [RuneOK, true_and] using hgen
  | (a, b) :: (c, d) :: (e, f) :: rs, _, hgen =>
    simp only [flatRanges, runeInstOf] at hgen ⊢
    simpa only [RuneOK, true_and] using hgen

mutual
theorem runesOK_leaves : ∀ s : Syn, RunesOK orbit s → ∀ i ∈ leaves orbit s, RuneOK orbit i
  | .noMatch, _, i, hi | .emptyMatch, _, i, hi => by simp [leaves] at hi
  | .anyCharNotNL, _, i, hi | .anyChar, _, i, hi | .beginLine, _, i, hi | .endLine, _, i, hi | .beginText, _, i, hi
  | .endText _, _, i, hi | .wordBoundary, _, i, hi | .noWordBoundary, _, i, hi => by
    simp only [leaves, List.mem_singleton] at hi; subst hi; simp [RuneOK]
  | .literal rs fold, h, i, hi => by
    simp only [RunesOK] at h
    simp only [leaves, List.mem_map] at hi
    obtain ⟨r, hr, rfl⟩ := hi
    exact runeOK_lit (h r hr)
  | .charClass ranges, h, i, hi => by
    simp only [RunesOK] at h
    simp only [leaves, List.mem_singleton] at hi; subst hi
    exact runeOK_class h.1 h.2
  | .capture _ _ r, h, i, hi | .star _ r, h, i, hi | .plus _ r, h, i, hi | .quest _ r, h, i, hi
  | .rep _ r _ _, h, i, hi => by
    simp only [RunesOK] at h
    simp only [leaves] at hi
    exact runesOK_leaves r h i hi
  | .concat rs, h, i, hi | .alternate rs, h, i, hi => by
    simp only [RunesOK] at h
    simp only [leaves] at hi
    exact runesOKL_leaves rs h i hi
theorem runesOKL_leaves : ∀ rs : List Syn, RunesOKL orbit rs → ∀ i ∈ leavesL orbit rs, RuneOK orbit i
  | [], _, i, hi => by simp [leavesL] at hi
  | r :: rs, h, i, hi => by
    simp only [RunesOKL] at h
    simp only [leavesL, List.mem_append] at hi
    exact hi.elim (runesOK_leaves r h.1 i) (runesOKL_leaves rs h.2 i)
end

/-- The instruction only asks for code points that can be encoded. -/
def AsksValid (orbit : Rune → List Rune) (i : Inst) : Prop := ∀ r, InstHas orbit i r → validRune r = true

theorem asksValid_inner : Inner (AsksValid orbit) where
  set a v i h := by
    cases i with
    | rune rs f o =>
      intro r hr
      refine h r ?_
      cases rs with
      | nil => exact hr
      | cons x t => cases t <;> exact hr
    | alt o a' => cases a <;> simp [setSlot, AsksValid, InstHas]
    | altMatch o a' => cases a <;> simp [setSlot, AsksValid, InstHas]
    | rune1 x o => exact h
    | runeAny o => exact h
    | runeAnyNotNL o => exact h
    | _ => simp [setSlot, AsksValid, InstHas]
  nop := by simp [AsksValid, InstHas]
  capture := by simp [AsksValid, InstHas]
  alt _ _ := by simp [AsksValid, InstHas]

theorem asksValid_lit {r : Rune} {fold : Bool} (h : ∀ x, FoldsTo orbit fold r x → validRune x = true) : AsksValid orbit (runeInstOf orbit [r] fold) := by
  intro x hx
  unfold runeInstOf at hx
  simp only at hx
  split at hx
  · rename_i hf
    simp only [Bool.and_eq_true] at hf
    rw [hf.1] at h
    exact h x hx
  · exact h x (.inl hx)

theorem asksValid_class {ranges : List (Rune × Rune)} (h : ∀ p ∈ ranges, ∀ x : Rune, p.1 ≤ x → x ≤ p.2 → validRune x = true) :
    AsksValid orbit (runeInstOf orbit (flatRanges ranges) false) := by
  have hgen : ∀ x, (∃ p ∈ rangePairs (flatRanges ranges), p.1 ≤ x ∧ x ≤ p.2) → validRune x = true := by
    rw [rangePairs_flat]
    rintro x ⟨p, hp, h1, h2⟩
    exact h p hp x h1 h2
  match ranges, h, hgen with
  | [], _, hgen => exact fun x hx => hgen x hx
  | [(a, b)], h, hgen =>
    intro x hx
    simp only [flatRanges, runeInstOf] at hgen hx
    split at hx
    · rename_i hab
      rw [InstHas] at hx
      subst hx
      exact h _ (List.mem_singleton.2 rfl) x (Nat.le_refl _) (Nat.le_of_eq hab)
    · split at hx
      · rename_i hab
        have := h _ (List.mem_singleton.2 rfl) 0xD800 (by rw [hab.1]; exact Nat.zero_le _) (by rw [hab.2]; show (0xD800 : Nat) ≤ 0x10FFFF; decide)
        exact absurd this (by decide)
      · exact hgen x hx
  | [(a, b), (c, d)], h, hgen =>
    intro x hx
    simp only [flatRanges, runeInstOf] at hgen hx
    split at hx
    · rename_i hab
      have := h (c, d) (by simp) 0xD800 (by rw [hab.2.2.1]; show (11 : Nat) ≤ 0xD800; decide) (by rw [hab.2.2.2]; show (0xD800 : Nat) ≤ 0x10FFFF; decide)
      exact absurd this (by decide)
    · exact hgen x hx
  | (a, b) :: (c, d) :: (e, f) :: rs, _, hgen =>
    intro x hx
    simp only [flatRanges, runeInstOf] at hgen hx
    exact hgen x hx

mutual
theorem asksValid_leaves : ∀ s : Syn, NoSurrogates orbit s → ∀ i ∈ leaves orbit s, AsksValid orbit i
  | .noMatch, _, i, hi | .emptyMatch, _, i, hi => by simp [leaves] at hi
  | .anyCharNotNL, h, _, _ | .anyChar, h, _, _ => by simp [NoSurrogates] at h
  | .beginLine, _, i, hi | .endLine, _, i, hi | .beginText, _, i, hi
  | .endText _, _, i, hi | .wordBoundary, _, i, hi | .noWordBoundary, _, i, hi => by
    simp only [leaves, List.mem_singleton] at hi; subst hi; simp [AsksValid, InstHas]
  | .literal rs fold, h, i, hi => by
    simp only [NoSurrogates] at h
    simp only [leaves, List.mem_map] at hi
    obtain ⟨r, hr, rfl⟩ := hi
    exact asksValid_lit (h r hr)
  | .charClass ranges, h, i, hi => by
    simp only [NoSurrogates] at h
    simp only [leaves, List.mem_singleton] at hi; subst hi
    exact asksValid_class h
  | .capture _ _ r, h, i, hi | .star _ r, h, i, hi | .plus _ r, h, i, hi | .quest _ r, h, i, hi
  | .rep _ r _ _, h, i, hi => by
    simp only [NoSurrogates] at h
    simp only [leaves] at hi
    exact asksValid_leaves r h i hi
  | .concat rs, h, i, hi | .alternate rs, h, i, hi => by
    simp only [NoSurrogates] at h
    simp only [leaves] at hi
    exact asksValidL_leaves rs h i hi
theorem asksValidL_leaves : ∀ rs : List Syn, NoSurrogatesL orbit rs → ∀ i ∈ leavesL orbit rs, AsksValid orbit i
  | [], _, i, hi => by simp [leavesL] at hi
  | r :: rs, h, i, hi => by
    simp only [NoSurrogatesL] at h
    simp only [leavesL, List.mem_append] at hi
    exact hi.elim (asksValid_leaves r h.1 i) (asksValidL_leaves rs h.2 i)
end

/-- The instruction is not `\A`. -/
def NotBegin (i : Inst) : Prop := ∀ op out, i = .empty op out → op.bot = false

theorem notBegin_inner : Inner NotBegin where
  set a v i h := by
    cases i with
    | empty op o =>
      intro op' out' e
      simp only [setSlot, Inst.empty.injEq] at e
      rw [← e.1]
      exact h op o rfl
    | alt o a' => cases a <;> simp [setSlot, NotBegin]
    | altMatch o a' => cases a <;> simp [setSlot, NotBegin]
    | _ => simp [setSlot, NotBegin]
  nop := by simp [NotBegin]
  capture := by simp [NotBegin]
  alt _ _ := by simp [NotBegin]

theorem notBegin_rune (rs : List Rune) (fold : Bool) : NotBegin (runeInstOf orbit rs fold) := by
  intro op out h
  unfold runeInstOf at h
  split at h
  · split at h <;> cases h
  · split at h
    · cases h
    · split at h <;> cases h
  · split at h <;> cases h
  · cases h

mutual
theorem notBegin_leaves : ∀ s : Syn, NoBeginTextTree s → ∀ i ∈ leaves orbit s, NotBegin i
  | .noMatch, _, i, hi | .emptyMatch, _, i, hi => by simp [leaves] at hi
  | .beginText, h, _, _ => by simp [NoBeginTextTree] at h
  | .anyCharNotNL, _, i, hi | .anyChar, _, i, hi | .beginLine, _, i, hi | .endLine, _, i, hi
  | .endText _, _, i, hi | .wordBoundary, _, i, hi | .noWordBoundary, _, i, hi => by
    simp only [leaves, List.mem_singleton] at hi; subst hi
    intro op out e
    cases e
    try rfl
  | .literal rs fold, h, i, hi => by
    simp only [leaves, List.mem_map] at hi
    obtain ⟨r, hr, rfl⟩ := hi
    exact notBegin_rune _ _
  | .charClass ranges, h, i, hi => by
    simp only [leaves, List.mem_singleton] at hi; subst hi
    exact notBegin_rune _ _
  | .capture _ _ r, h, i, hi | .star _ r, h, i, hi | .plus _ r, h, i, hi | .quest _ r, h, i, hi
  | .rep _ r _ _, h, i, hi => by
    simp only [NoBeginTextTree] at h
    simp only [leaves] at hi
    exact notBegin_leaves r h i hi
  | .concat rs, h, i, hi | .alternate rs, h, i, hi => by
    simp only [NoBeginTextTree] at h
    simp only [leaves] at hi
    exact notBeginL_leaves rs h i hi
theorem notBeginL_leaves : ∀ rs : List Syn, NoBeginTextTreeL rs → ∀ i ∈ leavesL orbit rs, NotBegin i
  | [], _, i, hi => by simp [leavesL] at hi
  | r :: rs, h, i, hi => by
    simp only [NoBeginTextTreeL] at h
    simp only [leavesL, List.mem_append] at hi
    exact hi.elim (notBegin_leaves r h.1 i) (notBeginL_leaves rs h.2 i)
end

/-! ## The compiled program -/

/-- Compiling never panics on a simplified tree. -/
theorem compile_total (s : Syn) : ∃ p, compileProg orbit (simplify s) = some p := by
  obtain ⟨p, h, _⟩ := compileProg_inv (orbit := orbit) (Q := fun _ => True) ⟨fun _ _ _ _ => trivial, trivial, trivial, fun _ _ => trivial⟩
    trivial trivial s fun _ _ => trivial
  exact ⟨p, h⟩

theorem compile_progOK {s : Syn} {p : Prog} (h : compileProg orbit (simplify s) = some p) (hl : p.inst.length < 2 ^ 32) :
    ProgOK p := by
  obtain ⟨p', h', _, h1, h2⟩ := compileProg_inv (orbit := orbit) (Q := fun _ => True)
    ⟨fun _ _ _ _ => trivial, trivial, trivial, fun _ _ => trivial⟩ trivial trivial s fun _ _ => trivial
  rw [h] at h'
  cases h'
  refine ⟨h1, hl, fun i hi t ht => h2 i hi t ?_⟩
  cases i <;> simpa [nextsOf] using ht

theorem compile_runeOK {s : Syn} {p : Prog} (h : compileProg orbit (simplify s) = some p) (hr : RunesOK orbit s) :
    ∀ i ∈ p.inst, RuneOK orbit i := by
  obtain ⟨p', h', h1, _⟩ := compileProg_inv runeOK_inner (by simp [RuneOK]) (by simp [RuneOK]) s (runesOK_leaves s hr)
  rw [h] at h'
  cases h'
  exact h1

theorem compile_noBegin {s : Syn} {p : Prog} (h : compileProg orbit (simplify s) = some p) (hr : NoBeginTextTree s) :
    NoBeginText p := by
  obtain ⟨p', h', h1, _⟩ := compileProg_inv notBegin_inner (by simp [NotBegin]) (by simp [NotBegin]) s
    (notBegin_leaves (orbit := orbit) s hr)
  rw [h] at h'
  cases h'
  exact fun op out hm => h1 _ hm op out rfl

theorem compile_onlyValid {s : Syn} {p : Prog} (h : compileProg orbit (simplify s) = some p) (hr : NoSurrogates orbit s) : OnlyValid orbit p := by
  obtain ⟨p', h', h1, _⟩ := compileProg_inv asksValid_inner (by simp [AsksValid, InstHas]) (by simp [AsksValid, InstHas]) s (asksValid_leaves s hr)
  rw [h] at h'
  cases h'
  exact h1

/-- The program of the simplified tree finds what the tree matches. -/
theorem compile_faithful {s : Syn} {p : Prog} (hb : Bounded s) (h : compileProg orbit (simplify s) = some p) :
    Faithful orbit s.re p := by
  intro w a e hl
  rw [compiles_faithful (compileProg_compiles h) w a e hl]
  have := simplify_same (orbit := orbit) s hb
  constructor
  · rintro ⟨i, j, h1, h2, h3, h4⟩; exact ⟨i, j, h1, h2, h3, (this w i j).1 h4⟩
  · rintro ⟨i, j, h1, h2, h3, h4⟩; exact ⟨i, j, h1, h2, h3, (this w i j).2 h4⟩

theorem compiledTree_from {grow : Nat → Nat → Nat} {s : Syn} {c : Compiled Query} (hb : Bounded s)
    (h : CompiledTree grow orbit s c) : ∃ p, compileProg orbit (simplify s) = some p ∧ CompiledFrom grow orbit s.re p c := by
  obtain ⟨⟨p, q, h1, h2, h3, h4, h5⟩, h6⟩ := h
  obtain ⟨k, hk, hacc⟩ := compileProg_compiles h1
  exact ⟨p, h1, ⟨k, .simplify (fun w i j => (simplify_same s hb w i j).symm) hk, hacc⟩, compile_progOK h1 h2, ⟨q, h3, h4, h5⟩, h6⟩

end Hound.GoRe

namespace Hound
open Spec GoRe

section
variable {grow : Nat → Nat → Nat} {orbit : Rune → List Rune} {t : Syn} {c : Compiled Query}
  {ix : IndexView Query} {files : List (Bytes × Reader)} {answers : List (Option SkipReason)}
  {compile : Bytes → Option (Compiled Query)} {quoteMeta : Bytes → Bytes} {pat : Bytes} {opt : SearchOptions}

/-- **C01 from the tree of the pattern.** The pattern is simplified, compiled and turned into a byte program as the code does
it. Provisos on the tree: `x{n,m}` has `n ≤ m`, the characters and classes are those of C17, the trigram query is computed
without an in-place append in `alternate` (C09). -/
theorem search_complete_tree_partial (hf : AsciiFolds orbit) (hc : CompiledTree grow orbit t c) (hb : Bounded t)
    (hr : RunesOK orbit t) (hz : (HInfo.regexpQuery grow orbit t.re).2 = false)
    (hix : ServesFiles ix files answers) (hcomp : compile (fullPattern quoteMeta pat opt) = some c) (ho : Plain opt)
    {name content : Bytes} {s e : Nat} (hfile : (name, content) ∈ indexedFiles files answers)
    (hline : LineAt content s e) (hs : s < content.length) (hm : MatchWithin orbit t.re content s e) :
    Reports (search compile quoteMeta ix pat opt) name ((content.take s).count NL + 1) (slice content s e) := by
  obtain ⟨p, h1, h2⟩ := compiledTree_from hb hc
  exact search_complete_partial hf h2 hz (compile_runeOK h1 hr) hix hcomp ho hfile hline hs hm

/-- **C02 from the tree of the pattern**: only matching lines are reported, for patterns without `\A`, and lines without
encoded surrogates or patterns that cannot match any, whose characters and classes are those of C17. -/
theorem search_only_matching_tree_partial (hf : AsciiFolds orbit) (hc : CompiledTree grow orbit t c) (hb : Bounded t)
    (hrk : RunesOK orbit t) (hnb : NoBeginTextTree t)
    (hix : ServesFiles ix files answers) (hcomp : compile (fullPattern quoteMeta pat opt) = some c)
    {r : SearchResponse} (hr : search compile quoteMeta ix pat opt = .ok r) {fm : FileMatch} (hfm : fm ∈ r.matches_)
    {m : LineMatch} (hm : m ∈ fm.matches_) :
    ∃ content, (fm.filename, content) ∈ indexedFiles files answers ∧
      ∃ s e, LineAt content s e ∧ m.lineno = (content.take s).count NL + 1 ∧ m.line = slice content s e ∧
        (NoSurrogate m.line ∨ NoSurrogates orbit t → MatchWithin orbit t.re content s e) := by
  obtain ⟨p, h1, h2⟩ := compiledTree_from hb hc
  obtain ⟨content, hmem, s, e, k1, k2, k3, k4⟩ :=
    search_only_matching_partial hf h2 (compile_runeOK h1 hrk) (compile_noBegin h1 hnb) hix hcomp hr hfm hm
  exact ⟨content, hmem, s, e, k1, k2, k3, fun h => k4 (h.imp id (compile_onlyValid h1))⟩

end

/-- **C17 for compiled trees**: compiling a tree and turning the program into bytes always succeeds, and on every line
without encoded surrogates the byte program accepts exactly if the text has a match of the tree inside the line. -/
theorem compile_tree_partial {orbit : Rune → List Rune} (hf : AsciiFolds orbit) (t : Syn) (hb : Bounded t) (hr : RunesOK orbit t) :
    ∃ p, compileProg orbit (simplify t) = some p ∧ (p.inst.length < 2 ^ 32 → ∃ q, toByteProg orbit p = some q ∧
      ∀ (w : Bytes) (s e : Nat), LineAt w s e → NoSurrogate (slice w s e) →
        (Accepts q (s == 0) (e == w.length) (slice w s e) ↔ MatchWithin orbit t.re w s e)) := by
  obtain ⟨p, hp⟩ := compile_total (orbit := orbit) t
  refine ⟨p, hp, fun hl => ?_⟩
  have hpk := compile_progOK hp hl
  have hok := compile_runeOK hp hr
  obtain ⟨q, hq, _⟩ := toByteProg_succeeds hf hpk hok
  refine ⟨q, hq, fun w s e hline hsur => ?_⟩
  rw [toByteProg_exact_partial hf hpk hok hq hline.2.2.1 hsur]
  exact compile_faithful hb hp w s e hline

/-! ## A case in which everything is met -/

/-- The tree of `a(b|c)*d{2,3}$` (with the flag `m`). -/
def sampleTreeRe : Syn :=
  .concat [.literal [97] false, .star false (.capture 1 [] (.charClass [(98, 99)])), .rep false (.literal [100] false) 2 (some 3),
    .endLine]

theorem sampleTreeRe_ok : Bounded sampleTreeRe ∧ RunesOK exOrbit sampleTreeRe ∧ NoBeginTextTree sampleTreeRe := by
  refine ⟨?_, ?_, ?_⟩
  · simp [sampleTreeRe, Bounded, BoundedL]
  · simp only [sampleTreeRe, RunesOK, RunesOKL, RuneOK]
    refine ⟨?_, ⟨?_, ?_⟩, ?_, trivial, trivial⟩
    · intro r hr; rw [List.mem_singleton.1 hr]; decide
    · intro p hp; rw [List.mem_singleton.1 hp]; simp [ClearRange]
    · intro a c h; simp at h
    · intro r hr; rw [List.mem_singleton.1 hr]; decide
  · simp [sampleTreeRe, NoBeginTextTree, NoBeginTextTreeL]

/-- What the compiler makes of it. -/
example : (compileProg exOrbit (simplify sampleTreeRe)).map (fun p => (p.inst.length, p.start)) = some (12, 1) := by decide +kernel

theorem sampleTreeRe_compiled : ∃ c, CompiledTree goGrow exOrbit sampleTreeRe c := by
  obtain ⟨h1, h2, _⟩ := sampleTreeRe_ok
  obtain ⟨p, hp⟩ := compile_total (orbit := exOrbit) sampleTreeRe
  have hl : p.inst.length < 2 ^ 32 := by
    have : (compileProg exOrbit (simplify sampleTreeRe)).map (fun p => p.inst.length) = some 12 := by decide +kernel
    rw [hp] at this
    simp at this
    omega
  obtain ⟨q, hq, hqok, _⟩ := toByteProg_succeeds exOrbit_ascii (compile_progOK hp hl) (compile_runeOK hp h2)
  have hlen : q.inst.length < 2 ^ 32 := by
    have : ((compileProg exOrbit (simplify sampleTreeRe)).bind (toByteProg exOrbit)).map (fun q => decide (q.inst.length < 2 ^ 32)) =
        some true := by decide +kernel
    rw [hp, Option.bind_some, hq] at this
    simpa using this
  obtain ⟨mt, hmt⟩ := exists_matcherOf (hqok hlen)
  exact ⟨⟨mt, _⟩, ⟨p, q, hp, hl, hq, hlen, hmt⟩, rfl⟩

/-- The theorem applies to a search for it in a file with the line `xacbdd`. -/
example : ∃ ix answers, ServesFiles ix [(b!"f", ⟨[b!"ad\nxacbdd\n"], false⟩)] answers ∧ ∃ c : Compiled Query,
    Reports (search (fun _ => some c) id ix [] {}) b!"f" 2 b!"xacbdd" := by
  obtain ⟨h1, h2, _⟩ := sampleTreeRe_ok
  obtain ⟨c, hc⟩ := sampleTreeRe_compiled
  obtain ⟨ix, answers, hix, hfiles⟩ := exists_serves b!"f" b!"ad\nxacbdd\n" (by decide) (by decide +kernel) (by decide) (by decide)
  refine ⟨ix, answers, hix, c, ?_⟩
  refine search_complete_tree_partial exOrbit_ascii hc h1 h2 (by decide +kernel) hix (opt := {}) rfl
    ⟨rfl, rfl, by decide, by decide, by decide⟩ (content := b!"ad\nxacbdd\n") (s := 3) (e := 9) (by rw [hfiles]; simp)
    ⟨by decide, by decide, by decide, .inr (by decide), .inr (by decide)⟩ (by decide) ?_
  refine ⟨4, 9, by decide, by decide, by decide, ?_⟩
  simp only [sampleTreeRe, Syn.re, Syn.res, MatchAt, ConcatAt, LitAt]
  refine ⟨5, ⟨97, 5, Or.inl rfl, (by unfold RuneAt; decide), rfl⟩, 7, ⟨2, 6, ⟨(98, 99), by simp, 99, by decide, by decide, (by unfold RuneAt; decide)⟩,
    7, ⟨(98, 99), by simp, 98, by decide, by decide, (by unfold RuneAt; decide)⟩, rfl⟩, 9,
    ⟨2, by decide, by simp, 8, ⟨100, 8, Or.inl rfl, (by unfold RuneAt; decide), rfl⟩, 9, ⟨100, 9, Or.inl rfl, (by unfold RuneAt; decide), rfl⟩, rfl⟩,
    9, ?_, rfl⟩
  simp
  try decide

end Hound
