import Verif.Proofs.ByteProg
import Verif.Proofs.RawInj
import Verif.Props.Matcher

/-!
# C17: rune instructions compile to the right byte sequences

`Spec.RuneAccepts` (Spec/RuneProg) is the meaning of a program whose instructions read code points,
`Spec.Accepts` (Spec/Automaton) the meaning of the byte program the matcher runs.
-/

namespace Hound
open Spec

/-- A class, anchored at both ends of the line: `^[...]$`; `i` continues at instruction 2. -/
def classProg (i : Inst) : Prog :=
  { inst := [.empty { bol := true } 1, i, .empty { eol := true } 3, .accept], start := 0 }

/-- **C17**, the full claim: for every class of ordered ranges of code points, the compiled class accepts a line
consisting of one code point exactly if the code point is a member of the class. -/
def ClassFull : Prop :=
  ∀ (orbit : Rune → List Rune), AsciiFolds orbit → ∀ (rs : List Rune),
    (∀ p ∈ rangePairs rs, p.1 ≤ p.2 ∧ p.2 ≤ 0x10FFFF) → rs.length % 2 = 0 → rs.Pairwise (· ≤ ·) →
    ∀ q, toByteProg orbit (classProg (.rune rs false 2)) = some q →
    ∀ r : Rune, validRune r = true → r ≠ 10 →
      (Accepts q true true (encodeRaw r) ↔ ∃ p ∈ rangePairs rs, p.1 ≤ r ∧ r ≤ p.2)

/-- Compilation never fails, and the result is a well-formed byte program (as the matcher needs it, C15): every
target exists and no rune instruction is left. -/
theorem toByteProg_succeeds {orbit : Rune → List Rune} (hf : AsciiFolds orbit) {p : Prog} (hp : ProgOK p)
    (hok : ∀ i ∈ p.inst, RuneOK orbit i) :
    ∃ q, toByteProg orbit p = some q ∧ (q.inst.length < 2 ^ 32 → ProgOK q) ∧ ∀ i ∈ q.inst, runeOut i = none := by
  obtain ⟨q, h1, h2, h3, h4, h5, _⟩ := toByteProg_main hf hp.targets hp.start hok
  refine ⟨q, h1, fun hl => ⟨by rw [h2]; exact Nat.lt_of_lt_of_le hp.start h4, hl, h3⟩, ?_⟩
  intro i hi
  obtain ⟨k, hk⟩ := List.getElem?_of_mem hi
  exact h5 k i hk

/-- C17 for whole programs, completeness: whatever the rune program accepts, the byte program accepts. -/
theorem toByteProg_complete_partial {orbit : Rune → List Rune} (hf : AsciiFolds orbit) {p q : Prog} (hp : ProgOK p)
    (hok : ∀ i ∈ p.inst, RuneOK orbit i) (hq : toByteProg orbit p = some q) {l : Bytes} (hl : NL ∉ l) {bot eot : Bool}
    (h : RuneAccepts orbit p bot eot l) : Accepts q bot eot l := by
  obtain ⟨q', h1, h2, h3, h4, h5, h6⟩ := toByteProg_main hf hp.targets hp.start hok
  rw [hq] at h1; cases h1
  obtain ⟨i, j, pc, hi, hpath, hacc⟩ := h
  have hm := (h6 l bot eot hl i).mpr (macc_iff_path.mpr ⟨j, pc, rawPath_of_rune hpath, hacc⟩)
  obtain ⟨j', pc', h7, h8⟩ := macc_iff_path.mp hm
  exact ⟨i, j', pc', hi, (plain_path h5).mp h7, h8⟩

/-- C17 for whole programs: on every line of valid UTF-8 the byte program accepts exactly what the rune program
accepts.  Partial: for rune instructions satisfying `RuneOK` (see the counterexamples below for the others). -/
theorem toByteProg_exact_partial {orbit : Rune → List Rune} (hf : AsciiFolds orbit) {p q : Prog} (hp : ProgOK p)
    (hok : ∀ i ∈ p.inst, RuneOK orbit i) (hq : toByteProg orbit p = some q) {l : Bytes} (hl : NL ∉ l)
    (hs : NoSurrogate l) {bot eot : Bool} : Accepts q bot eot l ↔ RuneAccepts orbit p bot eot l := by
  refine ⟨?_, toByteProg_complete_partial hf hp hok hq hl⟩
  obtain ⟨q', h1, h2, h3, h4, h5, h6⟩ := toByteProg_main hf hp.targets hp.start hok
  rw [hq] at h1; cases h1
  rintro ⟨i, j, pc, hi, hpath, hacc⟩
  have hm := (h6 l bot eot hl i).mp (macc_iff_path.mpr ⟨j, pc, (plain_path h5).mpr hpath, hacc⟩)
  obtain ⟨j', pc', h7, h8⟩ := macc_iff_path.mp hm
  exact ⟨i, j', pc', hi, (rawPath_iff hs hi).mp h7, h8⟩

/-- Every rune the program's instructions accept is a valid code point, so none stands for a surrogate. -/
def OnlyValid (orbit : Rune → List Rune) (p : Prog) : Prop :=
  ∀ i ∈ p.inst, ∀ r, InstHas orbit i r → validRune r = true

/-- The same on every line, also with encoded surrogates, for programs that only ask for valid code points. -/
theorem toByteProg_exact_valid {orbit : Rune → List Rune} (hf : AsciiFolds orbit) {p q : Prog} (hp : ProgOK p)
    (hok : ∀ i ∈ p.inst, RuneOK orbit i) (hq : toByteProg orbit p = some q) {l : Bytes} (hl : NL ∉ l)
    (hs : OnlyValid orbit p) {bot eot : Bool} : Accepts q bot eot l ↔ RuneAccepts orbit p bot eot l := by
  refine ⟨?_, toByteProg_complete_partial hf hp hok hq hl⟩
  obtain ⟨q', h1, h2, h3, h4, h5, h6⟩ := toByteProg_main hf hp.targets hp.start hok
  rw [hq] at h1; cases h1
  rintro ⟨i, j, pc, hi, hpath, hacc⟩
  have hm := (h6 l bot eot hl i).mp (macc_iff_path.mpr ⟨j, pc, (plain_path h5).mpr hpath, hacc⟩)
  obtain ⟨j', pc', h7, h8⟩ := macc_iff_path.mp hm
  refine ⟨i, j', pc', hi, ?_, h8⟩
  have go : ∀ {x y : Nat × Nat}, x.1 ≤ l.length → RPath orbit (RawAt l) p l bot eot x y →
      RPath orbit (RuneAt l) p l bot eot x y := by
    intro x y _ hp
    induction hp with
    | refl => exact .refl _
    | tail _ s ih =>
      refine ih.tail ?_
      cases s with
      | plain s => exact .plain s
      | @rune pos pc i out r pos' h ho hr hat =>
        refine .rune h ho hr ?_
        obtain ⟨k1, k2, k3⟩ := hat
        refine ⟨hs i (List.mem_of_getElem? h) r hr, k2, ?_, ?_⟩
        · have := k3.length_le
          rw [List.length_drop] at this
          have hpos : 0 < (encodeRaw r).length := by
            unfold encodeRaw
            repeat' split
            all_goals simp
          omega
        · obtain ⟨u, hu⟩ := k3
          unfold slice
          rw [← hu, k2, Nat.add_sub_cancel_left, List.take_left]
  exact go hi h7

theorem classProg_ok (i : Inst) (hi : runeOut i = some 2) : ProgOK (classProg i) where
  start := by simp [classProg]
  len := by simp [classProg]
  targets := by
    intro j hj t ht
    simp only [classProg, List.mem_cons, List.not_mem_nil, or_false] at hj
    rcases hj with rfl | rfl | rfl | rfl
    · simp at ht; subst ht; simp [classProg]
    · cases j <;> simp [runeOut] at hi <;> subst hi <;> simp at ht <;> subst ht <;> simp [classProg]
    · simp at ht; subst ht; simp [classProg]
    · simp at ht

/-- The meaning of the anchored class: the line is a single code point of the class. -/
theorem classProg_macc {orbit : Rune → List Rune} {i : Inst} (hi : runeOut i = some 2) {l : Bytes} :
    (∃ pos, pos ≤ l.length ∧ MAcc orbit l true true (classProg i) pos 0) ↔
      ∃ r : Nat, r ≤ 0x10FFFF ∧ InstHas orbit i r ∧ l = encodeRaw r := by
  have g0 : (classProg i).inst[0]? = some (.empty { bol := true } 1) := rfl
  have g1 : (classProg i).inst[1]? = some i := rfl
  have g2 : (classProg i).inst[2]? = some (.empty { eol := true } 3) := rfl
  have g3 : (classProg i).inst[3]? = some .accept := rfl
  have inv : ∀ {pc : Nat} {op : EmptyOp} {out pos : Nat}, (classProg i).inst[pc]? = some (.empty op out) →
      MAcc orbit l true true (classProg i) pos pc →
      Asserted op (flagsAt l true true pos) ∧ MAcc orbit l true true (classProg i) pos out := by
    intro pc op out pos hg h
    cases h with
    | accept h => rw [hg] at h; cases h
    | step s h =>
      cases s with
      | rune h' ho => rw [hg] at h'; cases h'; cases ho
      | plain s =>
        cases s with
        | capture h' => rw [hg] at h'; cases h'
        | nop h' => rw [hg] at h'; cases h'
        | altOut h' => rw [hg] at h'; cases h'
        | altArg h' => rw [hg] at h'; cases h'
        | altMatchOut h' => rw [hg] at h'; cases h'
        | altMatchArg h' => rw [hg] at h'; cases h'
        | empty h' hf => rw [hg] at h'; cases h'; exact ⟨hf, h⟩
        | byte h' => rw [hg] at h'; cases h'
  constructor
  · rintro ⟨pos, _, h⟩
    obtain ⟨f1, h1⟩ := inv g0 h
    have hpos : pos = 0 := by simpa [Asserted, flagsAt] using f1
    subst hpos
    cases h1 with
    | accept h => rw [g1] at h; cases h; cases hi
    | step s h =>
      cases s with
      | plain s =>
        exfalso
        cases s with
        | capture h' => rw [g1] at h'; cases h'; cases hi
        | nop h' => rw [g1] at h'; cases h'; cases hi
        | altOut h' => rw [g1] at h'; cases h'; cases hi
        | altArg h' => rw [g1] at h'; cases h'; cases hi
        | altMatchOut h' => rw [g1] at h'; cases h'; cases hi
        | altMatchArg h' => rw [g1] at h'; cases h'; cases hi
        | empty h' hf => rw [g1] at h'; cases h'; cases hi
        | byte h' => rw [g1] at h'; cases h'; cases hi
      | rune h' ho hr hat =>
        rename_i r
        rw [g1] at h'
        cases h'
        rw [hi] at ho
        cases ho
        obtain ⟨f2, _⟩ := inv g2 h
        obtain ⟨k1, k2, k3⟩ := hat
        have hlen := f2
        simp [Asserted, flagsAt] at hlen
        refine ⟨r, k1, hr, ?_⟩
        rw [List.drop_zero] at k3
        exact (k3.eq_of_length (by rw [← hlen, k2]; simp)).symm
  · rintro ⟨r, k1, k2, rfl⟩
    refine ⟨0, Nat.zero_le _, .step (.plain (.empty g0 ?_)) (.step (.rune g1 hi k2 ⟨k1, rfl, by simp⟩)
      (.step (.plain (.empty g2 ?_)) (.accept g3)))⟩
    · simp [Asserted, flagsAt]
    · simp [Asserted, flagsAt]

/-- C17 for one class, single rune or folded rune: the compiled instruction accepts exactly the UTF-8 encodings
of its members (`l` is any line of valid UTF-8).  Partial: for `RuneOK` instructions. -/
theorem class_exact_partial {orbit : Rune → List Rune} (hf : AsciiFolds orbit) {i : Inst}
    (hi : runeOut i = some 2) (hok : RuneOK orbit i) {q : Prog} (hq : toByteProg orbit (classProg i) = some q)
    {l : Bytes} (hl : NL ∉ l) (hs : NoSurrogate l) :
    Accepts q true true l ↔ ∃ r : Rune, validRune r = true ∧ InstHas orbit i r ∧ l = encodeRaw r := by
  have hok' : ∀ j ∈ (classProg i).inst, RuneOK orbit j := by
    intro j hj
    simp only [classProg, List.mem_cons, List.not_mem_nil, or_false] at hj
    rcases hj with rfl | rfl | rfl | rfl
    · exact trivial
    · exact hok
    · exact trivial
    · exact trivial
  rw [toByteProg_exact_partial hf (classProg_ok i hi) hok' hq hl hs]
  have h1 : RuneAccepts orbit (classProg i) true true l ↔
      ∃ pos, pos ≤ l.length ∧ MAcc orbit l true true (classProg i) pos 0 := by
    constructor
    · rintro ⟨a, j, pc, h1, h2, h3⟩
      exact ⟨a, h1, macc_iff_path.mpr ⟨j, pc, rawPath_of_rune h2, h3⟩⟩
    · rintro ⟨a, h1, h2⟩
      obtain ⟨j, pc, h3, h4⟩ := macc_iff_path.mp h2
      exact ⟨a, j, pc, h1, (rawPath_iff hs h1).mp h3, h4⟩
  rw [h1, classProg_macc hi]
  constructor
  · rintro ⟨r, k1, k2, k3⟩
    refine ⟨r, ?_, k2, k3⟩
    rw [valid_iff]
    by_cases hsur : 0xD800 ≤ r ∧ r < 0xE000
    · exact absurd (by rw [k3]; simp) (hs r hsur.1 hsur.2 0)
    · omega
  · rintro ⟨r, k1, k2, k3⟩
    have := valid_iff.mp k1
    exact ⟨r, (by show (r : Nat) ≤ 0x10FFFF; (try delta Rune at *); omega), k2, k3⟩

/-- The same for one code point: it is accepted exactly if it is a member. -/
theorem class_member_partial {orbit : Rune → List Rune} (hf : AsciiFolds orbit) {i : Inst}
    (hi : runeOut i = some 2) (hok : RuneOK orbit i) {q : Prog} (hq : toByteProg orbit (classProg i) = some q)
    {r : Nat} (hr : validRune r = true) (hn : r ≠ 10) :
    Accepts q true true (encodeRaw r) ↔ InstHas orbit i r := by
  have hv := valid_iff.mp hr
  have hr' : r ≤ 0x10FFFF := by omega
  have hnl : NL ∉ encodeRaw r := by
    intro h
    rw [encodeRaw_nat] at h
    have key : ∀ n : Nat, n < 256 → n ≠ 10 → NL ≠ UInt8.ofNat n := by
      intro n hn hne h
      have := (ofNat_inj_iff hn).mp h
      exact hne this.symm
    split at h
    · simp only [List.mem_cons, List.not_mem_nil, or_false] at h
      exact key _ (by omega) hn h
    · split at h
      · simp only [List.mem_cons, List.not_mem_nil, or_false] at h
        rcases h with h | h <;> exact key _ (by omega) (by omega) h
      · split at h
        · simp only [List.mem_cons, List.not_mem_nil, or_false] at h
          rcases h with h | h | h <;> exact key _ (by omega) (by omega) h
        · simp only [List.mem_cons, List.not_mem_nil, or_false] at h
          rcases h with h | h | h | h <;> exact key _ (by omega) (by omega) h
  rw [class_exact_partial hf hi hok hq hnl (noSurrogate_valid hv)]
  constructor
  · rintro ⟨s, h1, h2, h3⟩
    have hs := valid_iff.mp h1
    have : r = s := encodeRaw_inj hr' (by omega) h3
    subst this
    exact h2
  · intro h
    exact ⟨r, hr, h, rfl⟩

/-! ### Examples -/

/-- A folding table: the ASCII part, `À`/`à`, and the Adlam letters U+1E900/U+1E922. -/
def exOrbit (r : Rune) : List Rune :=
  if r < 0x80 then
    if r = 75 then [107, 0x212A] else if r = 107 then [0x212A, 75]
    else if r = 83 then [115, 0x17F] else if r = 115 then [0x17F, 83]
    else if 65 ≤ r ∧ r ≤ 90 then [r + 32] else if 97 ≤ r ∧ r ≤ 122 then [r - 32] else []
  else if r = 0x212A then [75, 107] else if r = 0x17F then [83, 115]
  else if r = 0xC0 then [0xE0] else if r = 0xE0 then [0xC0]
  else if r = 0x1E900 then [0x1E922] else if r = 0x1E922 then [0x1E900] else []

theorem exOrbit_ascii : AsciiFolds exOrbit := by
  refine ⟨fun r hr => ?_, rfl, rfl⟩
  unfold exOrbit
  rw [if_pos (show r < 0x80 from hr)]

/-- The hypotheses are met by the class `[^a]` (which contains the surrogate block), by a folded `K` and by `.`. -/
example : RuneOK exOrbit (.rune [0, 0x60, 0x62, 0x10FFFF] false 2) := by
  refine ⟨rfl, ?_, ?_⟩
  · intro p hp
    simp [rangePairs] at hp
    rcases hp with rfl | rfl <;> simp [ClearRange]
  · intro a c h
    simp only [List.cons.injEq, and_true] at h
    exact absurd (h.1.trans h.2.1.symm) (by decide)
example : RuneOK exOrbit (.rune [75] true 2) := by
  simp [RuneOK, exOrbit, validRune]
example : RuneOK exOrbit (.runeAnyNotNL 2) := trivial

/-! ### The counterexamples -/

/-- The result of running the compiled, anchored class over a buffer. -/
def exClassRun (i : Inst) (b : Bytes) : Option (Option Nat) :=
  (toByteProg exOrbit (classProg i)).bind fun p =>
    (Matcher.init p).bind fun M => (M.run p b true true).map (·.2)

/-- All instruction targets, computed. -/
def targetsOK (p : Prog) : Bool :=
  p.inst.all fun i => (match i with
    | .nop out | .capture out | .empty _ out | .byteRange _ _ _ out | .rune _ _ out | .rune1 _ out
    | .runeAny out | .runeAnyNotNL out => [out]
    | .alt out arg | .altMatch out arg => [out, arg]
    | .fail | .accept => []).all (· < p.inst.length)

theorem exClass_rejects {i : Inst} {b : Bytes} (hnl : NL ∉ b) {q : Prog}
    (hq : toByteProg exOrbit (classProg i) = some q) (ht : (q.start < q.inst.length ∧ q.inst.length < 2 ^ 32) ∧ targetsOK q = true)
    (hr : exClassRun i b = some none) : ¬ Accepts q true true b := by
  have hok : ProgOK q := by
    refine ⟨ht.1.1, ht.1.2, ?_⟩
    intro j hj t htt
    have := List.all_eq_true.mp ht.2 j hj
    exact of_decide_eq_true (List.all_eq_true.mp this t htt)
  obtain ⟨M, hM, htot⟩ := matcher_total hok
  obtain ⟨M', hM', hrun⟩ := htot []
  obtain ⟨M'', r, hrun⟩ := hrun b true true
  cases hM'
  intro hacc
  classical
  have h := match_first_line hok (history := []) hM rfl hrun
    (acc := fun bot eot l => decide (Accepts q bot eot l)) (by intro bot eot l; simp)
  unfold exClassRun at hr
  rw [hq] at hr
  simp only [Option.bind_some, hM, hrun, Option.map_some, Option.some.injEq] at hr
  rw [hr, pieces_of_nlfree hnl] at h
  simp [firstEnd, hacc] at h

theorem not_accepts_of_run {i : Inst} {b : Bytes} (hnl : NL ∉ b)
    (hq : ((toByteProg exOrbit (classProg i)).map fun q =>
      decide (q.start < q.inst.length ∧ q.inst.length < 2 ^ 32) && targetsOK q) = some true)
    (hr : exClassRun i b = some none) :
    ∃ q, toByteProg exOrbit (classProg i) = some q ∧ ¬ Accepts q true true b := by
  cases h : toByteProg exOrbit (classProg i) with
  | none => rw [h] at hq; cases hq
  | some q =>
    rw [h] at hq
    simp at hq
    exact ⟨q, rfl, exClass_rejects hnl h hq hr⟩

/-- C17 does not hold: the class of all code points outside the private use area, `[^\x{E000}-\x{F8FF}]`, has a
range that ends at U+DFFF, which `utf8.EncodeRune` turns into U+FFFD.  The compiled class rejects U+D03F. -/
theorem not_classFull : ¬ ClassFull := by
  intro h
  obtain ⟨q, h1, h2⟩ := not_accepts_of_run (i := .rune [0, 0xDFFF, 0xF900, 0x10FFFF] false 2) (b := encodeRaw 0xD03F)
    (by decide) (by decide +kernel) (by decide +kernel)
  refine h2 ((h exOrbit exOrbit_ascii [0, 0xDFFF, 0xF900, 0x10FFFF] ?_ rfl (by decide) q h1 0xD03F (by decide) (by decide)).mpr ?_)
  · intro p hp
    simp [rangePairs] at hp
    rcases hp with rfl | rfl <;> simp
  · exact ⟨(0, 0xDFFF), by simp [rangePairs], by decide, by decide⟩

/-- A second counterexample: `[Àà]` (two code points that are case variants of each other) is compiled to the
single byte C0, which no UTF-8 text contains. -/
theorem class_case_pair_counterexample :
    ∃ q, toByteProg exOrbit (classProg (.rune [0xC0, 0xC0, 0xE0, 0xE0] false 2)) = some q ∧
      ¬ Accepts q true true (encodeRaw 0xC0) :=
  not_accepts_of_run (by decide) (by decide +kernel) (by decide +kernel)

/-- A third one: `(?i)` is not applied to letters above U+1044F.  A folded U+1E900 does not accept U+1E922. -/
theorem class_fold_counterexample :
    ∃ q, toByteProg exOrbit (classProg (.rune [0x1E900] true 2)) = some q ∧
      ¬ Accepts q true true (encodeRaw 0x1E922) :=
  not_accepts_of_run (by decide) (by decide +kernel) (by decide +kernel)

-- the members that are accepted: U+D03F by `[^a]`, the Kelvin sign by a folded K
example : exClassRun (.rune [0, 0x60, 0x62, 0x10FFFF] false 2) (encodeRaw 0xD03F) = some (some 3) := by decide +kernel
example : exClassRun (.rune [75] true 2) (encodeRaw 0x212A) = some (some 3) := by decide +kernel
example : exClassRun (.rune [75] true 2) (encodeRaw 76) = some none := by decide +kernel

end Hound
