import Verif.Spec.Cost
import Verif.Proofs.Cost
import Verif.Proofs.CostTree
import Verif.Props.Answered

/-!
# C95: what a pattern costs

The matcher keeps every state it has made. While it makes one it makes, in nested calls, the one after a newline, the one after another
newline, and so on.
-/

namespace Hound.GoRe
open Hound Hound.Spec

variable {T : Tables} {uni : Bytes → Option (Rune → Prop)}

/-- The full property, for memory: a matcher keeps no more states than one for each byte it was given, and three. -/
def CostFull : Prop := ∀ (T : Tables) (text : Bytes) (q : Prog) (M M' : Matcher) (history : List (Bytes × Bool × Bool)) (n : Nat),
  ByteProgramOf T text q → q.inst.length < 2 ^ 32 → Matcher.init q = some M → M.calls q history = some M' → KeepsStates M' n →
    n ≤ bytesGiven history + 3

/-- The full property, for the stack: three nested calls are enough, for every pattern. -/
def StackFull : Prop := ∀ (T : Tables) (text : Bytes) (q : Prog), ByteProgramOf T text q → q.inst.length < 2 ^ 32 → StackSuffices q 3

theorem progOK_of (hc : FoldCycles T.orbit) (hn : NamesOnly T uni) (hd : Describes T uni) {text : Bytes} {q : Prog}
    (h : ByteProgramOf T text q) (hl : q.inst.length < 2 ^ 32) : ProgOK q := by
  obtain ⟨t, p, h1, h2, h3⟩ := h
  obtain ⟨p', q', k1, k2, -, k4⟩ := coded_compiles hc ((parse_sound hc hn hd text).2 t h1)
  rw [h2] at k1
  cases k1
  rw [h3] at k2
  cases k2
  exact k4 hl

theorem noNewline_of (hf : AsciiFolds T.orbit) {text : Bytes} {q : Prog} (h : ByteProgramOf T text q)
    (ht : ∀ t, parse T text = .ok t → RunesOK T.orbit t ∧ OneLine T.orbit t) : NoNewline q := by
  obtain ⟨t, p, h1, h2, h3⟩ := h
  exact compile_noNewline hf h2 (ht t h1).1 (ht t h1).2 h3

/-- **C95 for memory, part**: a matcher keeps at most one state for each byte it was given, and three. Proviso: the pattern can match no
newline, and has no `.`. -/
theorem states_kept_partial (hf : AsciiFolds T.orbit) (hc : FoldCycles T.orbit) (hn : NamesOnly T uni) (hd : Describes T uni) {text : Bytes}
    {q : Prog} (h : ByteProgramOf T text q) (hl : q.inst.length < 2 ^ 32)
    (ht : ∀ t, parse T text = .ok t → RunesOK T.orbit t ∧ OneLine T.orbit t) {M M' : Matcher} {history : List (Bytes × Bool × Bool)} {n : Nat}
    (hi : Matcher.init q = some M) (hcs : M.calls q history = some M') (hk : KeepsStates M' n) : n ≤ bytesGiven history + 3 := by
  have hp := progOK_of hc hn hd h hl
  have hnn := noNewline_of hf h ht
  obtain ⟨l, h1, h2⟩ := calls_among hp hnn history M M' _ (init_among hp hnn hi) hcs
  obtain ⟨ks, k1, rfl, k3⟩ := hk
  have := List.Nodup.length_le_of_subset k1 (l₂ := l) fun k hk => h1.mem k (k3 k hk)
  simp only [List.length_cons, List.length_nil] at h2
  omega

/-- **C95 for the stack, part**: at most three calls of `cache` are nested when the matcher is made. Same proviso. -/
theorem stack_suffices_partial (hf : AsciiFolds T.orbit) (hc : FoldCycles T.orbit) (hn : NamesOnly T uni) (hd : Describes T uni) {text : Bytes}
    {q : Prog} (h : ByteProgramOf T text q) (hl : q.inst.length < 2 ^ 32)
    (ht : ∀ t, parse T text = .ok t → RunesOK T.orbit t ∧ OneLine T.orbit t) : StackSuffices q 3 := by
  have hp := progOK_of hc hn hd h hl
  refine cacheKey_flat hp (noNewline_of hf h ht) 3 _ _ ⟨_, (startState_ok hp).1, rfl⟩ ?_
  have := List.countP_le_length (p := fun k => ((DCache.set (fun _ => none) (startState q).enc ⟨fun _ => none, false, false⟩ : DCache) k).isNone)
    (l := [(startLineState q).enc, (endState q).enc])
  simp only [List.length_cons, List.length_nil] at this
  unfold miss
  simp
  omega

/-- **C95 for any pattern**: the number of states kept is bounded, whatever is searched and how often, but the bound is exponential in the
length of the program. -/
theorem states_bounded (hc : FoldCycles T.orbit) (hn : NamesOnly T uni) (hd : Describes T uni) {text : Bytes}
    {q : Prog} (h : ByteProgramOf T text q) (hl : q.inst.length < 2 ^ 32) {M M' : Matcher} {history : List (Bytes × Bool × Bool)} {n : Nat}
    (hi : Matcher.init q = some M) (hcs : M.calls q history = some M') (hk : KeepsStates M' n) : n ≤ 4 * 2 ^ q.inst.length := by
  have hp := progOK_of hc hn hd h hl
  obtain ⟨M1, m1, m2⟩ := init_ok hp
  rw [hi] at m1
  cases m1
  obtain ⟨M2, c1, c2⟩ := calls_spec hp history M m2
  rw [hcs] at c1
  cases c1
  obtain ⟨ks, k1, rfl, k3⟩ := hk
  rw [← allKeys_length q]
  refine List.Nodup.length_le_of_subset k1 fun k hk => isKey_mem ?_
  obtain ⟨e, he⟩ := Option.isSome_iff_exists.1 (k3 k hk)
  exact c2.cok.key k e he

/-! ## A pattern that costs too much -/

/-- Behind the `(?m)` that hound puts in front: 87 characters. -/
def dearPattern : Bytes :=
  b!"\\A((\\n{2})*a|(\\n{3})*b|(\\n{5})*c|(\\n{7})*d|(\\n{11})*e|(\\n{13})*f|(\\n{17})*g|(\\n{19})*h)"

def dearBranch (i m c : Nat) : Syn :=
  .concat [.star false (.capture i [] (.rep false (.literal [10] false) m (some m))), .literal [c] false]

def dearTree : Syn :=
  .concat [.beginText, .capture 1 [] (.alternate [dearBranch 2 2 97, dearBranch 3 3 98, dearBranch 4 5 99, dearBranch 5 7 100,
    dearBranch 6 11 101, dearBranch 7 13 102, dearBranch 8 17 103, dearBranch 9 19 104])]

set_option maxRecDepth 100000 in
theorem dear_parse (T : Tables) : parse T (b!"(?m)" ++ dearPattern) = .ok dearTree := rfl

def dearBranchProg (a m : Nat) (c : UInt8) : List Inst :=
  [.capture (a + 1)] ++ (List.range m).map (fun i => .byteRange 10 10 false (a + 2 + i)) ++
    [.capture (a + m + 2), .alt a (a + m + 3), .byteRange c c false 119]

def dearProg : Prog :=
  { inst := [.fail, .empty { bot := true } 2, .capture 118] ++ dearBranchProg 3 2 97 ++ dearBranchProg 9 3 98 ++ [.alt 7 14] ++
      dearBranchProg 17 5 99 ++ [.alt 16 24] ++ dearBranchProg 27 7 100 ++ [.alt 26 36] ++ dearBranchProg 39 11 101 ++ [.alt 38 52] ++
      dearBranchProg 55 13 102 ++ [.alt 54 70] ++ dearBranchProg 73 17 103 ++ [.alt 72 92] ++ dearBranchProg 95 19 104 ++
      [.alt 94 116, .capture 120, .accept]
    start := 1 }

set_option maxRecDepth 100000 in
set_option maxHeartbeats 4000000 in
theorem dear_program (orbit : Rune → List Rune) : (compileProg orbit (simplify dearTree)).bind (toByteProg orbit) = some dearProg := by cbv

theorem dear_of {q : Prog} : ByteProgramOf T (b!"(?m)" ++ dearPattern) q ↔ q = dearProg := by
  have hd := dear_program T.orbit
  constructor
  · rintro ⟨t, p, h1, h2, h3⟩
    rw [dear_parse] at h1
    cases h1
    rw [h2, Option.bind_some, h3] at hd
    cases hd
    rfl
  · rintro rfl
    obtain ⟨p, h2, h3⟩ := Option.bind_eq_some_iff.1 hd
    exact ⟨_, p, dear_parse T, h2, h3⟩

def dearLoop (a m : Nat) : List Nat := (List.range m).map (a + 1 + ·)

def dearLoops : List (List Nat) :=
  [dearLoop 3 2, dearLoop 9 3, dearLoop 17 5, dearLoop 27 7, dearLoop 39 11, dearLoop 55 13, dearLoop 73 17, dearLoop 95 19]

theorem dear_ok : ProgOK dearProg where
  start := by decide
  len := by decide
  targets := by decide +kernel

theorem dear_stays : staysIn dearProg (List.range 119) = true := by decide +kernel

theorem dear_loops : dearLoops.all (isLoop dearProg (List.range 119)) = true := by decide +kernel

/-- 2 · 3 · 5 · 7 · 11 · 13 · 17 · 19. -/
def dearCount : Nat := 9699690

theorem dear_keys : (∀ t, nextOf dearProg (nlKey dearProg t) (some NL) = some (.st (nlKey dearProg (t + 1)))) ∧
    ∀ i j, i < j → j < dearCount → nlKey dearProg i ≠ nlKey dearProg j := by
  obtain ⟨h1, h2⟩ := nlKey_spec dear_ok dear_stays (List.all_eq_true.1 dear_loops)
  refine ⟨h1, ?_⟩
  have : product (dearLoops.map List.length) = dearCount := by decide
  rw [← this]
  exact h2 (by decide) (by decide)

/-- **C95 fails**: when the matcher for this pattern of 87 characters has been made, before it is given any file, it keeps 9,699,690
states. A state is more than 2,000 bytes. -/
theorem dear_states {q : Prog} (h : ByteProgramOf T (b!"(?m)" ++ dearPattern) q) {M : Matcher} (hi : Matcher.init q = some M) :
    KeepsStates M dearCount := by
  rw [dear_of] at h
  subst h
  obtain ⟨h1, h2⟩ := dear_keys
  refine ⟨(List.range dearCount).map (nlKey dearProg), ?_, by simp, ?_⟩
  · unfold List.Nodup
    rw [List.pairwise_map]
    refine List.Pairwise.imp_of_mem (fun {a b} ha hb hab => ?_) List.pairwise_lt_range
    exact h2 a b hab (List.mem_range.1 hb)
  · intro k hk
    obtain ⟨t, -, rfl⟩ := List.mem_map.1 hk
    exact init_chain rfl h1 hi t

/-- **C95 fails**: and fewer nested calls than that are not enough to make it. -/
theorem dear_stack {q : Prog} (h : ByteProgramOf T (b!"(?m)" ++ dearPattern) q) {n : Nat} (hn : n < dearCount) : ¬ StackSuffices q n := by
  rw [dear_of] at h
  subst h
  obtain ⟨h1, h2⟩ := dear_keys
  have := cacheKey_short h1 h2 n 0 (fun _ => none) (by omega) fun _ _ _ => rfl
  unfold StackSuffices
  rw [show (startState dearProg).enc = nlKey dearProg 0 from rfl, this]
  simp

/-- It is what a search for it compiles. -/
theorem dear_search (quoteMeta : Bytes → Bytes) (opt : SearchOptions) (hl : opt.literalSearch = false) (hi : opt.ignoreCase = false) :
    fullPattern quoteMeta dearPattern opt = b!"(?m)" ++ dearPattern := by
  simp [fullPattern, hl, hi]

/-- **C95 is violated**, for memory. -/
theorem not_costFull : ¬ CostFull := by
  intro h
  have hb := (dear_of (T := exTables false)).2 rfl
  obtain ⟨M, h1, -⟩ := init_ok dear_ok
  have := h _ _ _ M M [] dearCount hb dear_ok.len h1 rfl (dear_states hb h1)
  exact absurd this (by decide)

/-- **C95 is violated**, for the stack. -/
theorem not_stackFull : ¬ StackFull := by
  intro h
  have hb := (dear_of (T := exTables false)).2 rfl
  exact dear_stack hb (by decide) (h _ _ _ hb dear_ok.len)

/-! ## Without a newline in it -/

/-- No newline is written in it, but `.` is compiled to one that matches a newline too (codesearch/regexp/utf.go:61-66). -/
def dotsPattern : Bytes := b!"\\A((..)*a|(...)*b|(.....)*c)"

def dotsBranch (i m c : Nat) : Syn :=
  .concat [.star false (.capture i [] (.concat (List.replicate m .anyCharNotNL))), .literal [c] false]

def dotsTree : Syn := .concat [.beginText, .capture 1 [] (.alternate [dotsBranch 2 2 97, dotsBranch 3 3 98, dotsBranch 4 5 99])]

set_option maxRecDepth 100000 in
theorem dots_parse (T : Tables) : parse T (b!"(?m)" ++ dotsPattern) = .ok dotsTree := rfl

/-- The bytes of any character: the instructions from `a` on. -/
def anyBytes (a out : Nat) : List Inst :=
  [.byteRange 0 127 false out, .byteRange 128 191 false out, .byteRange 194 223 false (a + 1), .byteRange 160 191 false (a + 1),
    .byteRange 224 224 false (a + 3), .alt (a + 2) (a + 8), .byteRange 128 191 false (a + 1), .byteRange 225 239 false (a + 6),
    .alt (a + 4) (a + 11), .byteRange 144 191 false (a + 6), .byteRange 240 240 false (a + 9), .alt (a + 7) (a + 14),
    .byteRange 128 191 false (a + 6), .byteRange 241 243 false (a + 12), .alt (a + 10) (a + 17), .byteRange 128 143 false (a + 6),
    .byteRange 244 244 false (a + 15), .alt (a + 13) (a + 16)]

/-- How a `.` begins. -/
def anyBegin (a : Nat) : Inst := .alt a (a + 5)

def dotsProg : Prog :=
  { inst := [.fail, .empty { bot := true } 2, .capture 26,
      .capture 4, anyBegin 29, anyBegin 47, .capture 7, .alt 3 8, .byteRange 97 97 false 27,
      .capture 10, anyBegin 65, anyBegin 83, anyBegin 101, .capture 14, .alt 9 15, .byteRange 98 98 false 27, .alt 7 14,
      .capture 18, anyBegin 119, anyBegin 137, anyBegin 155, anyBegin 173, anyBegin 191, .capture 24, .alt 17 25,
      .byteRange 99 99 false 27, .alt 16 24, .capture 28, .accept] ++
      anyBytes 29 5 ++ anyBytes 47 6 ++ anyBytes 65 11 ++ anyBytes 83 12 ++ anyBytes 101 13 ++ anyBytes 119 19 ++ anyBytes 137 20 ++
      anyBytes 155 21 ++ anyBytes 173 22 ++ anyBytes 191 23
    start := 1 }

theorem dots_program (e : Bool) :
    (compileProg (exTables e).orbit (simplify dotsTree)).bind (toByteProg (exTables e).orbit) = some dotsProg := by
  cases e <;> decide +kernel

theorem dots_ok : ProgOK dotsProg where
  start := by decide +kernel
  len := by decide +kernel
  targets := by decide +kernel

/-- All instructions but the last two of the first ones. -/
def dotsStay : List Nat := List.range 27 ++ (List.range 180).map (· + 29)

def dotsLoops : List (List Nat) := [[29, 47], [65, 83, 101], [119, 137, 155, 173, 191]]

theorem dots_stays : staysIn dotsProg dotsStay = true := by decide +kernel

theorem dots_loops : dotsLoops.all (isLoop dotsProg dotsStay) = true := by decide +kernel

/-- **C95: why the proviso excludes `.`**: for this pattern, too, the matcher keeps 30 states before it is given any file, and fewer than
30 nested calls are not enough. -/
theorem dots_cost : ∃ (T : Tables) (q : Prog) (M : Matcher), ByteProgramOf T (b!"(?m)" ++ dotsPattern) q ∧ Matcher.init q = some M ∧
    KeepsStates M 30 ∧ ∀ n, n < 30 → ¬ StackSuffices q n := by
  obtain ⟨p, h2, h3⟩ := Option.bind_eq_some_iff.1 (dots_program false)
  obtain ⟨M, h1, -⟩ := init_ok dots_ok
  obtain ⟨k1, k2⟩ := nlKey_spec dots_ok dots_stays (List.all_eq_true.1 dots_loops)
  have k3 := k2 (by decide) (by decide)
  rw [show product (dotsLoops.map List.length) = 30 by decide] at k3
  refine ⟨exTables false, dotsProg, M, ⟨_, p, dots_parse _, h2, h3⟩, h1, ⟨(List.range 30).map (nlKey dotsProg), ?_, by simp, ?_⟩, fun n hn => ?_⟩
  · unfold List.Nodup
    rw [List.pairwise_map]
    exact List.Pairwise.imp_of_mem (fun {a b} ha hb hab => k3 a b hab (List.mem_range.1 hb)) List.pairwise_lt_range
  · intro k hk
    obtain ⟨t, -, rfl⟩ := List.mem_map.1 hk
    exact init_chain rfl k1 h1 t
  · have := cacheKey_short k1 k3 n 0 (fun _ => none) (by omega) fun _ _ _ => rfl
    unfold StackSuffices
    rw [show (startState dotsProg).enc = nlKey dotsProg 0 from rfl, this]
    simp

/-! ## Cases -/

/-- `(?m)^fu[a-c]+\(|x` is a pattern of the kind the bounds are for, and there is a program for it. -/
example : (∀ t, parse (exTables false) b!"(?m)^fu[a-c]+\\(|x" = .ok t → RunesOK (exTables false).orbit t ∧ OneLine (exTables false).orbit t) ∧
    ∃ q, ByteProgramOf (exTables false) b!"(?m)^fu[a-c]+\\(|x" q ∧ q.inst.length < 2 ^ 32 := by
  have e : parse (exTables false) b!"(?m)^fu[a-c]+\\(|x" = .ok (.alternate [.concat [.beginLine, .literal [102, 117] false,
      .plus false (.charClass [(97, 99)]), .literal [40] false], .literal [120] false]) := rfl
  rw [e]
  refine ⟨?_, ?_⟩
  · rintro t ht
    cases ht
    constructor
    · simp [RunesOK, RunesOKL, RuneOK, ClearRange, validRune]
    · simp only [OneLine, OneLineL, List.mem_cons, List.not_mem_nil, or_false, FoldsTo]
      refine ⟨⟨trivial, fun r hr x hx => ?_, fun p hp x h1 h2 => ?_, fun r hr x hx => ?_, trivial⟩, fun r hr x hx => ?_, trivial⟩
      · rcases hx with rfl | ⟨h, -⟩
        · rcases hr with rfl | rfl <;> decide
        · cases h
      · subst hp
        have : ∀ x : Nat, x ≤ 99 → 97 ≤ x → validRune x = true ∧ x ≠ 10 := by decide
        exact this x h2 h1
      · rcases hx with rfl | ⟨h, -⟩
        · subst hr; decide
        · cases h
      · rcases hx with rfl | ⟨h, -⟩
        · subst hr; decide
        · cases h
  · have k : ((compileProg (exTables false).orbit (simplify (.alternate [.concat [.beginLine, .literal [102, 117] false,
      .plus false (.charClass [(97, 99)]), .literal [40] false], .literal [120] false]))).bind (toByteProg (exTables false).orbit)).any
        (fun q => decide (q.inst.length < 2 ^ 32)) = true := by decide +kernel
    rw [Option.any_eq_true] at k
    obtain ⟨q, h1, h2⟩ := k
    obtain ⟨p, h3, h4⟩ := Option.bind_eq_some_iff.1 h1
    exact ⟨q, ⟨_, p, e, h3, h4⟩, of_decide_eq_true h2⟩

end Hound.GoRe
