import Verif.Proofs.MatcherEnc
import Verif.Proofs.MatcherQueue
import Verif.Spec.Lines

/-! The automaton without its cache, and the lines it accepts. -/

namespace Hound
open Spec

/-- States that occur. -/
structure ZOK (p : Prog) (z : NState) : Prop where
  q : QOK p z.q
  part : z.part = 0
  flag : z.flag ∈ [0, 1, 5, 16]

theorem ZOK.dec {p : Prog} {z : NState} (hp : ProgOK p) (h : ZOK p z) :
    NState.dec z.enc = some { z with q := sortInts z.q } := by
  have hf := h.flag
  simp at hf
  refine dec_enc (by rw [h.part]; omega) (by omega) ?_
  intro a ha
  have := h.q.bound a ha
  have := hp.len
  omega

theorem QOK.sort {p : Prog} {q : List Nat} (h : QOK p q) : QOK p (sortInts q) :=
  ⟨(sorted_sortInts h.nodup).imp (fun h => by omega), fun a ha => h.bound a (mem_sortInts.mp ha)⟩

theorem flagsAfter_mem (c : Option UInt8) : (flagsAfter c).2 ∈ [0, 1, 5, 16] := by
  unfold flagsAfter
  by_cases h : c = some NL
  · subst h; decide
  · simp only [beq_iff_eq, h, if_false]
    split <;> decide

/-- The step of the automaton, as sets. -/
theorem nextOf_spec {p : Prog} (hp : ProgOK p) {z : NState} (hz : ZOK p z) (c : Option UInt8) :
    (nextOf p z.enc c = some .dmatch ∧
      ∃ id ∈ z.q, ∃ x, EpsStar p (flagsBefore z.flag c) id x ∧ p.inst[x]? = some .accept) ∨
    ((¬ ∃ id ∈ z.q, ∃ x, EpsStar p (flagsBefore z.flag c) id x ∧ p.inst[x]? = some .accept) ∧
      ∃ z', ZOK p z' ∧ nextOf p z.enc c = some (.st z'.enc) ∧ z'.flag = (flagsAfter c).2 ∧
        ∀ x, x ∈ z'.q ↔ ∃ id, (id = p.start ∨ ∃ a, (∃ i ∈ z.q, EpsStar p (flagsBefore z.flag c) i a) ∧
          id ∈ byteOuts p c a) ∧ EpsStar p (flagsAfter c).1 id x) := by
  have hdec := hz.dec hp
  have hse := stepEmpty_ok hp (flag := flagsBefore z.flag c) hz.q.sort
  have hmem : ∀ x, x ∈ stepEmpty p (sortInts z.q) (flagsBefore z.flag c) ↔
      ∃ id ∈ z.q, EpsStar p (flagsBefore z.flag c) id x := by
    intro x; rw [hse.2]; simp [mem_sortInts]
  have hsb := stepByte_ok hp (flag := (flagsAfter c).1) (c := c)
    (q := stepEmpty p (sortInts z.q) (flagsBefore z.flag c))
  unfold nextOf
  rw [hdec]
  simp only
  generalize stepByte p (stepEmpty p (sortInts z.q) (flagsBefore z.flag c)) c (flagsAfter c).1 = r at *
  obtain ⟨nq, m⟩ := r
  cases m with
  | true =>
    left
    refine ⟨rfl, ?_⟩
    obtain ⟨x, hx, ha⟩ := hsb.2.2.mp rfl
    obtain ⟨id, hid, hs⟩ := (hmem x).mp hx
    exact ⟨id, hid, x, hs, ha⟩
  | false =>
    right
    refine ⟨?_, ⟨nq, 0, (flagsAfter c).2⟩, ⟨hsb.1, rfl, flagsAfter_mem c⟩, rfl, rfl, ?_⟩
    · rintro ⟨id, hid, x, hs, ha⟩
      have := hsb.2.2.mpr ⟨x, (hmem x).mpr ⟨id, hid, hs⟩, ha⟩
      cases this
    · intro x
      have h := hsb.2.1 x
      simp only [hmem] at h
      exact h

/-- One step of the automaton on a byte that is not a newline. -/
def pstep (p : Prog) (d : DRef) (c : UInt8) : DRef :=
  match d with
  | .dmatch => .dmatch
  | .st k => (nextOf p k (some c)).getD .dmatch

/-- Does a match end when the line ends in state `d`? -/
def pNL (p : Prog) (d : DRef) : Bool :=
  match d with
  | .dmatch => true
  | .st k => decide (nextOf p k (some NL) = some .dmatch)

/-- Does a match end when the text ends in state `d`? -/
def pEOT (p : Prog) (d : DRef) : Bool :=
  match d with
  | .dmatch => true
  | .st k => decide (nextOf p k none = some .dmatch)

/-- `match` without the cache. -/
def prun (p : Prog) (et : Bool) : DRef → Nat → Bytes → Option Nat
  | d, i, [] => if pNL p d || (et && pEOT p d) then some i else none
  | d, i, c :: cs =>
    if c = NL then
      if pNL p d then some i else prun p et (.st (startLineState p).enc) (i + 1) cs
    else prun p et (pstep p d c) (i + 1) cs

theorem startState_ok {p : Prog} (hp : ProgOK p) :
    ZOK p (startState p) ∧ ∀ x, x ∈ (startState p).q ↔ EpsStar p { bol := true, bot := true } p.start x := by
  have h := addq_spec hp { bol := true, bot := true } p.fuel [] p.start (QOK.nil p) hp.start
    (by unfold Prog.fuel; omega)
  refine ⟨⟨h.ok, rfl, by simp [startState, flagBOL, flagBOT]⟩, fun x => ?_⟩
  have := h.mem_iff x
  simpa [startState] using this

theorem startLineState_ok {p : Prog} (hp : ProgOK p) :
    ZOK p (startLineState p) ∧ ∀ x, x ∈ (startLineState p).q ↔ EpsStar p { bol := true } p.start x := by
  have h := addq_spec hp { bol := true } p.fuel [] p.start (QOK.nil p) hp.start
    (by unfold Prog.fuel; omega)
  refine ⟨⟨h.ok, rfl, by simp [startLineState, flagBOL]⟩, fun x => ?_⟩
  have := h.mem_iff x
  simpa [startLineState] using this

/-! ## Paths in a line -/

theorem sub_trans {a b c : EmptyOp} (h1 : a.sub b = true) (h2 : b.sub c = true) : a.sub c = true := by
  revert h1 h2
  unfold EmptyOp.sub
  cases a; cases b; cases c
  simp
  grind

theorem EpsStar.mono {p : Prog} {f g : EmptyOp} (hfg : f.sub g = true) {a b : Nat} (h : EpsStar p f a b) :
    EpsStar p g a b := by
  induction h with
  | refl => exact .refl _
  | tail _ s ih =>
    refine ih.tail ?_
    unfold succs at s ⊢
    split at s
    · rename_i i hi
      cases i <;> simp_all [succ]
      exact sub_trans s.1 hfg
    · simp at s

theorem pstep_eps {p : Prog} {l : Bytes} {bot eot : Bool} {pos a b : Nat}
    (h : b ∈ succs p (flagsAt l bot eot pos) a) : PStep p l bot eot (pos, a) (pos, b) := by
  unfold succs at h
  split at h
  · rename_i i hi
    cases i <;> simp [succ] at h
    · subst h; exact .nop hi
    · subst h; exact .capture hi
    · rcases h with rfl | rfl
      · exact .altOut hi
      · exact .altArg hi
    · rcases h with rfl | rfl
      · exact .altMatchOut hi
      · exact .altMatchArg hi
    · obtain ⟨h1, rfl⟩ := h
      exact .empty hi (sub_iff.mp h1)
  · simp at h

theorem pstep_inv {p : Prog} {l : Bytes} {bot eot : Bool} {pos pos' a b : Nat}
    (h : PStep p l bot eot (pos, a) (pos', b)) :
    (pos' = pos ∧ b ∈ succs p (flagsAt l bot eot pos) a) ∨
    (pos' = pos + 1 ∧ ∃ c, l[pos]? = some c ∧ b ∈ byteOuts p (some c) a) := by
  cases h with
  | capture h => left; simp [succs, h, succ]
  | nop h => left; simp [succs, h, succ]
  | altOut h => left; simp [succs, h, succ]
  | altArg h => left; simp [succs, h, succ]
  | altMatchOut h => left; simp [succs, h, succ]
  | altMatchArg h => left; simp [succs, h, succ]
  | empty h hf => left; simp [succs, h, succ, sub_iff.mpr hf]
  | byte h hc hr => right; exact ⟨rfl, _, hc, by simp [byteOuts, h, inByteRange_iff.mpr hr]⟩

theorem pstep_byte {p : Prog} {l : Bytes} {bot eot : Bool} {pos a b : Nat} {c : UInt8} (hc : l[pos]? = some c)
    (h : b ∈ byteOuts p (some c) a) : PStep p l bot eot (pos, a) (pos + 1, b) := by
  unfold byteOuts at h
  split at h
  · rename_i lo hi fold out x hi' hx
    cases hx
    split at h
    · simp at h; subst h
      exact .byte hi' hc (inByteRange_iff.mp (by assumption))
    · simp at h
  · simp at h

/-- The program can be at instruction `pc` at position `pos`. -/
def Reach (p : Prog) (l : Bytes) (bot eot : Bool) (pos pc : Nat) : Prop :=
  ∃ i, i ≤ l.length ∧ PPath p l bot eot (i, p.start) (pos, pc)

theorem Reach.le {p : Prog} {l : Bytes} {bot eot : Bool} {pos pc : Nat} (h : Reach p l bot eot pos pc) :
    pos ≤ l.length := by
  obtain ⟨i, hi, hpath⟩ := h
  generalize hb : (pos, pc) = b at hpath
  have go : ∀ a b, PPath p l bot eot a b → a.1 ≤ l.length → b.1 ≤ l.length := by
    intro a b h
    induction h with
    | refl => exact id
    | tail _ s ih =>
      intro h
      have h2 := ih h
      rename_i b c _
      obtain ⟨b1, b2⟩ := b
      obtain ⟨c1, c2⟩ := c
      rcases pstep_inv s with ⟨h3, _⟩ | ⟨h3, c, hc, _⟩
      · simp_all
      · have := (List.getElem?_eq_some_iff.mp hc).1
        simp_all; omega
  have := go _ _ hpath hi
  rw [← hb] at this
  exact this

/-- Where paths enter a position: the start, or a byte step. -/
def Src (p : Prog) (l : Bytes) (bot eot : Bool) (pos id : Nat) : Prop :=
  (pos ≤ l.length ∧ id = p.start) ∨
    ∃ pos', pos = pos' + 1 ∧ ∃ a, Reach p l bot eot pos' a ∧ ∃ c, l[pos']? = some c ∧ id ∈ byteOuts p (some c) a

theorem reach_iff {p : Prog} {l : Bytes} {bot eot : Bool} {pos x : Nat} :
    Reach p l bot eot pos x ↔ ∃ id, Src p l bot eot pos id ∧ EpsStar p (flagsAt l bot eot pos) id x := by
  constructor
  · rintro ⟨i, hi, hpath⟩
    have go : ∀ b, PPath p l bot eot (i, p.start) b →
        ∃ id, Src p l bot eot b.1 id ∧ EpsStar p (flagsAt l bot eot b.1) id b.2 := by
      intro b h
      induction h with
      | refl => exact ⟨p.start, Or.inl ⟨hi, rfl⟩, .refl _⟩
      | tail h s ih =>
        rename_i b c
        obtain ⟨b1, b2⟩ := b
        obtain ⟨c1, c2⟩ := c
        rcases pstep_inv s with ⟨h3, h4⟩ | ⟨h3, c, hc, h4⟩
        · subst h3
          obtain ⟨id, h5, h6⟩ := ih
          exact ⟨id, h5, h6.tail h4⟩
        · subst h3
          exact ⟨c2, Or.inr ⟨b1, rfl, b2, ⟨i, hi, h⟩, c, hc, h4⟩, .refl _⟩
    exact go _ hpath
  · rintro ⟨id, hs, he⟩
    have h0 : Reach p l bot eot pos id := by
      rcases hs with ⟨h1, rfl⟩ | ⟨pos', rfl, a, ⟨i, hi, hp⟩, c, hc, hb⟩
      · exact ⟨pos, h1, .refl _⟩
      · exact ⟨i, hi, hp.tail (pstep_byte hc hb)⟩
    obtain ⟨i, hi, hp⟩ := h0
    refine ⟨i, hi, ?_⟩
    induction he with
    | refl => exact hp
    | tail _ s ih => exact ih.tail (pstep_eps s)

theorem accepts_iff {p : Prog} {l : Bytes} {bot eot : Bool} :
    Accepts p bot eot l ↔ ∃ pos pc, Reach p l bot eot pos pc ∧ p.inst[pc]? = some .accept := by
  constructor
  · rintro ⟨i, j, pc, h1, h2, h3⟩; exact ⟨j, pc, ⟨i, h1, h2⟩, h3⟩
  · rintro ⟨j, pc, ⟨i, h1, h2⟩, h3⟩; exact ⟨i, j, pc, h1, h2, h3⟩

theorem accepts_mono {p : Prog} {l : Bytes} {bot : Bool} (h : Accepts p bot false l) : Accepts p bot true l := by
  obtain ⟨i, j, pc, h1, h2, h3⟩ := h
  refine ⟨i, j, pc, h1, ?_, h3⟩
  generalize (i, p.start) = a at h2
  generalize (j, pc) = b at h2
  clear h1 h3
  induction h2 with
  | refl => exact .refl _
  | tail _ s ih =>
    refine ih.tail ?_
    cases s with
    | capture h => exact .capture h
    | nop h => exact .nop h
    | altOut h => exact .altOut h
    | altArg h => exact .altArg h
    | altMatchOut h => exact .altMatchOut h
    | altMatchArg h => exact .altMatchArg h
    | empty h hf =>
      refine .empty h (sub_iff.mp (sub_trans (sub_iff.mpr hf) ?_))
      simp [EmptyOp.sub, flagsAt]
      grind
    | byte h hc hr => exact .byte h hc hr

/-! ## The automaton along a line -/

/-- The flags stored in the state at position `pos`. -/
def storedFlag (l : Bytes) (bot : Bool) (pos : Nat) : Nat :=
  if pos = 0 then (if bot then 5 else 1)
  else if (l[pos - 1]?.map isWord).getD false then 16 else 0

theorem isWordByte_eq (c : UInt8) : isWordByte (some c) = isWord c := by
  unfold isWordByte isWord
  grind

theorem flagsBefore_byte {l : Bytes} {bot eot : Bool} {pos : Nat} {c : UInt8} (hc : l[pos]? = some c)
    (hnl : c ≠ NL) : flagsBefore (storedFlag l bot pos) (some c) = flagsAt l bot eot pos := by
  have hlt := (List.getElem?_eq_some_iff.mp hc).1
  have hne : (pos == l.length) = false := by simp; omega
  unfold flagsBefore flagsAt storedFlag wordBoundaryAt
  rw [isWordByte_eq, hc]
  by_cases h0 : pos = 0
  · subst h0
    cases bot <;> simp [hnl, flagBOL, flagBOT, flagWord, hne] <;> grind
  · have h0' : (pos == 0) = false := by simp [h0]
    have h0'' : decide (0 < pos) = true := by simp; omega
    rw [if_neg h0]
    cases hw : (l[pos - 1]?.map isWord).getD false <;>
      simp [hnl, flagBOL, flagBOT, flagWord, hne, h0'] <;> grind

theorem flagsBefore_end {l : Bytes} {bot eot : Bool} :
    flagsBefore (storedFlag l bot l.length) (if eot then none else some NL) = flagsAt l bot eot l.length := by
  unfold flagsBefore flagsAt storedFlag wordBoundaryAt
  have hn : l[l.length]? = none := by simp
  have hw : isWordByte (if eot then none else some NL) = false := by cases eot <;> decide
  rw [hw, hn]
  by_cases h0 : l.length = 0
  · rw [h0]
    cases eot <;> cases bot <;> simp [flagBOL, flagBOT, flagWord, NL]
  · have h0' : (l.length == 0) = false := by simp only [beq_eq_false_iff_ne]; exact h0
    have h0'' : decide (0 < l.length) = true := by simp only [decide_eq_true_eq]; omega
    rw [if_neg h0, h0', h0'']
    cases hw : (l[l.length - 1]?.map isWord).getD false <;> cases eot <;>
      simp [flagBOL, flagBOT, flagWord, NL]

/-- What the state `d` knows at position `pos` of a line. -/
def LineInv (p : Prog) (l : Bytes) (bot : Bool) (pos : Nat) : DRef → Prop
  | .dmatch => ∀ eot, Accepts p bot eot l
  | .st k => ∃ z, ZOK p z ∧ k = z.enc ∧ z.flag = storedFlag l bot pos ∧
      (∀ eot j pc, j < pos → Reach p l bot eot j pc → p.inst[pc]? ≠ some .accept) ∧
      ∀ eot x, (∃ id ∈ z.q, EpsStar p (flagsAt l bot eot pos) id x) ↔ Reach p l bot eot pos x

theorem src_zero {p : Prog} {l : Bytes} {bot eot : Bool} {id : Nat} :
    Src p l bot eot 0 id ↔ id = p.start := by
  constructor
  · rintro (⟨_, h⟩ | ⟨pos', h, _⟩)
    · exact h
    · omega
  · exact fun h => Or.inl ⟨Nat.zero_le _, h⟩

theorem lineInv_start {p : Prog} (hp : ProgOK p) (l : Bytes) (bot : Bool) :
    LineInv p l bot 0 (.st (if bot then startState p else startLineState p).enc) := by
  have key : ∀ eot (q : List Nat) f, f.sub (flagsAt l bot eot 0) = true →
      (∀ x, x ∈ q ↔ EpsStar p f p.start x) →
      ∀ x, (∃ id ∈ q, EpsStar p (flagsAt l bot eot 0) id x) ↔ Reach p l bot eot 0 x := by
    intro eot q f hf hq x
    rw [reach_iff]
    simp only [src_zero, exists_eq_left]
    constructor
    · rintro ⟨id, hid, hs⟩
      exact (((hq id).mp hid).mono hf).trans hs
    · intro hs
      exact ⟨p.start, (hq _).mpr (.refl _), hs⟩
  refine ⟨_, ?_, rfl, ?_, fun eot j pc hj => by omega, ?_⟩
  · cases bot
    · exact (startLineState_ok hp).1
    · exact (startState_ok hp).1
  · cases bot <;> rfl
  · intro eot
    cases bot
    · exact key eot _ { bol := true } (by simp [EmptyOp.sub, flagsAt]) (startLineState_ok hp).2
    · exact key eot _ { bol := true, bot := true } (by simp [EmptyOp.sub, flagsAt]) (startState_ok hp).2

theorem lineInv_step {p : Prog} (hp : ProgOK p) {l : Bytes} {bot : Bool} {pos : Nat} {d : DRef} {c : UInt8}
    (hc : l[pos]? = some c) (hnl : c ≠ NL) (h : LineInv p l bot pos d) :
    LineInv p l bot (pos + 1) (pstep p d c) := by
  cases d with
  | dmatch => exact h
  | st k =>
    obtain ⟨z, hz, rfl, hflag, hno, hreach⟩ := h
    have hfl : ∀ eot, flagsBefore z.flag (some c) = flagsAt l bot eot pos := by
      intro eot; rw [hflag]; exact flagsBefore_byte hc hnl
    simp only [pstep]
    rcases nextOf_spec hp hz (some c) with ⟨hn, id, hid, x, hs, ha⟩ | ⟨hna, z', hz', hn, hf', hq⟩
    · rw [hn]
      intro eot
      rw [accepts_iff]
      rw [hfl eot] at hs
      exact ⟨pos, x, (hreach eot x).mp ⟨id, hid, hs⟩, ha⟩
    · rw [hn]
      refine ⟨z', hz', rfl, ?_, ?_, ?_⟩
      · rw [hf']
        simp only [flagsAfter, storedFlag, Nat.add_sub_cancel, hc, isWordByte_eq]
        simp [hnl, flagWord]
      · intro eot j pc hj hr ha
        rcases Nat.lt_or_ge j pos with h | h
        · exact hno eot j pc h hr ha
        · have hjp : j = pos := by omega
          subst hjp
          obtain ⟨id, hid, hs⟩ := (hreach eot pc).mpr hr
          exact hna ⟨id, hid, pc, by rw [hfl eot]; exact hs, ha⟩
      · intro eot x
        have hempty : (flagsAfter (some c)).1 = {} := by simp [flagsAfter, hnl]
        rw [hempty] at hq
        rw [reach_iff]
        have hsrc : ∀ id, Src p l bot eot (pos + 1) id ↔
            (id = p.start ∨ ∃ a, (∃ i ∈ z.q, EpsStar p (flagsBefore z.flag (some c)) i a) ∧
              id ∈ byteOuts p (some c) a) := by
          intro id
          have hle : pos + 1 ≤ l.length := (List.getElem?_eq_some_iff.mp hc).1
          rw [hfl eot]
          constructor
          · rintro (⟨_, h⟩ | ⟨pos', h, a, hr, c', hc', hb⟩)
            · exact Or.inl h
            · have : pos' = pos := by omega
              subst this
              rw [hc] at hc'; cases hc'
              exact Or.inr ⟨a, (hreach eot a).mpr hr, hb⟩
          · rintro (h | ⟨a, hr, hb⟩)
            · exact Or.inl ⟨hle, h⟩
            · exact Or.inr ⟨pos, rfl, a, (hreach eot a).mp hr, c, hc, hb⟩
        constructor
        · rintro ⟨id, hid, hs⟩
          obtain ⟨i, hi, hs'⟩ := (hq id).mp hid
          exact ⟨i, (hsrc i).mpr hi, (hs'.mono (by simp [EmptyOp.sub])).trans hs⟩
        · rintro ⟨i, hi, hs⟩
          exact ⟨i, (hq i).mpr ⟨i, (hsrc i).mp hi, .refl _⟩, hs⟩

theorem lineInv_end {p : Prog} (hp : ProgOK p) {l : Bytes} {bot : Bool} {d : DRef}
    (h : LineInv p l bot l.length d) :
    (pNL p d = true ↔ Accepts p bot false l) ∧ (pEOT p d = true ↔ Accepts p bot true l) := by
  cases d with
  | dmatch => exact ⟨by simp [pNL, h false], by simp [pEOT, h true]⟩
  | st k =>
    obtain ⟨z, hz, rfl, hflag, hno, hreach⟩ := h
    have key : ∀ eot, (nextOf p z.enc (if eot then none else some NL) = some .dmatch ↔ Accepts p bot eot l) := by
      intro eot
      have hfl : flagsBefore z.flag (if eot then none else some NL) = flagsAt l bot eot l.length := by
        rw [hflag]; exact flagsBefore_end
      rw [accepts_iff]
      rcases nextOf_spec hp hz (if eot then none else some NL) with ⟨hn, id, hid, x, hs, ha⟩ | ⟨hna, z', hz', hn, hf', hq⟩
      · refine ⟨fun _ => ?_, fun _ => hn⟩
        rw [hfl] at hs
        exact ⟨l.length, x, (hreach eot x).mp ⟨id, hid, hs⟩, ha⟩
      · rw [hn]
        refine ⟨fun h => (by simp at h), ?_⟩
        rintro ⟨pos, pc, hr, ha⟩
        exfalso
        rcases Nat.lt_or_ge pos l.length with h | h
        · exact hno eot pos pc h hr ha
        · have : pos = l.length := by have := hr.le; omega
          subst this
          obtain ⟨id, hid, hs⟩ := (hreach eot pc).mpr hr
          exact hna ⟨id, hid, pc, by rw [hfl]; exact hs, ha⟩
    have k1 := key false
    have k2 := key true
    simp at k1 k2
    simp only [pNL, pEOT, decide_eq_true_eq]
    exact ⟨k1, k2⟩

end Hound
