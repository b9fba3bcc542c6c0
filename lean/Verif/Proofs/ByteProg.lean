import Verif.Proofs.ByteBuild
import Verif.Spec.RuneProg
import Verif.Proofs.Automaton

/-! `toByteProg` keeps the meaning of a program. -/

namespace Hound
open Spec

/-- The raw encoding of `r` (surrogates included) stands at position `i`. -/
def RawAt (l : Bytes) (r : Rune) (i j : Nat) : Prop :=
  r ≤ 0x10FFFF ∧ j = i + (encodeRaw r).length ∧ encodeRaw r <+: l.drop i

/-- From this position and instruction the program can accept. -/
inductive MAcc (orbit : Rune → List Rune) (l : Bytes) (bot eot : Bool) (p : Prog) : Nat → Nat → Prop
  | accept {pos pc} (h : p.inst[pc]? = some .accept) : MAcc orbit l bot eot p pos pc
  | step {pos pc pos' pc'} (s : RStep orbit (RawAt l) p l bot eot (pos, pc) (pos', pc'))
      (h : MAcc orbit l bot eot p pos' pc') : MAcc orbit l bot eot p pos pc

/-- What the instructions of a block spell. -/
inductive Spell (X : List Inst) (s out : Nat) : Nat → Bytes → Prop
  | exit : Spell X s out out []
  | byte {pc lo hi next c w} (hs : s ≤ pc) (h : X[pc]? = some (.byteRange lo hi false next)) (h1 : lo ≤ c) (h2 : c ≤ hi)
      (hn : Spell X s out next w) : Spell X s out pc (c :: w)
  | alt1 {pc a b w} (hs : s ≤ pc) (h : X[pc]? = some (.alt a b)) (hn : Spell X s out a w) : Spell X s out pc w
  | alt2 {pc a b w} (hs : s ≤ pc) (h : X[pc]? = some (.alt a b)) (hn : Spell X s out b w) : Spell X s out pc w

theorem inProd_nil {w : Bytes} : InProd [] w ↔ w = [] := by
  cases w <;> simp [InProd]

theorem Spell.node {X : List Inst} {s out pc : Nat} {w : Bytes} (ho : out < s) (h : Spell X s out pc w) :
    ∀ {rs : List (UInt8 × UInt8)}, Node X s out pc rs → InProd rs w := by
  induction h with
  | exit =>
    intro rs hn
    cases hn with
    | exit => rw [inProd_nil]
    | byte hs _ _ => omega
  | byte hs h h1 h2 _ ih =>
    intro rs hn
    cases hn with
    | exit => omega
    | byte _ h' hn' =>
      rw [h] at h'; cases h'
      exact ⟨_, _, rfl, h1, h2, ih hn'⟩
  | alt1 hs h _ ih =>
    intro rs hn
    cases hn with
    | exit => omega
    | byte _ h' _ => rw [h] at h'; cases h'
  | alt2 hs h _ ih =>
    intro rs hn
    cases hn with
    | exit => omega
    | byte _ h' _ => rw [h] at h'; cases h'

theorem Node.spell {X : List Inst} {s out pc : Nat} {rs : List (UInt8 × UInt8)} (h : Node X s out pc rs) :
    ∀ {w : Bytes}, InProd rs w → Spell X s out pc w := by
  induction h with
  | exit => intro w hw; rw [inProd_nil] at hw; subst hw; exact .exit
  | byte hs h _ ih =>
    intro w hw
    obtain ⟨c, w', rfl, h1, h2, hw'⟩ := hw
    exact .byte hs h h1 h2 (ih hw')

/-- The branch that begins a chain of two or more, one level of it. -/
theorem Heads.spell {X : List Inst} {s out : Nat} (ho : out < s) {node tail : Nat} {bs : List Nat} (hh : Heads X s node tail bs)
    (hb : ∀ a ∈ bs, ∃ rs, Node X s out a rs) : ∀ {a b : Nat} {w : Bytes}, X[node]? = some (.alt a b) →
    ((Spell X s out a w ∨ Spell X s out b w) ↔ HeadWords X s out bs w) := by
  induction hh with
  | last h =>
    rename_i node a b
    intro a' b' w h'
    rw [h] at h'; cases h'
    constructor
    · rintro (hs | hs)
      · obtain ⟨rs, hn⟩ := hb a (by simp)
        exact ⟨a, by simp, rs, hn, hs.node ho hn⟩
      · obtain ⟨rs, hn⟩ := hb b (by simp)
        exact ⟨b, by simp, rs, hn, hs.node ho hn⟩
    · rintro ⟨c, hc, rs, hn, hp⟩
      simp at hc
      rcases hc with rfl | rfl
      · exact Or.inl (hn.spell hp)
      · exact Or.inr (hn.spell hp)
  | more h hs' hlt hm ih =>
    rename_i node a m tail bs
    intro a' b' w h'
    rw [h] at h'; cases h'
    have ih' : ∀ {x y : Nat}, X[m]? = some (Inst.alt x y) →
        ((Spell X s out x w ∨ Spell X s out y w) ↔ HeadWords X s out bs w) :=
      fun h => ih (fun a ha => hb a (List.mem_cons_of_mem _ ha)) h
    have hm_alt : ∃ x y, X[m]? = some (Inst.alt x y) := by cases hm with
      | last h => exact ⟨_, _, h⟩
      | more h _ _ _ => exact ⟨_, _, h⟩
    obtain ⟨x, y, hxy⟩ := hm_alt
    constructor
    · rintro (hs | hs)
      · obtain ⟨rs, hn⟩ := hb a (by simp)
        exact ⟨a, by simp, rs, hn, hs.node ho hn⟩
      · have : Spell X s out x w ∨ Spell X s out y w := by
          cases hs with
          | exit => omega
          | byte _ h' => rw [hxy] at h'; cases h'
          | alt1 _ h' hn => rw [hxy] at h'; cases h'; exact Or.inl hn
          | alt2 _ h' hn => rw [hxy] at h'; cases h'; exact Or.inr hn
        obtain ⟨c, hc, rest⟩ := (ih' hxy).1 this
        exact ⟨c, List.mem_cons_of_mem _ hc, rest⟩
    · rintro ⟨c, hc, rs, hn, hp⟩
      rcases List.mem_cons.mp hc with rfl | hc
      · exact Or.inl (hn.spell hp)
      · rcases (ih' hxy).2 ⟨c, hc, rs, hn, hp⟩ with h1 | h1
        · exact Or.inr (.alt1 hs' hxy h1)
        · exact Or.inr (.alt2 hs' hxy h1)

/-- What the first instruction of the block spells. -/
def FirstSpell (X : List Inst) (s out pc0 : Nat) (w : Bytes) : Prop :=
  (∃ a, X[pc0]? = some (.nop a) ∧ Spell X s out a w) ∨
  (∃ a b, X[pc0]? = some (.alt a b) ∧ (Spell X s out a w ∨ Spell X s out b w))

theorem BInv.firstSpell {X0 : List Inst} {pc0 out : Nat} {b : RB} {bs : List Nat} (ho : out < X0.length)
    (hb : BInv X0 pc0 out b bs) {w : Bytes} :
    FirstSpell b.inst X0.length out pc0 w ↔ HeadWords b.inst X0.length out bs w := by
  unfold FirstSpell
  rcases hb.chain with ⟨h1, h2, _⟩ | ⟨a, h1, h2, _⟩ | hh
  · rw [h1, h2]
    simp [HeadWords]
  · obtain ⟨_, _, rs, hn⟩ := hb.heads a (by simp [h1])
    rw [h1, h2]
    constructor
    · rintro (⟨c, hc, hs⟩ | ⟨_, _, hc, _⟩)
      · cases hc
        exact ⟨a, by simp, rs, hn, hs.node ho hn⟩
      · cases hc
    · rintro ⟨c, hc, rs', hn', hp⟩
      simp at hc; subst hc
      exact Or.inl ⟨c, rfl, hn'.spell hp⟩
  · have hm : ∃ x y, b.inst[pc0]? = some (Inst.alt x y) := by cases hh with
      | last h => exact ⟨_, _, h⟩
      | more h _ _ _ => exact ⟨_, _, h⟩
    obtain ⟨x, y, hxy⟩ := hm
    have key := hh.spell ho (fun a ha => (hb.heads a ha).2.2) (w := w) hxy
    rw [← key, hxy]
    constructor
    · rintro (⟨c, hc, hs⟩ | ⟨_, _, hc, hs⟩)
      · cases hc
      · cases hc; exact hs
    · intro h; exact Or.inr ⟨x, y, rfl, h⟩

/-! ### One instruction -/

/-- Every target of the program is an instruction. -/
def Closed (X : List Inst) : Prop :=
  ∀ i ∈ X, ∀ t, t ∈ (match i with
    | .nop out | .capture out | .empty _ out | .byteRange _ _ _ out | .rune _ _ out | .rune1 _ out
    | .runeAny out | .runeAnyNotNL out => [out]
    | .alt out arg | .altMatch out arg => [out, arg]
    | .fail | .accept => []) → t < X.length

theorem runeOut_target {X : List Inst} (hc : Closed X) {pc out : Nat} {i : Inst} (h : X[pc]? = some i)
    (ho : runeOut i = some out) : out < X.length := by
  have := hc _ (List.mem_of_getElem? h)
  cases i <;> simp [runeOut] at ho <;> subst ho <;> exact this _ (by simp)

theorem rstep_target {orbit : Rune → List Rune} {At : Rune → Nat → Nat → Prop} {p : Prog} {l : Bytes} {bot eot : Bool}
    (hc : Closed p.inst) {a b : Nat × Nat} (h : RStep orbit At p l bot eot a b) : b.2 < p.inst.length := by
  cases h with
  | plain h =>
    cases h with
    | capture h => exact hc _ (List.mem_of_getElem? h) _ (by simp)
    | nop h => exact hc _ (List.mem_of_getElem? h) _ (by simp)
    | altOut h => exact hc _ (List.mem_of_getElem? h) _ (by simp)
    | altArg h => exact hc _ (List.mem_of_getElem? h) _ (by simp)
    | altMatchOut h => exact hc _ (List.mem_of_getElem? h) _ (by simp)
    | altMatchArg h => exact hc _ (List.mem_of_getElem? h) _ (by simp)
    | empty h => exact hc _ (List.mem_of_getElem? h) _ (by simp)
    | byte h => exact hc _ (List.mem_of_getElem? h) _ (by simp)
  | rune h ho _ _ => exact runeOut_target hc h ho

/-- A step depends on the instruction only. -/
theorem rstep_same {orbit : Rune → List Rune} {At : Rune → Nat → Nat → Prop} {p q : Prog} {l : Bytes} {bot eot : Bool}
    {pos pc : Nat} (he : p.inst[pc]? = q.inst[pc]?) {b : Nat × Nat} (h : RStep orbit At p l bot eot (pos, pc) b) :
    RStep orbit At q l bot eot (pos, pc) b := by
  cases h with
  | plain h =>
    refine .plain ?_
    cases h with
    | capture h => exact .capture (he ▸ h)
    | nop h => exact .nop (he ▸ h)
    | altOut h => exact .altOut (he ▸ h)
    | altArg h => exact .altArg (he ▸ h)
    | altMatchOut h => exact .altMatchOut (he ▸ h)
    | altMatchArg h => exact .altMatchArg (he ▸ h)
    | empty h hf => exact .empty (he ▸ h) hf
    | byte h hc hr => exact .byte (he ▸ h) hc hr
  | rune h ho hr hat => exact .rune (he ▸ h) ho hr hat

theorem rstep_fail {orbit : Rune → List Rune} {At : Rune → Nat → Nat → Prop} {p : Prog} {l : Bytes} {bot eot : Bool}
    {pos pc pos' pc' : Nat}  (hi : p.inst[pc]? = some (Inst.fail))
    (h : RStep orbit At p l bot eot (pos, pc) (pos', pc')) : False := by
  cases h with
  | rune h ho _ _ => rw [hi] at h; cases h; cases ho
  | plain h =>
    cases h with
    | capture h => rw [hi] at h; cases h
    | nop h => rw [hi] at h; cases h
    | altOut h => rw [hi] at h; cases h
    | altArg h => rw [hi] at h; cases h
    | altMatchOut h => rw [hi] at h; cases h
    | altMatchArg h => rw [hi] at h; cases h
    | empty h => rw [hi] at h; cases h
    | byte h hc hr => rw [hi] at h; cases h

theorem rstep_nop {orbit : Rune → List Rune} {At : Rune → Nat → Nat → Prop} {p : Prog} {l : Bytes} {bot eot : Bool}
    {pos pc pos' pc' : Nat} {a : Nat} (hi : p.inst[pc]? = some (Inst.nop a))
    (h : RStep orbit At p l bot eot (pos, pc) (pos', pc')) : pos' = pos ∧ pc' = a := by
  cases h with
  | rune h ho _ _ => rw [hi] at h; cases h; cases ho
  | plain h =>
    cases h with
    | capture h => rw [hi] at h; cases h
    | nop h => rw [hi] at h; cases h; exact ⟨rfl, rfl⟩
    | altOut h => rw [hi] at h; cases h
    | altArg h => rw [hi] at h; cases h
    | altMatchOut h => rw [hi] at h; cases h
    | altMatchArg h => rw [hi] at h; cases h
    | empty h => rw [hi] at h; cases h
    | byte h hc hr => rw [hi] at h; cases h

theorem rstep_alt {orbit : Rune → List Rune} {At : Rune → Nat → Nat → Prop} {p : Prog} {l : Bytes} {bot eot : Bool}
    {pos pc pos' pc' : Nat} {a b : Nat} (hi : p.inst[pc]? = some (Inst.alt a b))
    (h : RStep orbit At p l bot eot (pos, pc) (pos', pc')) : pos' = pos ∧ (pc' = a ∨ pc' = b) := by
  cases h with
  | rune h ho _ _ => rw [hi] at h; cases h; cases ho
  | plain h =>
    cases h with
    | capture h => rw [hi] at h; cases h
    | nop h => rw [hi] at h; cases h
    | altOut h => rw [hi] at h; cases h; exact ⟨rfl, Or.inl rfl⟩
    | altArg h => rw [hi] at h; cases h; exact ⟨rfl, Or.inr rfl⟩
    | altMatchOut h => rw [hi] at h; cases h
    | altMatchArg h => rw [hi] at h; cases h
    | empty h => rw [hi] at h; cases h
    | byte h hc hr => rw [hi] at h; cases h

theorem rstep_byte {orbit : Rune → List Rune} {At : Rune → Nat → Nat → Prop} {p : Prog} {l : Bytes} {bot eot : Bool}
    {pos pc pos' pc' : Nat} {lo hi' : UInt8} {f : Bool} {n : Nat} (hi : p.inst[pc]? = some (Inst.byteRange lo hi' f n))
    (h : RStep orbit At p l bot eot (pos, pc) (pos', pc')) : pos' = pos + 1 ∧ pc' = n ∧ ∃ c, l[pos]? = some c ∧ inByteRange lo hi' f c = true := by
  cases h with
  | rune h ho _ _ => rw [hi] at h; cases h; cases ho
  | plain h =>
    cases h with
    | capture h => rw [hi] at h; cases h
    | nop h => rw [hi] at h; cases h
    | altOut h => rw [hi] at h; cases h
    | altArg h => rw [hi] at h; cases h
    | altMatchOut h => rw [hi] at h; cases h
    | altMatchArg h => rw [hi] at h; cases h
    | empty h => rw [hi] at h; cases h
    | byte h hc hr => rw [hi] at h; cases h; exact ⟨rfl, rfl, _, hc, inByteRange_iff.mpr hr⟩

/-- The word `w` stands at position `pos`. -/
def WordAt (l : Bytes) (pos : Nat) (w : Bytes) : Prop := w <+: l.drop pos

theorem wordAt_nil {l : Bytes} {pos : Nat} : WordAt l pos [] := by simp [WordAt]

theorem wordAt_cons {l : Bytes} {pos : Nat} {c : UInt8} {w : Bytes} :
    WordAt l pos (c :: w) ↔ l[pos]? = some c ∧ WordAt l (pos + 1) w := by
  unfold WordAt
  rcases Nat.lt_or_ge pos l.length with h | h
  · rw [List.drop_eq_getElem_cons h, List.cons_prefix_cons, List.getElem?_eq_getElem h]
    simp [eq_comm]
  · rw [List.drop_of_length_le h, List.getElem?_eq_none h]
    simp

theorem inByteRange_false {lo hi c : UInt8} : inByteRange lo hi false c = true ↔ lo ≤ c ∧ c ≤ hi := by
  simp [inByteRange]

/-- Following a spelled word. -/
theorem spell_macc {orbit : Rune → List Rune} {l : Bytes} {bot eot : Bool} {q : Prog} {s out pc : Nat} {w : Bytes}
    (h : Spell q.inst s out pc w) : ∀ {pos : Nat}, WordAt l pos w →
    MAcc orbit l bot eot q (pos + w.length) out → MAcc orbit l bot eot q pos pc := by
  induction h with
  | exit => intro pos _ h; simpa using h
  | byte hs h h1 h2 _ ih =>
    intro pos hw hm
    obtain ⟨hc, hw'⟩ := wordAt_cons.mp hw
    refine .step (.plain (.byte h hc (inByteRange_iff.mp (inByteRange_false.mpr ⟨h1, h2⟩)))) (ih hw' ?_)
    rw [List.length_cons] at hm
    rw [Nat.add_assoc, Nat.add_comm 1]
    exact hm
  | alt1 hs h _ ih => intro pos hw hm; exact .step (.plain (.altOut h)) (ih hw hm)
  | alt2 hs h _ ih => intro pos hw hm; exact .step (.plain (.altArg h)) (ih hw hm)

/-- Replacing a rune instruction by a block that spells its runes changes nothing. -/
theorem block_macc {orbit : Rune → List Rune} {l : Bytes} {bot eot : Bool} {p q : Prog} {pc0 out : Nat} {b : RB}
    {bs : List Nat} {i0 : Inst} (hcl : Closed p.inst) (hi0 : p.inst[pc0]? = some i0) (hout : runeOut i0 = some out)
    (hb : BInv p.inst pc0 out b bs) (hq : q.inst = b.inst)
    (hw : ∀ pos w, WordAt l pos w → (HeadWords b.inst p.inst.length out bs w ↔
      ∃ r : Nat, r ≤ 0x10FFFF ∧ InstHas orbit i0 r ∧ w = encodeRaw r)) :
    ∀ pos pc, pc < p.inst.length → (MAcc orbit l bot eot q pos pc ↔ MAcc orbit l bot eot p pos pc) := by
  have ho : out < p.inst.length := runeOut_target hcl hi0 hout
  have hlen := hb.len
  have hout_rune : ∀ {pos pos' pc' : Nat}, RStep orbit (RawAt l) p l bot eot (pos, pc0) (pos', pc') →
      pc' = out ∧ ∃ r : Nat, r ≤ 0x10FFFF ∧ InstHas orbit i0 r ∧ pos' = pos + (encodeRaw r).length ∧
        WordAt l pos (encodeRaw r) := by
    intro pos pos' pc' h
    cases h with
    | plain h =>
      cases h with
      | capture h => rw [hi0] at h; cases h; cases hout
      | nop h => rw [hi0] at h; cases h; cases hout
      | altOut h => rw [hi0] at h; cases h; cases hout
      | altArg h => rw [hi0] at h; cases h; cases hout
      | altMatchOut h => rw [hi0] at h; cases h; cases hout
      | altMatchArg h => rw [hi0] at h; cases h; cases hout
      | empty h => rw [hi0] at h; cases h; cases hout
      | byte h => rw [hi0] at h; cases h; cases hout
    | rune h ho' hr hat =>
      rw [hi0] at h; cases h
      rw [hout] at ho'; cases ho'
      exact ⟨rfl, _, hat.1, hr, hat.2.1, hat.2.2⟩
  intro pos pc hpc
  constructor
  · intro h
    have key : ∀ {pos pc : Nat}, MAcc orbit l bot eot q pos pc →
        (pc < p.inst.length → MAcc orbit l bot eot p pos pc) ∧
        (p.inst.length ≤ pc → ∃ w, Spell q.inst p.inst.length out pc w ∧ WordAt l pos w ∧
          MAcc orbit l bot eot p (pos + w.length) out) := by
      intro pos pc h
      induction h with
      | accept h =>
        rename_i pos pc
        rw [hq] at h
        refine ⟨fun hlt => ?_, fun hge => ?_⟩
        · by_cases hp : pc = pc0
          · subst hp
            rcases hb.chain with ⟨_, h2, _⟩ | ⟨a, _, h2, _⟩ | hh
            · rw [h2] at h; cases h
            · rw [h2] at h; cases h
            · cases hh with
              | last h' => rw [h'] at h; cases h
              | more h' => rw [h'] at h; cases h
          · rw [hb.old pc hlt hp] at h
            exact .accept h
        · rcases hb.closed _ _ hge h with ⟨_, _, _, h1, _⟩ | ⟨_, _, h1, _⟩ <;> cases h1
      | step s h ih =>
        rename_i pos pc pos' pc'
        refine ⟨fun hlt => ?_, fun hge => ?_⟩
        · by_cases hp : pc = pc0
          · subst hp
            -- the first instruction of the block
            have hfirst : ∃ w, FirstSpell b.inst p.inst.length out pc w ∧ WordAt l pos w ∧
                MAcc orbit l bot eot p (pos + w.length) out := by
              rcases hb.chain with ⟨_, h2, _⟩ | ⟨a, hbs, h2, _⟩ | hh
              · exact (rstep_fail (by rw [hq]; exact h2) s).elim
              · obtain ⟨rfl, rfl⟩ := rstep_nop (a := a) (by rw [hq]; exact h2) s
                obtain ⟨w, k1, k2, k3⟩ := ih.2 (hb.heads pc' (by simp [hbs])).1
                exact ⟨w, Or.inl ⟨_, h2, by rw [← hq]; exact k1⟩, k2, k3⟩
              · have hm : ∃ x y, b.inst[pc]? = some (Inst.alt x y) ∧ p.inst.length ≤ x ∧ p.inst.length ≤ y := by
                  cases hh with
                  | last h =>
                    exact ⟨_, _, h, (hb.heads _ (by simp)).1, (hb.heads _ (by simp)).1⟩
                  | more h hs _ _ => exact ⟨_, _, h, (hb.heads _ (by simp)).1, hs⟩
                obtain ⟨x, y, hxy, hx, hy⟩ := hm
                obtain ⟨rfl, rfl | rfl⟩ := rstep_alt (a := x) (b := y) (by rw [hq]; exact hxy) s
                · obtain ⟨w, k1, k2, k3⟩ := ih.2 hx
                  exact ⟨w, Or.inr ⟨_, _, hxy, Or.inl (by rw [← hq]; exact k1)⟩, k2, k3⟩
                · obtain ⟨w, k1, k2, k3⟩ := ih.2 hy
                  exact ⟨w, Or.inr ⟨_, _, hxy, Or.inr (by rw [← hq]; exact k1)⟩, k2, k3⟩
            obtain ⟨w, h1, h2, h3⟩ := hfirst
            obtain ⟨r, hr1, hr2, rfl⟩ := (hw pos w h2).mp ((hb.firstSpell ho).mp h1)
            exact .step (.rune hi0 hout hr2 ⟨hr1, rfl, h2⟩) h3
          · have he : q.inst[pc]? = p.inst[pc]? := by rw [hq, hb.old pc hlt hp]
            have s' := rstep_same he s
            exact .step s' (ih.1 (rstep_target hcl s'))
        · -- inside the block
          have hlt : pc < q.inst.length := by
            rcases Nat.lt_or_ge pc q.inst.length with h | h
            · exact h
            · cases s with
              | rune h' => have := getElem?_lt h'; omega
              | plain h' =>
                cases h' <;> rename_i h' <;> first | (have := getElem?_lt h'; omega) | skip
          obtain ⟨i, hi⟩ : ∃ i, q.inst[pc]? = some i := ⟨_, List.getElem?_eq_getElem hlt⟩
          rcases hb.closed pc i hge (by rw [← hq]; exact hi) with ⟨lo, hi', next, rfl, hn⟩ | ⟨a, c, rfl, ha, hc⟩
          · obtain ⟨rfl, rfl, c, hc, hr⟩ := rstep_byte hi s
            obtain ⟨h1, h2⟩ := inByteRange_false.mp hr
            rcases hn with rfl | ⟨hn, _⟩
            · exact ⟨[c], .byte hge hi h1 h2 .exit, wordAt_cons.mpr ⟨hc, wordAt_nil⟩, ih.1 ho⟩
            · obtain ⟨w, k1, k2, k3⟩ := ih.2 hn
              refine ⟨c :: w, .byte hge hi h1 h2 k1, wordAt_cons.mpr ⟨hc, k2⟩, ?_⟩
              rw [List.length_cons, Nat.add_comm w.length, ← Nat.add_assoc]
              exact k3
          · obtain ⟨rfl, rfl | rfl⟩ := rstep_alt hi s
            · obtain ⟨w, k1, k2, k3⟩ := ih.2 ha.1
              exact ⟨w, .alt1 hge hi k1, k2, k3⟩
            · obtain ⟨w, k1, k2, k3⟩ := ih.2 hc.1
              exact ⟨w, .alt2 hge hi k1, k2, k3⟩
    exact (key h).1 hpc
  · intro h
    induction h with
    | accept h =>
      rename_i pos pc
      have hne : pc ≠ pc0 := by
        rintro rfl
        rw [hi0] at h; cases h; cases hout
      refine .accept ?_
      rw [hq, hb.old pc hpc hne]; exact h
    | step s h ih =>
      rename_i pos pc pos' pc'
      by_cases hp : pc = pc0
      · subst hp
        obtain ⟨rfl, r, h1, h2, rfl, h4⟩ := hout_rune s
        have ih' := ih ho
        have hf := (hb.firstSpell ho).mpr ((hw pos _ h4).mpr ⟨r, h1, h2, rfl⟩)
        rcases hf with ⟨a, ha, hs⟩ | ⟨a, c, ha, hs | hs⟩
        · exact .step (.plain (.nop (by rw [hq]; exact ha))) (spell_macc (by rw [hq]; exact hs) h4 ih')
        · exact .step (.plain (.altOut (by rw [hq]; exact ha))) (spell_macc (by rw [hq]; exact hs) h4 ih')
        · exact .step (.plain (.altArg (by rw [hq]; exact ha))) (spell_macc (by rw [hq]; exact hs) h4 ih')
      · have he : p.inst[pc]? = q.inst[pc]? := by rw [hq, hb.old pc hpc hp]
        exact .step (rstep_same he s) (ih (rstep_target hcl s))

/-- The same for an instruction that becomes a single byte range. -/
theorem byte_macc {orbit : Rune → List Rune} {l : Bytes} {bot eot : Bool} {p q : Prog} {pc0 out : Nat}
    {lo hi : UInt8} {f : Bool} {i0 : Inst} (hi0 : p.inst[pc0]? = some i0)
    (hout : runeOut i0 = some out) (hq : q.inst = p.inst.set pc0 (.byteRange lo hi f out))
    (hw : ∀ w, (∃ c, w = [c] ∧ inByteRange lo hi f c = true) ↔
      ∃ r : Nat, r ≤ 0x10FFFF ∧ InstHas orbit i0 r ∧ w = encodeRaw r) :
    ∀ pos pc, MAcc orbit l bot eot q pos pc ↔ MAcc orbit l bot eot p pos pc := by
  have hlt := getElem?_lt hi0
  have hq0 : q.inst[pc0]? = some (.byteRange lo hi f out) := by rw [hq, List.getElem?_set_self hlt]
  have hqne : ∀ pc, pc ≠ pc0 → q.inst[pc]? = p.inst[pc]? := by
    intro pc h; rw [hq, List.getElem?_set_ne (by omega)]
  intro pos pc
  constructor
  · intro h
    induction h with
    | accept h =>
      rename_i pos pc
      by_cases hp : pc = pc0
      · subst hp; rw [hq0] at h; cases h
      · exact .accept (by rw [← hqne pc hp]; exact h)
    | step s h ih =>
      rename_i pos pc pos' pc'
      by_cases hp : pc = pc0
      · subst hp
        obtain ⟨rfl, rfl, c, hc, hr⟩ := rstep_byte hq0 s
        obtain ⟨r, h1, h2, h3⟩ := (hw [c]).mp ⟨c, rfl, hr⟩
        refine .step (.rune hi0 hout h2 ⟨h1, by rw [← h3]; rfl, ?_⟩) ih
        rw [← h3]
        exact wordAt_cons.mpr ⟨hc, wordAt_nil⟩
      · exact .step (rstep_same (hqne pc hp) s) ih
  · intro h
    induction h with
    | accept h =>
      rename_i pos pc
      have hp : pc ≠ pc0 := by rintro rfl; rw [hi0] at h; cases h; cases hout
      exact .accept (by rw [hqne pc hp]; exact h)
    | step s h ih =>
      rename_i pos pc pos' pc'
      by_cases hp : pc = pc0
      · subst hp
        cases s with
        | plain h =>
          cases h with
          | capture h => rw [hi0] at h; cases h; cases hout
          | nop h => rw [hi0] at h; cases h; cases hout
          | altOut h => rw [hi0] at h; cases h; cases hout
          | altArg h => rw [hi0] at h; cases h; cases hout
          | altMatchOut h => rw [hi0] at h; cases h; cases hout
          | altMatchArg h => rw [hi0] at h; cases h; cases hout
          | empty h => rw [hi0] at h; cases h; cases hout
          | byte h => rw [hi0] at h; cases h; cases hout
        | rune h ho' hr hat =>
          rw [hi0] at h; cases h
          rw [hout] at ho'; cases ho'
          obtain ⟨h1, h2, h3⟩ := hat
          obtain ⟨c, hc, hr'⟩ := (hw _).mpr ⟨_, h1, hr, rfl⟩
          rw [hc] at h2 h3
          subst h2
          exact .step (.plain (.byte hq0 (wordAt_cons.mp h3).1 (inByteRange_iff.mp hr'))) ih
      · exact .step (rstep_same (hqne pc hp).symm s) ih

/-! ### Which runes an instruction stands for -/

theorem raw_ascii {r : Nat} (h : r < 0x80) : encodeRaw r = [UInt8.ofNat r] := by
  rw [encodeRaw_nat, if_pos h]

theorem raw_single {r : Nat} {c : UInt8} (h : [c] = encodeRaw r) : r < 0x80 ∧ c = UInt8.ofNat r := by
  rw [encodeRaw_nat] at h
  split at h
  · rename_i h'; exact ⟨h', by simpa using h⟩
  · split at h
    · simp at h
    · split at h <;> simp at h

/-- A byte range without folding stands for its runes. -/
theorem byteWords {lo hi : Nat} (hh : hi < 0x80) (hle : lo ≤ hi) (w : Bytes) :
    (∃ c, w = [c] ∧ inByteRange (byteOf lo) (byteOf hi) false c = true) ↔
      ∃ r : Nat, (lo ≤ r ∧ r ≤ hi) ∧ w = encodeRaw r := by
  have := leaf_ascii hh hle w
  constructor
  · rintro ⟨c, rfl, h⟩
    obtain ⟨h1, h2⟩ := inByteRange_false.mp h
    obtain ⟨r, h3, h4, h5⟩ := this.mp ⟨c, [], rfl, h1, h2, by rw [inProd_nil]⟩
    exact ⟨r, ⟨h3, h4⟩, h5⟩
  · rintro ⟨r, ⟨h3, h4⟩, h5⟩
    obtain ⟨c, w', h1, h2, h6, h7⟩ := this.mpr ⟨r, h3, h4, h5⟩
    rw [inProd_nil] at h7
    subst h7
    exact ⟨c, h1, inByteRange_false.mpr ⟨h2, h6⟩⟩

/-- A single folded upper case letter (or a character without case). -/
theorem foldWords {x : Nat} (hx : x < 0x80) (hl : ¬ (97 ≤ x ∧ x ≤ 122)) (w : Bytes) :
    (∃ c, w = [c] ∧ inByteRange (byteOf x) (byteOf x) true c = true) ↔
      ∃ r : Nat, (r = x ∨ (65 ≤ x ∧ x ≤ 90 ∧ r = x + 32)) ∧ w = encodeRaw r := by
  have hb : (byteOf x).toNat = x := by
    unfold byteOf; rw [toNat_ofNat_lt (by omega)]
  constructor
  · rintro ⟨c, rfl, h⟩
    have hc := c.toNat_lt
    refine ⟨c.toNat, ?_, ?_⟩
    · unfold inByteRange at h
      simp only [Bool.true_and] at h
      split at h
      · rename_i h1
        simp only [Bool.and_eq_true, decide_eq_true_eq, UInt8.le_iff_toNat_le, hb] at h h1
        have e1 : (97 : UInt8).toNat = 97 := rfl
        have e2 : (122 : UInt8).toNat = 122 := rfl
        have e3 : (32 : UInt8).toNat = 32 := rfl
        rw [e1, e2] at h1
        rw [UInt8.toNat_sub_of_le _ _ (by rw [UInt8.le_iff_toNat_le, e3]; omega), e3] at h
        omega
      · simp only [Bool.and_eq_true, decide_eq_true_eq, UInt8.le_iff_toNat_le, hb] at h
        omega
    · have : c.toNat < 0x80 := by
        unfold inByteRange at h
        simp only [Bool.true_and] at h
        split at h
        · rename_i h1
          simp only [Bool.and_eq_true, decide_eq_true_eq, UInt8.le_iff_toNat_le] at h1
          have e2 : (122 : UInt8).toNat = 122 := rfl
          omega
        · simp only [Bool.and_eq_true, decide_eq_true_eq, UInt8.le_iff_toNat_le, hb] at h
          omega
      rw [raw_ascii this]; simp
  · rintro ⟨r, hr, rfl⟩
    have hr' : r < 0x80 := by omega
    refine ⟨UInt8.ofNat r, raw_ascii hr', ?_⟩
    have hc : (UInt8.ofNat r).toNat = r := toNat_ofNat_lt (by omega)
    have e1 : (97 : UInt8).toNat = 97 := rfl
    have e2 : (122 : UInt8).toNat = 122 := rfl
    have e3 : (32 : UInt8).toNat = 32 := rfl
    unfold inByteRange
    simp only [Bool.true_and]
    split
    · rename_i h1
      simp only [Bool.and_eq_true, decide_eq_true_eq, UInt8.le_iff_toNat_le, hc, e1, e2] at h1
      simp only [Bool.and_eq_true, decide_eq_true_eq, UInt8.le_iff_toNat_le, hb]
      rw [UInt8.toNat_sub_of_le _ _ (by rw [UInt8.le_iff_toNat_le, e3, hc]; omega), e3, hc]
      omega
    · rename_i h1
      simp only [Bool.and_eq_true, decide_eq_true_eq, UInt8.le_iff_toNat_le, hc, e1, e2] at h1
      simp only [Bool.and_eq_true, decide_eq_true_eq, UInt8.le_iff_toNat_le, hb, hc]
      omega

theorem valid_iff {r : Nat} : validRune r = true ↔ r < 0xD800 ∨ (0xE000 ≤ r ∧ r ≤ 0x10FFFF) := by
  unfold validRune; simp

/-- The runes of `i`. -/
def RuneWords (orbit : Rune → List Rune) (i : Inst) (w : Bytes) : Prop :=
  ∃ r : Nat, r ≤ 0x10FFFF ∧ InstHas orbit i r ∧ w = encodeRaw r

theorem runeWords_of {orbit : Rune → List Rune} {i : Inst} {P : Nat → Prop} (hb : ∀ r, P r → r ≤ 0x10FFFF)
    (hP : ∀ r : Nat, P r ↔ InstHas orbit i r) (w : Bytes) : (∃ r : Nat, P r ∧ w = encodeRaw r) ↔ RuneWords orbit i w := by
  constructor
  · rintro ⟨r, h1, h2⟩; exact ⟨r, hb r h1, (hP r).mp h1, h2⟩
  · rintro ⟨r, _, h1, h2⟩; exact ⟨r, (hP r).mpr h1, h2⟩

theorem asciiFold_upper {orbit : Rune → List Rune} (hf : AsciiFolds orbit) {x : Nat} (hx : x < 0x80)
    (hl : ¬ (97 ≤ x ∧ x ≤ 122)) (ha : asciiFold orbit x = true) :
    ∀ r : Nat, (r = x ∨ (65 ≤ x ∧ x ≤ 90 ∧ r = x + 32)) ↔ (r = x ∨ r ∈ orbit x) := by
  have ht := hf.1
  intro r
  have h1 := ht x hx
  unfold asciiFold simpleFold at ha
  rw [if_neg (show ¬ x ≥ 0x80 from by omega)] at ha
  by_cases h75 : x = 75
  · subst h75
    have h2 := ht 107 (by omega)
    simp [h1, h2] at ha
  · by_cases h83 : x = 83
    · subst h83
      have h2 := ht 115 (by omega)
      simp [h1, h2] at ha
    · rw [if_neg h75, if_neg (show ¬ x = 107 from by omega), if_neg h83, if_neg (show ¬ x = 115 from by omega)] at h1
      rw [h1]
      by_cases hu : 65 ≤ x ∧ x ≤ 90
      · rw [if_pos hu]; simp; omega
      · rw [if_neg hu, if_neg hl]; simp; omega

theorem oneByte_words {orbit : Rune → List Rune} (hf : AsciiFolds orbit) {i : Inst} (hok : RuneOK orbit i)
    {lo hi : UInt8} {f : Bool} (h : oneByteRange orbit i = some (lo, hi, f)) (w : Bytes) :
    (∃ c, w = [c] ∧ inByteRange lo hi f c = true) ↔ RuneWords orbit i w := by
  have single : ∀ {x : Nat} {g : Bool} {out : Nat}, (g = true → ¬ (97 ≤ x ∧ x ≤ 122)) →
      oneByte1 orbit x g = some (lo, hi, f) →
      ((∃ c, w = [c] ∧ inByteRange lo hi f c = true) ↔ RuneWords orbit (.rune [x] g out) w) := by
    intro x g out hl h
    unfold oneByte1 at h
    split at h
    · cases h
    · rename_i hx
      have hx' : x < 0x80 := Nat.lt_of_not_le hx
      split at h
      · cases h
      · rename_i ha
        cases h
        cases f with
        | false =>
          rw [byteWords hx' (Nat.le_refl x)]
          refine runeWords_of (fun r hr => by omega) (fun r => ?_) w
          simp only [InstHas, FoldsTo]
          constructor
          · intro h; left; ((try delta Rune at *); omega)
          · rintro (h | ⟨h, _⟩)
            · subst h; exact ⟨Nat.le_refl _, Nat.le_refl _⟩
            · cases h
        | true =>
          rw [foldWords hx' (hl rfl)]
          refine runeWords_of (fun r hr => by omega) (fun r => ?_) w
          rw [asciiFold_upper hf hx' (hl rfl) (by simpa using ha)]
          simp [InstHas, FoldsTo]
  cases i with
  | rune1 x out =>
    simp only [oneByteRange] at h
    split at h
    · rename_i hx
      cases h
      rw [byteWords (show x < 0x80 from hx) (Nat.le_refl x)]
      refine runeWords_of (fun r hr => by have : x < 0x80 := hx; ((try delta Rune at *); omega)) (fun r => ?_) w
      simp only [InstHas]
      constructor
      · intro h; exact Nat.le_antisymm h.2 h.1
      · intro h; subst h; exact ⟨Nat.le_refl _, Nat.le_refl _⟩
    · cases h
  | rune rs g out =>
    match rs, hok, h with
    | [], _, h => simp [oneByteRange] at h
    | [x], hok, h =>
      simp only [oneByteRange] at h
      refine single (fun hg => ?_) h
      subst hg
      exact hok.2.2.1
    | [a, b], hok, h =>
      obtain ⟨rfl, hp, _⟩ := hok
      obtain ⟨h1, h2, _⟩ := hp (a, b) (by simp [rangePairs])
      simp only [oneByteRange] at h
      have hpair : ∀ r : Nat, (a ≤ r ∧ r ≤ b) ↔ InstHas orbit (.rune [a, b] false out) r := by
        intro r; simp [InstHas, rangePairs]
      split at h
      · rename_i hab
        subst hab
        rw [single (out := out) (by simp) h]
        constructor
        · rintro ⟨r, k1, k2, k3⟩
          refine ⟨r, k1, (hpair r).mp ?_, k3⟩
          simp [InstHas, FoldsTo] at k2
          subst k2; exact ⟨Nat.le_refl _, Nat.le_refl _⟩
        · rintro ⟨r, k1, k2, k3⟩
          refine ⟨r, k1, ?_, k3⟩
          have := (hpair r).mpr k2
          simp only [InstHas, FoldsTo]
          exact Or.inl (Nat.le_antisymm this.2 this.1)
      · split at h
        · rename_i hb
          simp at h
          obtain ⟨rfl, rfl, rfl⟩ := h
          rw [byteWords (show b < 0x80 from hb) h1]
          exact runeWords_of (fun r hr => Nat.le_trans hr.2 h2) hpair w
        · cases h
    | [a, b, c, d], hok, h =>
      obtain ⟨rfl, hp, hq⟩ := hok
      simp only [oneByteRange] at h
      split at h
      · rename_i hc
        obtain ⟨rfl, rfl, h1, h2⟩ := hc
        cases h
        have e1 : c = (orbit a).headD a := by rw [← h1]; unfold simpleFold; cases orbit a <;> rfl
        have e2 : a = (orbit c).headD c := by rw [← h2]; unfold simpleFold; cases orbit c <;> rfl
        obtain ⟨k1, k2⟩ := hq a c rfl e1 e2
        have ht := hf.1 a k1
        have hup : 65 ≤ a ∧ a ≤ 90 ∧ c = a + 32 := by
          by_cases h75 : a = 75
          · subst h75
            rw [if_pos rfl] at ht
            rw [ht] at e1; simp at e1; subst e1
            have := hf.1 107 (by omega)
            simp at this
            rw [this] at e2; simp at e2
          · rw [if_neg h75] at ht
            by_cases h107 : a = 107
            · subst h107
              rw [if_pos rfl] at ht
              rw [ht] at e1; simp at e1; subst e1
              rw [hf.2.1] at e2; simp at e2
            · rw [if_neg h107] at ht
              by_cases h83 : a = 83
              · subst h83
                rw [if_pos rfl] at ht
                rw [ht] at e1; simp at e1; subst e1
                have := hf.1 115 (by omega)
                simp at this
                rw [this] at e2; simp at e2
              · rw [if_neg h83] at ht
                by_cases h115 : a = 115
                · subst h115
                  rw [if_pos rfl] at ht
                  rw [ht] at e1; simp at e1; subst e1
                  rw [hf.2.2] at e2; simp at e2
                · rw [if_neg h115] at ht
                  by_cases hu : 65 ≤ a ∧ a ≤ 90
                  · rw [if_pos hu] at ht
                    rw [ht] at e1
                    exact ⟨hu.1, hu.2, e1⟩
                  · rw [if_neg hu] at ht
                    by_cases hlo : 97 ≤ a ∧ a ≤ 122
                    · rw [if_pos hlo] at ht
                      rw [ht] at e1
                      simp only [List.headD] at e1
                      have e1' : (c : Nat) = a - 32 := e1
                      have k2' : (a : Nat) < c := k2
                      ((try delta Rune at *); omega)
                    · rw [if_neg hlo] at ht
                      rw [ht] at e1
                      simp only [List.headD] at e1
                      rw [e1] at k2
                      exact absurd k2 (Nat.lt_irrefl _)
        obtain ⟨u1, u2, u3⟩ := hup
        rw [foldWords k1 (by ((try delta Rune at *); omega))]
        refine runeWords_of (fun r hr => by ((try delta Rune at *); omega)) (fun r => ?_) w
        simp only [InstHas, rangePairs, List.mem_cons, List.not_mem_nil, or_false, exists_eq_or_imp, exists_eq_left]
        rw [u3]
        constructor
        · rintro (h | ⟨_, _, h⟩)
          · subst h; exact Or.inl ⟨Nat.le_refl _, Nat.le_refl _⟩
          · subst h; exact Or.inr ⟨Nat.le_refl _, Nat.le_refl _⟩
        · rintro (⟨h, h'⟩ | ⟨h, h'⟩)
          · left; exact Nat.le_antisymm h' h
          · right; exact ⟨u1, u2, Nat.le_antisymm h' h⟩
      · cases h
    | [a, b, c], _, h => simp [oneByteRange] at h
    | a :: b :: c :: d :: e :: rs, _, h => simp [oneByteRange] at h
  | _ => simp [oneByteRange] at h

/-! ### The ranges of an instruction -/

/-- A range of valid code points. -/
def OKRange (p : Rune × Rune) : Prop := p.1 ≤ p.2 ∧ ∀ y : Nat, p.1 ≤ y → y ≤ p.2 → validRune y = true

def InRanges (rr : List (Rune × Rune)) (y : Nat) : Prop := ∃ p ∈ rr, p.1 ≤ y ∧ y ≤ p.2

theorem set_ranges {rr : List (Rune × Rune)} {i : Nat} {rlo rhi lo hi : Nat} (hi' : rr[i]? = some (rlo, rhi))
    (hr : ∀ p ∈ rr, OKRange p) (hv : ∀ y : Nat, lo ≤ y → y ≤ hi → validRune y = true) (hle : lo ≤ hi)
    (hc : lo ≤ rhi + 1 ∧ rlo ≤ hi + 1) :
    (∀ p ∈ rr.set i (if lo < rlo then lo else rlo, if hi > rhi then hi else rhi), OKRange p) ∧
    ∀ y, InRanges (rr.set i (if lo < rlo then lo else rlo, if hi > rhi then hi else rhi)) y ↔
      InRanges rr y ∨ (lo ≤ y ∧ y ≤ hi) := by
  have hlt := getElem?_lt hi'
  obtain ⟨h1, h2⟩ := hr _ (List.mem_of_getElem? hi')
  simp only at h1 h2
  have hm : ∀ y : Nat, ((if lo < rlo then lo else rlo) ≤ y ∧ y ≤ (if hi > rhi then hi else rhi)) ↔
      (rlo ≤ y ∧ y ≤ rhi) ∨ (lo ≤ y ∧ y ≤ hi) := by
    intro y
    have h1' : rlo ≤ rhi := h1
    split <;> split <;> omega
  constructor
  · intro p hp
    rcases List.mem_or_eq_of_mem_set hp with h | h
    · exact hr p h
    · subst h
      refine ⟨?_, fun y a b => ?_⟩
      · have h1' : rlo ≤ rhi := h1
        show (if lo < rlo then lo else rlo) ≤ (if hi > rhi then hi else rhi)
        split <;> split <;> omega
      · rcases (hm y).mp ⟨a, b⟩ with ⟨a, b⟩ | ⟨a, b⟩
        · exact h2 y a b
        · exact hv y a b
  · intro y
    constructor
    · rintro ⟨p, hp, hy⟩
      rcases List.mem_or_eq_of_mem_set hp with h | h
      · exact Or.inl ⟨p, h, hy⟩
      · subst h
        rcases (hm y).mp hy with h | h
        · exact Or.inl ⟨_, List.mem_of_getElem? hi', h⟩
        · exact Or.inr h
    · rintro (⟨p, hp, hy⟩ | hy)
      · obtain ⟨j, hj⟩ := List.getElem?_of_mem hp
        by_cases hji : i = j
        · subst hji
          rw [hi'] at hj
          cases hj
          exact ⟨_, List.mem_of_getElem? (List.getElem?_set_self hlt), (hm y).mpr (Or.inl hy)⟩
        · exact ⟨p, List.mem_of_getElem? (by rw [List.getElem?_set_ne hji]; exact hj), hy⟩
      · exact ⟨_, List.mem_of_getElem? (List.getElem?_set_self hlt), (hm y).mpr (Or.inr hy)⟩

theorem appendRange_ok {rr : List (Rune × Rune)} {lo hi : Nat} (hr : ∀ p ∈ rr, OKRange p)
    (hv : ∀ y : Nat, lo ≤ y → y ≤ hi → validRune y = true) (hle : lo ≤ hi) :
    (∀ p ∈ appendRange rr lo hi, OKRange p) ∧
    ∀ y, InRanges (appendRange rr lo hi) y ↔ InRanges rr y ∨ (lo ≤ y ∧ y ≤ hi) := by
  have key : ∀ (k : Nat) (r' : List (Rune × Rune)),
      (if k ≤ rr.length then
        match rr[rr.length - k]? with
        | some (rlo, rhi) =>
          if lo ≤ rhi + 1 ∧ rlo ≤ hi + 1 then
            some (rr.set (rr.length - k) (if lo < rlo then lo else rlo, if hi > rhi then hi else rhi))
          else none
        | none => none
      else none) = some r' →
      (∀ p ∈ r', OKRange p) ∧ ∀ y, InRanges r' y ↔ InRanges rr y ∨ (lo ≤ y ∧ y ≤ hi) := by
    intro k r' h
    split at h
    · split at h
      · rename_i rlo rhi hg
        split at h
        · rename_i hc
          cases h
          exact set_ranges hg hr hv hle hc
        · cases h
      · cases h
    · cases h
  unfold appendRange
  simp only
  split
  · rename_i h; exact key _ _ h
  · split
    · rename_i h; exact key _ _ h
    · constructor
      · intro p hp
        rcases List.mem_append.mp hp with h | h
        · exact hr p h
        · simp at h; subst h; exact ⟨hle, hv⟩
      · intro y
        unfold InRanges
        constructor
        · rintro ⟨p, hp, hy⟩
          rcases List.mem_append.mp hp with h | h
          · exact Or.inl ⟨p, h, hy⟩
          · simp at h; subst h; exact Or.inr hy
        · rintro (⟨p, hp, hy⟩ | hy)
          · exact ⟨p, List.mem_append_left _ hp, hy⟩
          · exact ⟨(lo, hi), by simp, hy⟩

theorem foldAppend_ok : ∀ (fs : List Rune) {rr : List (Rune × Rune)}, (∀ p ∈ rr, OKRange p) →
    (∀ f ∈ fs, validRune f = true) →
    (∀ p ∈ fs.foldl (fun r f => appendRange r f f) rr, OKRange p) ∧
    ∀ y, InRanges (fs.foldl (fun r f => appendRange r f f) rr) y ↔ InRanges rr y ∨ y ∈ fs := by
  intro fs
  induction fs with
  | nil => intro rr hr _; exact ⟨hr, fun y => by simp⟩
  | cons f fs ih =>
    intro rr hr hv
    obtain ⟨h1, h2⟩ := appendRange_ok (lo := f) (hi := f) hr
      (fun y a b => by have : y = f := Nat.le_antisymm b a; subst this; exact hv _ (by simp)) (Nat.le_refl _)
    obtain ⟨h3, h4⟩ := ih h1 (fun g hg => hv g (List.mem_cons_of_mem _ hg))
    refine ⟨h3, fun y => ?_⟩
    rw [List.foldl_cons, h4, h2, List.mem_cons, or_assoc]
    have : (f ≤ y ∧ y ≤ f) ↔ y = f := ⟨fun h => Nat.le_antisymm h.2 h.1, fun h => by subst h; exact ⟨Nat.le_refl _, Nat.le_refl _⟩⟩
    rw [this]

theorem okRange_nat {lo hi : Nat} (h1 : lo ≤ hi) (h2 : ∀ y : Nat, lo ≤ y → y ≤ hi → validRune y = true) :
    GoodRange lo hi ∧ hi ≤ 0x10FFFF := by
  have a := valid_iff.mp (h2 lo (Nat.le_refl _) h1)
  have b := valid_iff.mp (h2 hi h1 (Nat.le_refl _))
  have c : ¬ (lo ≤ 0xD800 ∧ 0xD800 ≤ hi) := by
    rintro ⟨h, h'⟩
    have := valid_iff.mp (h2 0xD800 h h'); omega
  unfold GoodRange
  omega

theorem OKRange.good {p : Rune × Rune} (h : OKRange p) : GoodRange p.1 p.2 ∧ p.2 ≤ 0x10FFFF :=
  okRange_nat h.1 h.2

theorem pairsOf_eq : ∀ rs : List Rune, pairsOf rs = rangePairs rs
  | [] => rfl
  | [_] => rfl
  | _ :: _ :: rs => by simp [pairsOf, rangePairs, pairsOf_eq rs]

theorem instRanges_ok {orbit : Rune → List Rune} (hf : AsciiFolds orbit) {rs : List Rune} {f : Bool} {out : Nat}
    (hok : RuneOK orbit (.rune rs f out)) :
    (∀ p ∈ instRanges orbit rs f, GoodRange p.1 p.2 ∧ p.2 ≤ 0x10FFFF) ∧
    ∀ y, InRanges (instRanges orbit rs f) y ↔ InstHas orbit (.rune rs f out) y := by
  have single : ∀ x : Nat, validRune x = true → OKRange (x, x) := by
    intro x h
    exact ⟨Nat.le_refl _, fun y a b => by have : y = x := Nat.le_antisymm b a; subst this; exact h⟩
  have hin1 : ∀ x y : Nat, InRanges [(x, x)] y ↔ y = x := by
    intro x y
    simp only [InRanges, List.mem_singleton, exists_eq_left]
    exact ⟨fun h => Nat.le_antisymm h.2 h.1, fun h => by subst h; exact ⟨Nat.le_refl _, Nat.le_refl _⟩⟩
  by_cases h1 : ∃ x, rs = [x]
  · obtain ⟨x, rfl⟩ := h1
    cases f with
    | false =>
      simp only [instRanges, Bool.false_eq_true, if_false]
      refine ⟨fun p hp => ?_, fun y => ?_⟩
      · simp at hp; subst hp; exact (single x hok).good
      · rw [hin1]; simp [InstHas, FoldsTo]
    | true =>
      obtain ⟨k1, k2, k3, k4⟩ := hok
      simp only [instRanges, if_true]
      unfold appendFoldedRange
      have hx1 : ¬ (x ≤ minFold ∧ x ≥ maxFold) := by
        unfold minFold maxFold
        rintro ⟨a, b⟩
        have := Nat.le_trans b a
        exact absurd this (by decide)
      rw [if_neg hx1]
      have hnil : ∀ p ∈ ([] : List (Rune × Rune)), OKRange p := by simp
      by_cases h2 : x < minFold ∨ x > maxFold
      · rw [if_pos h2]
        have horb : orbit x = [] := by
          rcases h2 with h2 | h2
          · have h2' : (x : Nat) < 65 := h2
            have := hf.1 x (by ((try delta Rune at *); omega))
            rw [this, if_neg (by ((try delta Rune at *); omega)), if_neg (by ((try delta Rune at *); omega)), if_neg (by ((try delta Rune at *); omega)), if_neg (by ((try delta Rune at *); omega)), if_neg (by ((try delta Rune at *); omega)), if_neg (by ((try delta Rune at *); omega))]
          · rcases k4 with k4 | k4
            · exact absurd k4 (Nat.not_le_of_lt h2)
            · exact k4
        obtain ⟨a, b⟩ := appendRange_ok (lo := x) (hi := x) hnil (single x k1).2 (Nat.le_refl _)
        refine ⟨fun p hp => (a p hp).good, fun y => ?_⟩
        rw [b]
        have e : (x ≤ y ∧ y ≤ x) ↔ y = x := ⟨fun h => Nat.le_antisymm h.2 h.1, fun h => by subst h; exact ⟨Nat.le_refl _, Nat.le_refl _⟩⟩
        rw [e]
        simp [InstHas, FoldsTo, horb, InRanges]
      · rw [if_neg h2]
        have n1 : ¬ x < minFold := fun h => h2 (Or.inl h)
        have n2 : ¬ x > maxFold := fun h => h2 (Or.inr h)
        simp only [if_neg n1, if_neg n2]
        have hr1 : List.range' x (x + 1 - x) = [x] := by
          rw [Nat.add_sub_cancel_left]; rfl
        rw [hr1]
        unfold foldLoop
        simp only [List.foldl_cons, List.foldl_nil]
        have := foldAppend_ok (x :: orbit x) hnil (by
          intro g hg
          rcases List.mem_cons.mp hg with rfl | hg
          · exact k1
          · exact k2 g hg)
        rw [List.foldl_cons] at this
        refine ⟨fun p hp => (this.1 p hp).good, fun y => ?_⟩
        rw [this.2]
        simp [InstHas, FoldsTo, InRanges]
  · have hok' : f = false ∧ (∀ p ∈ rangePairs rs, p.1 ≤ p.2 ∧ p.2 ≤ 0x10FFFF ∧ ClearRange p.1 p.2) := by
      match rs, h1, hok with
      | [], _, hok => exact ⟨hok.1, hok.2.1⟩
      | [x], h1, _ => exact absurd ⟨x, rfl⟩ h1
      | _ :: _ :: _, _, hok => exact ⟨hok.1, hok.2.1⟩
    obtain ⟨rfl, hp⟩ := hok'
    have he : instRanges orbit rs false = rangePairs rs := by
      match rs, h1 with
      | [], _ => rfl
      | [x], h1 => exact absurd ⟨x, rfl⟩ h1
      | a :: b :: rs, _ => simp [instRanges, pairsOf_eq]
    have hi : ∀ y, InstHas orbit (.rune rs false out) y ↔ ∃ p ∈ rangePairs rs, p.1 ≤ y ∧ y ≤ p.2 := by
      intro y
      match rs, h1 with
      | [], _ => rfl
      | [x], h1 => exact absurd ⟨x, rfl⟩ h1
      | a :: b :: rs, _ => rfl
    rw [he]
    refine ⟨fun p hp' => ?_, fun y => (hi y).symm⟩
    obtain ⟨a, b, c⟩ := hp p hp'
    exact ⟨c, b⟩

/-! ### One round of `toByteProg` -/

/-- The instruction is not a rune instruction. -/
def NotRune (o : Option Inst) : Prop := ∀ i, o = some i → runeOut i = none

/-- What one round does to the instructions. -/
structure Round (orbit : Rune → List Rune) (X X' : List Inst) (pc : Nat) : Prop where
  len : X.length ≤ X'.length
  closed : Closed X'
  old : ∀ i, i < X.length → i ≠ pc → X'[i]? = X[i]?
  this : NotRune X'[pc]?
  new : ∀ i, X.length ≤ i → NotRune X'[i]?
  same : ∀ (st st' : Nat) (l : Bytes) (bot eot : Bool), NL ∉ l → ∀ pos pc1, pc1 < X.length →
    (MAcc orbit l bot eot ⟨X', st'⟩ pos pc1 ↔ MAcc orbit l bot eot ⟨X, st⟩ pos pc1)

theorem macc_start {orbit : Rune → List Rune} {l : Bytes} {bot eot : Bool} {X : List Inst} {st st' pos pc : Nat}
    (h : MAcc orbit l bot eot ⟨X, st⟩ pos pc) : MAcc orbit l bot eot ⟨X, st'⟩ pos pc := by
  induction h with
  | accept h => exact .accept h
  | step s _ ih => exact .step (rstep_same (p := ⟨X, st⟩) (q := ⟨X, st'⟩) rfl s) ih

/-- Targets of one instruction. -/
theorem closed_iff {X : List Inst} : Closed X ↔ ∀ (pc : Nat) (i : Inst), X[pc]? = some i →
    ∀ t, t ∈ (match i with
    | .nop out | .capture out | .empty _ out | .byteRange _ _ _ out | .rune _ _ out | .rune1 _ out
    | .runeAny out | .runeAnyNotNL out => [out]
    | .alt out arg | .altMatch out arg => [out, arg]
    | .fail | .accept => []) → t < X.length := by
  constructor
  · intro h pc i hi; exact h i (List.mem_of_getElem? hi)
  · intro h i hi
    obtain ⟨pc, hpc⟩ := List.getElem?_of_mem hi
    exact h pc i hpc

theorem round_byte {orbit : Rune → List Rune} {X : List Inst} {pc out : Nat} {i0 : Inst} {lo hi : UInt8} {f : Bool}
    (hcl : Closed X) (hi0 : X[pc]? = some i0) (hout : runeOut i0 = some out)
    (hw : ∀ w, (∃ c, w = [c] ∧ inByteRange lo hi f c = true) ↔ RuneWords orbit i0 w) :
    Round orbit X (X.set pc (.byteRange lo hi f out)) pc where
  len := by simp
  closed := by
    rw [closed_iff]
    intro i j hj t ht
    rw [List.length_set]
    rw [List.getElem?_set] at hj
    split at hj
    · split at hj
      · cases hj
        simp at ht
        subst ht
        exact runeOut_target hcl hi0 hout
      · cases hj
    · exact closed_iff.mp hcl i j hj t ht
  old := by intro i _ hne; rw [List.getElem?_set_ne (by omega)]
  this := by
    intro i hi'
    rw [List.getElem?_set_self (getElem?_lt hi0)] at hi'
    cases hi'; rfl
  new := by
    intro i hge j hj
    have := getElem?_lt hj
    simp at this; omega
  same := by
    intro st st' l bot eot _ pos pc1 _
    exact byte_macc (p := ⟨X, st⟩) (q := ⟨_, st'⟩) hi0 hout rfl hw pos pc1

theorem round_block {orbit : Rune → List Rune} {X : List Inst} {pc out : Nat} {i0 : Inst} {ranges : List (Rune × Rune)}
    (hcl : Closed X) (hi0 : X[pc]? = some i0) (hout : runeOut i0 = some out)
    (hg : ∀ p ∈ ranges, GoodRange p.1 p.2 ∧ p.2 ≤ 0x10FFFF)
    (hw : ∀ y : Nat, y ≤ 0x10FFFF → y ≠ 10 → (InRanges ranges y ↔ InstHas orbit i0 y)) :
    ∃ X', buildRanges X pc out ranges = some X' ∧ Round orbit X X' pc := by
  have hlt := getElem?_lt hi0
  have ho := runeOut_target hcl hi0 hout
  obtain ⟨b, bs, h1, hb, h3⟩ := buildRanges_ok ho hlt hg
  refine ⟨b.inst, h1, hb.len, ?_, hb.old, ?_, ?_, ?_⟩
  · rw [closed_iff]
    intro i j hj t ht
    have hl := hb.len
    rcases Nat.lt_or_ge i X.length with hi | hi
    · by_cases hp : i = pc
      · subst hp
        rcases hb.chain with ⟨_, h2, _⟩ | ⟨a, hbs, h2, _⟩ | hh
        · rw [h2] at hj; cases hj; simp at ht
        · rw [h2] at hj; cases hj; simp at ht; subst ht
          exact (hb.heads t (by simp [hbs])).2.1
        · cases hh with
          | last h =>
            rw [h] at hj; cases hj
            simp only [List.mem_cons, List.not_mem_nil, or_false] at ht
            rcases ht with rfl | rfl
            · exact (hb.heads t (by simp)).2.1
            · exact (hb.heads t (by simp)).2.1
          | more h _ _ hm =>
            rw [h] at hj; cases hj
            simp only [List.mem_cons, List.not_mem_nil, or_false] at ht
            rcases ht with rfl | rfl
            · exact (hb.heads t (by simp)).2.1
            · cases hm with
              | last h => exact getElem?_lt h
              | more h _ _ _ => exact getElem?_lt h
      · rw [hb.old i hi hp] at hj
        have := closed_iff.mp hcl i j hj t ht
        omega
    · rcases hb.closed i j hi hj with ⟨lo, hi', next, rfl, hn⟩ | ⟨a, c, rfl, ha, hc⟩
      · simp at ht; subst ht
        rcases hn with rfl | hn
        · omega
        · exact hn.2
      · simp only [List.mem_cons, List.not_mem_nil, or_false] at ht
        rcases ht with rfl | rfl
        · exact ha.2
        · exact hc.2
  · intro j hj
    rcases hb.chain with ⟨_, h2, _⟩ | ⟨a, hbs, h2, _⟩ | hh
    · rw [h2] at hj; cases hj; rfl
    · rw [h2] at hj; cases hj; rfl
    · cases hh with
      | last h => rw [h] at hj; cases hj; rfl
      | more h _ _ hm => rw [h] at hj; cases hj; rfl
  · intro i hi j hj
    rcases hb.closed i j hi hj with ⟨lo, hi', next, rfl, hn⟩ | ⟨a, c, rfl, ha, hc⟩ <;> rfl
  · intro st st' l bot eot hl pos pc1 hpc1
    refine block_macc (p := ⟨X, st⟩) (q := ⟨b.inst, st'⟩) hcl hi0 hout hb rfl ?_ pos pc1 hpc1
    intro pos w hwa
    rw [h3]
    have hne : ∀ r : Nat, w = encodeRaw r → r ≠ 10 := by
      rintro r rfl rfl
      rw [raw_ascii (by omega)] at hwa
      obtain ⟨h, _⟩ := wordAt_cons.mp hwa
      exact hl (List.mem_of_getElem? h)
    constructor
    · rintro ⟨p, hp, r, k1, k2, k3⟩
      have hr : r ≤ 0x10FFFF := Nat.le_trans k2 (hg p hp).2
      exact ⟨r, hr, (hw r hr (hne r k3)).mp ⟨p, hp, k1, k2⟩, k3⟩
    · rintro ⟨r, hr, k2, k3⟩
      obtain ⟨p, hp, k4, k5⟩ := (hw r hr (hne r k3)).mpr k2
      exact ⟨p, hp, r, k4, k5, k3⟩

theorem toByteInst_ok {orbit : Rune → List Rune} (hf : AsciiFolds orbit) {X : List Inst} {pc : Nat} (hcl : Closed X)
    (hlt : pc < X.length) (hok : ∀ i, X[pc]? = some i → RuneOK orbit i) :
    ∃ X', toByteInst orbit X pc = some X' ∧ Round orbit X X' pc := by
  obtain ⟨i0, hi0⟩ : ∃ i, X[pc]? = some i := ⟨_, List.getElem?_eq_getElem hlt⟩
  have hok0 := hok i0 hi0
  unfold toByteInst
  rw [hi0]
  have nothing : runeOut i0 = none → Round orbit X X pc := by
    intro h
    refine ⟨Nat.le_refl _, hcl, fun _ _ _ => rfl, ?_, ?_, ?_⟩
    · intro i hi; rw [hi0] at hi; cases hi; exact h
    · intro i hi j hj; have := getElem?_lt hj; omega
    · intro st st' l bot eot _ pos pc1 _
      exact ⟨macc_start, macc_start⟩
  have all : ∀ out, runeOut i0 = some out → (∀ y : Nat, y ≠ 10 → InstHas orbit i0 y) →
      ∃ X', buildRanges X pc out [(0, 0x10FFFF)] = some X' ∧ Round orbit X X' pc := by
    intro out hout hall
    refine round_block hcl hi0 hout ?_ ?_
    · intro p hp; simp at hp; subst hp; unfold GoodRange; simp
    · intro y hy hne
      constructor
      · intro _; exact hall y hne
      · intro _; exact ⟨(0, 0x10FFFF), by simp, Nat.zero_le _, hy⟩
  cases i0 with
  | rune rs f out =>
    simp only
    cases hob : oneByteRange orbit (.rune rs f out) with
    | some t =>
      obtain ⟨lo, hi, g⟩ := t
      exact ⟨_, rfl, round_byte hcl hi0 rfl (oneByte_words hf hok0 hob)⟩
    | none =>
      obtain ⟨h1, h2⟩ := instRanges_ok hf hok0
      exact round_block hcl hi0 rfl h1 (fun y _ _ => h2 y)
  | rune1 x out =>
    simp only
    cases hob : oneByteRange orbit (.rune1 x out) with
    | some t =>
      obtain ⟨lo, hi, g⟩ := t
      exact ⟨_, rfl, round_byte hcl hi0 rfl (oneByte_words hf hok0 hob)⟩
    | none =>
      have hx : OKRange (x, x) :=
        ⟨Nat.le_refl _, fun y a b => by have : y = x := Nat.le_antisymm b a; subst this; exact hok0⟩
      refine round_block hcl hi0 rfl ?_ ?_
      · intro p hp; simp at hp; subst hp; exact hx.good
      · intro y _ _
        simp only [InRanges, List.mem_singleton, exists_eq_left, InstHas]
        exact ⟨fun h => Nat.le_antisymm h.2 h.1, fun h => by subst h; exact ⟨Nat.le_refl _, Nat.le_refl _⟩⟩
  | runeAny out => exact all out rfl (fun _ _ => trivial)
  | runeAnyNotNL out => exact all out rfl (fun _ h => h)
  | fail => exact ⟨X, rfl, nothing rfl⟩
  | accept => exact ⟨X, rfl, nothing rfl⟩
  | nop => exact ⟨X, rfl, nothing rfl⟩
  | capture => exact ⟨X, rfl, nothing rfl⟩
  | alt => exact ⟨X, rfl, nothing rfl⟩
  | altMatch => exact ⟨X, rfl, nothing rfl⟩
  | empty => exact ⟨X, rfl, nothing rfl⟩
  | byteRange => exact ⟨X, rfl, nothing rfl⟩

/-! ### All rounds -/

theorem rounds_ok {orbit : Rune → List Rune} (hf : AsciiFolds orbit) {X0 : List Inst}
    (hok : ∀ i ∈ X0, RuneOK orbit i) : ∀ (pcs : List Nat) (X : List Inst), pcs.Nodup → Closed X →
    X0.length ≤ X.length → (∀ i ∈ pcs, i < X0.length ∧ X[i]? = X0[i]?) →
    ∃ X', pcs.foldl (fun inst pc => inst.bind fun inst => toByteInst orbit inst pc) (some X) = some X' ∧
      Closed X' ∧ X.length ≤ X'.length ∧ (∀ i ∈ pcs, NotRune X'[i]?) ∧
      (∀ i, i ∉ pcs → i < X.length → X'[i]? = X[i]?) ∧ (∀ i, X.length ≤ i → NotRune X'[i]?) ∧
      ∀ (st st' : Nat) (l : Bytes) (bot eot : Bool), NL ∉ l → ∀ pos pc1, pc1 < X0.length →
        (MAcc orbit l bot eot ⟨X', st'⟩ pos pc1 ↔ MAcc orbit l bot eot ⟨X, st⟩ pos pc1) := by
  intro pcs
  induction pcs with
  | nil =>
    intro X _ hcl hlen _
    refine ⟨X, rfl, hcl, Nat.le_refl _, by simp, fun _ _ _ => rfl, ?_, ?_⟩
    · intro i hi j hj; have := getElem?_lt hj; omega
    · intro st st' l bot eot _ pos pc1 _
      exact ⟨macc_start, macc_start⟩
  | cons pc pcs ih =>
    intro X hnd hcl hlen hpcs
    rw [List.nodup_cons] at hnd
    obtain ⟨hpc, hpc'⟩ := hpcs pc List.mem_cons_self
    obtain ⟨X1, h1, hr⟩ := toByteInst_ok hf hcl (show pc < X.length by omega) (fun i hi => by
      rw [hpc'] at hi
      exact hok i (List.mem_of_getElem? hi))
    obtain ⟨X2, k1, k2, k3, k4, k5, k6, k7⟩ := ih X1 hnd.2 hr.closed (by have := hr.len; omega) (fun i hi => by
      obtain ⟨a, b⟩ := hpcs i (List.mem_cons_of_mem _ hi)
      refine ⟨a, ?_⟩
      rw [hr.old i (by omega) (by rintro rfl; exact hnd.1 hi), b])
    have hl := hr.len
    refine ⟨X2, ?_, k2, by omega, ?_, ?_, ?_, ?_⟩
    · rw [List.foldl_cons]
      simp only [Option.bind_some]
      rw [h1]; exact k1
    · intro i hi
      rcases List.mem_cons.mp hi with rfl | hi
      · rw [k5 i hnd.1 (by omega)]; exact hr.this
      · exact k4 i hi
    · intro i hi hlt
      have hi1 : i ∉ pcs := fun h => hi (List.mem_cons_of_mem _ h)
      have hi2 : i ≠ pc := fun h => hi (h ▸ List.mem_cons_self)
      rw [k5 i hi1 (by omega), hr.old i hlt hi2]
    · intro i hi
      rcases Nat.lt_or_ge i X1.length with h | h
      · have hi1 : i ∉ pcs := fun h' => by have := (hpcs i (List.mem_cons_of_mem _ h')).1; omega
        rw [k5 i hi1 h]; exact hr.new i hi
      · exact k6 i h
    · intro st st' l bot eot hnl pos pc1 hlt
      rw [k7 st st' l bot eot hnl pos pc1 hlt]
      exact hr.same st st l bot eot hnl pos pc1 (by omega)

theorem rpath_head {orbit : Rune → List Rune} {At : Rune → Nat → Nat → Prop} {p : Prog} {l : Bytes} {bot eot : Bool}
    {a b c : Nat × Nat} (s : RStep orbit At p l bot eot a b) (h : RPath orbit At p l bot eot b c) :
    RPath orbit At p l bot eot a c := by
  induction h with
  | refl => exact .tail (.refl _) s
  | tail _ s' ih => exact .tail ih s'

theorem macc_iff_path {orbit : Rune → List Rune} {p : Prog} {l : Bytes} {bot eot : Bool} {pos pc : Nat} :
    MAcc orbit l bot eot p pos pc ↔
      ∃ j pc', RPath orbit (RawAt l) p l bot eot (pos, pc) (j, pc') ∧ p.inst[pc']? = some .accept := by
  constructor
  · intro h
    induction h with
    | accept h => exact ⟨_, _, .refl _, h⟩
    | step s _ ih =>
      obtain ⟨j, pc', h1, h2⟩ := ih
      exact ⟨j, pc', rpath_head s h1, h2⟩
  · rintro ⟨j, pc', h1, h2⟩
    generalize ha : (pos, pc) = a at h1
    generalize hb : (j, pc') = b at h1
    have key : ∀ {a b : Nat × Nat}, RPath orbit (RawAt l) p l bot eot a b → MAcc orbit l bot eot p b.1 b.2 →
        MAcc orbit l bot eot p a.1 a.2 := by
      intro a b h
      induction h with
      | refl => exact id
      | tail _ s ih => intro hm; exact ih (.step s hm)
    have := key h1 (by rw [← hb]; exact .accept h2)
    rw [← ha] at this
    exact this

/-- A program without rune instructions. -/
theorem plain_path {orbit : Rune → List Rune} {At : Rune → Nat → Nat → Prop} {p : Prog} {l : Bytes} {bot eot : Bool}
    (hn : ∀ i : Nat, NotRune p.inst[i]?) {a b : Nat × Nat} :
    RPath orbit At p l bot eot a b ↔ PPath p l bot eot a b := by
  constructor
  · intro h
    induction h with
    | refl => exact .refl _
    | tail _ s ih =>
      cases s with
      | plain s => exact .tail ih s
      | rune h ho _ _ => rw [hn _ _ h] at ho; cases ho
  · intro h
    induction h with
    | refl => exact .refl _
    | tail _ s ih => exact .tail ih (.plain s)

theorem raw_of_rune {l : Bytes} {r i j : Nat} (h : RuneAt l r i j) : RawAt l r i j := by
  obtain ⟨h1, h2, h3, h4⟩ := h
  have hv := valid_iff.mp h1
  refine ⟨?_, h2, ?_⟩
  · show r ≤ 0x10FFFF; omega
  · rw [← h4]
    exact List.take_prefix _ _

theorem rune_of_raw {l : Bytes} (hn : NoSurrogate l) {r i j : Nat} (hi : i ≤ l.length) (h : RawAt l r i j) : RuneAt l r i j := by
  obtain ⟨h1, h2, h3⟩ := h
  have h1' : r ≤ 0x10FFFF := h1
  have hlen := h3.length_le
  rw [List.length_drop] at hlen
  refine ⟨?_, h2, by omega, ?_⟩
  · rw [valid_iff]
    have := hn r
    by_cases hs : 0xD800 ≤ r ∧ r < 0xE000
    · exact absurd h3 (this hs.1 hs.2 i)
    · omega
  · unfold slice
    rw [h2, Nat.add_sub_cancel_left]
    exact (List.prefix_iff_eq_take.mp h3).symm

/-- Steps stay inside the line. -/
theorem rstep_pos {orbit : Rune → List Rune} {p : Prog} {l : Bytes} {bot eot : Bool}
    {a b : Nat × Nat} (h : RStep orbit (RawAt l) p l bot eot a b) (ha : a.1 ≤ l.length) : b.1 ≤ l.length := by
  cases h with
  | plain h =>
    cases h with
    | byte _ hc _ => have := getElem?_lt hc; exact this
    | _ => exact ha
  | rune _ _ _ hat =>
    obtain ⟨_, h2, h3⟩ := hat
    have := h3.length_le
    rw [List.length_drop] at this
    simp only at ha ⊢
    omega

theorem rawPath_iff {orbit : Rune → List Rune} {p : Prog} {l : Bytes} {bot eot : Bool} (hn : NoSurrogate l)
    {a b : Nat × Nat} (ha : a.1 ≤ l.length) :
    RPath orbit (RawAt l) p l bot eot a b ↔ RPath orbit (RuneAt l) p l bot eot a b := by
  constructor
  · intro h
    have key : RPath orbit (RuneAt l) p l bot eot a b ∧ b.1 ≤ l.length := by
      induction h with
      | refl => exact ⟨.refl _, ha⟩
      | tail _ s ih =>
        refine ⟨.tail ih.1 ?_, rstep_pos s ih.2⟩
        cases s with
        | plain s => exact .plain s
        | rune h ho hr hat => exact .rune h ho hr (rune_of_raw hn ih.2 hat)
    exact key.1
  · intro h
    induction h with
    | refl => exact .refl _
    | tail _ s ih =>
      refine .tail ih ?_
      cases s with
      | plain s => exact .plain s
      | rune h ho hr hat => exact .rune h ho hr (raw_of_rune hat)

/-- Soundness needs no surrogates, completeness does not. -/
theorem rawPath_of_rune {orbit : Rune → List Rune} {p : Prog} {l : Bytes} {bot eot : Bool}
    {a b : Nat × Nat} (h : RPath orbit (RuneAt l) p l bot eot a b) : RPath orbit (RawAt l) p l bot eot a b := by
  induction h with
  | refl => exact .refl _
  | tail _ s ih =>
    refine .tail ih ?_
    cases s with
    | plain s => exact .plain s
    | rune h ho hr hat => exact .rune h ho hr (raw_of_rune hat)

theorem toByteProg_main {orbit : Rune → List Rune} (hf : AsciiFolds orbit) {p : Prog} (hcl : Closed p.inst)
    (hst : p.start < p.inst.length) (hok : ∀ i ∈ p.inst, RuneOK orbit i) :
    ∃ q, toByteProg orbit p = some q ∧ q.start = p.start ∧ Closed q.inst ∧ p.inst.length ≤ q.inst.length ∧
      (∀ i : Nat, NotRune q.inst[i]?) ∧
      ∀ (l : Bytes) (bot eot : Bool), NL ∉ l → ∀ pos,
        (MAcc orbit l bot eot q pos q.start ↔ MAcc orbit l bot eot p pos p.start) := by
  obtain ⟨X', h1, h2, h3, h4, h5, h6, h7⟩ := rounds_ok hf hok (List.range p.inst.length) p.inst List.nodup_range hcl
    (Nat.le_refl _) (fun i hi => ⟨List.mem_range.mp hi, rfl⟩)
  refine ⟨{ p with inst := X' }, ?_, rfl, h2, h3, ?_, ?_⟩
  · unfold toByteProg; rw [h1]; rfl
  · intro i
    rcases Nat.lt_or_ge i p.inst.length with h | h
    · exact h4 i (List.mem_range.mpr h)
    · exact h6 i h
  · intro l bot eot hnl pos
    exact h7 p.start p.start l bot eot hnl pos p.start hst

end Hound
