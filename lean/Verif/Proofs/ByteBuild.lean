import Verif.Proofs.ByteRange

/-! The machine that `runeBuilder` builds for a list of ranges. -/

namespace Hound

/-- From `pc` a chain of byte ranges leads to the exit. -/
inductive Node (X : List Inst) (s out : Nat) : Nat → List (UInt8 × UInt8) → Prop
  | exit : Node X s out out []
  | byte {pc lo hi next rs} (hs : s ≤ pc) (h : X[pc]? = some (.byteRange lo hi false next))
      (hn : Node X s out next rs) : Node X s out pc ((lo, hi) :: rs)

/-- A chain of branches, from its first to its last instruction. -/
inductive Heads (X : List Inst) (s : Nat) : Nat → Nat → List Nat → Prop
  | last {node a b} (h : X[node]? = some (.alt a b)) : Heads X s node node [a, b]
  | more {node a m tail bs} (h : X[node]? = some (.alt a m)) (hs : s ≤ m) (hlt : node < m)
      (hm : Heads X s m tail bs) : Heads X s node tail (a :: bs)

/-- The branches at the beginning. -/
def Chain (X : List Inst) (s pc0 tail : Nat) (bs : List Nat) : Prop :=
  (bs = [] ∧ X[pc0]? = some .fail ∧ tail = pc0) ∨
  (∃ a, bs = [a] ∧ X[pc0]? = some (.nop a) ∧ tail = pc0) ∨
  Heads X s pc0 tail bs

/-- Byte instructions are never changed. -/
def Grow (X X' : List Inst) : Prop :=
  ∀ (pc : Nat) (lo hi : UInt8) (f : Bool) (n : Nat),
    X[pc]? = some (Inst.byteRange lo hi f n) → X'[pc]? = some (Inst.byteRange lo hi f n)

theorem Grow.refl (X : List Inst) : Grow X X := fun _ _ _ _ _ h => h
theorem Grow.trans {X Y Z : List Inst} (h1 : Grow X Y) (h2 : Grow Y Z) : Grow X Z :=
  fun pc lo hi f n h => h2 pc lo hi f n (h1 pc lo hi f n h)

theorem Node.grow {X X' : List Inst} {s out pc : Nat} {rs : List (UInt8 × UInt8)} (hg : Grow X X')
    (h : Node X s out pc rs) : Node X' s out pc rs := by
  induction h with
  | exit => exact .exit
  | byte hs h _ ih => exact .byte hs (hg _ _ _ _ _ h) ih

/-- What holds while the machine at `pc0` is built on the instructions `X0`. -/
structure BInv (X0 : List Inst) (pc0 out : Nat) (b : RB) (bs : List Nat) : Prop where
  out_eq : b.out = out
  pc0lt : pc0 < X0.length
  len : X0.length ≤ b.inst.length
  old : ∀ i, i < X0.length → i ≠ pc0 → b.inst[i]? = X0[i]?
  chain : Chain b.inst X0.length pc0 b.begin bs
  heads : ∀ a ∈ bs, X0.length ≤ a ∧ a < b.inst.length ∧ ∃ rs, Node b.inst X0.length out a rs
  closed : ∀ pc i, X0.length ≤ pc → b.inst[pc]? = some i →
    (∃ lo hi next, i = .byteRange lo hi false next ∧
      (next = out ∨ (X0.length ≤ next ∧ next < b.inst.length))) ∨
    ∃ a c, i = .alt a c ∧ (X0.length ≤ a ∧ a < b.inst.length) ∧ X0.length ≤ c ∧ c < b.inst.length
  cache : ∀ lo hi f n pc, ((lo, hi, f, n), pc) ∈ b.cache → f = false → X0.length ≤ pc ∧
    b.inst[pc]? = some (.byteRange lo hi false (if n = 0 then out else n))

theorem getElem?_lt {α : Type} {l : List α} {i : Nat} {x : α} (h : l[i]? = some x) : i < l.length :=
  (List.getElem?_eq_some_iff.mp h).1

theorem BInv.init {X : List Inst} {pc out : Nat} (h : pc < X.length) :
    BInv X pc out (RB.init X pc out) [] where
  out_eq := rfl
  pc0lt := h
  len := by simp [RB.init]
  old := by
    intro i _ hne
    simp only [RB.init]
    rw [List.getElem?_set_ne (by omega)]
  chain := Or.inl ⟨rfl, by simp [RB.init, h], rfl⟩
  heads := by simp
  closed := by
    intro pc' i hs hi
    have := getElem?_lt hi
    simp [RB.init] at this
    omega
  cache := by simp [RB.init]

theorem append_getElem? {α : Type} {l m : List α} {i : Nat} {x : α} (h : l[i]? = some x) :
    (l ++ m)[i]? = some x := by
  rw [List.getElem?_append_left (getElem?_lt h)]; exact h

theorem Grow.append (X Y : List Inst) : Grow X (X ++ Y) := fun _ _ _ _ _ h => append_getElem? h

theorem Heads.append {X Y : List Inst} {s node tail : Nat} {bs : List Nat} (h : Heads X s node tail bs) :
    Heads (X ++ Y) s node tail bs := by
  induction h with
  | last h => exact .last (append_getElem? h)
  | more h hs hlt _ ih => exact .more (append_getElem? h) hs hlt ih

theorem Chain.append {X Y : List Inst} {s node tail : Nat} {bs : List Nat} (h : Chain X s node tail bs) :
    Chain (X ++ Y) s node tail bs := by
  rcases h with ⟨h1, h2, h3⟩ | ⟨a, h1, h2, h3⟩ | h
  · exact Or.inl ⟨h1, append_getElem? h2, h3⟩
  · exact Or.inr (Or.inl ⟨a, h1, append_getElem? h2, h3⟩)
  · exact Or.inr (Or.inr h.append)

theorem getElem?_snoc {α : Type} {l : List α} {x : α} {i : Nat} {y : α} (h : (l ++ [x])[i]? = some y) :
    l[i]? = some y ∨ (i = l.length ∧ y = x) := by
  rcases Nat.lt_or_ge i l.length with hi | hi
  · left; rw [List.getElem?_append_left hi] at h; exact h
  · right
    rw [List.getElem?_append_right hi] at h
    have := getElem?_lt h
    simp at this
    have hi' : i = l.length := by omega
    subst hi'
    simp at h
    exact ⟨rfl, h.symm⟩

/-- How `next` is interpreted: 0 is the exit. -/
def NextOK (X : List Inst) (s out next : Nat) (rs : List (UInt8 × UInt8)) : Prop :=
  (next = 0 ∧ rs = []) ∨ (s ≤ next ∧ next < X.length ∧ next ≠ 0 ∧ Node X s out next rs)

theorem NextOK.node {X : List Inst} {s out next : Nat} {rs : List (UInt8 × UInt8)} (h : NextOK X s out next rs) :
    Node X s out (if next = 0 then out else next) rs := by
  rcases h with ⟨rfl, rfl⟩ | ⟨h1, _, h2, h3⟩
  · exact .exit
  · rw [if_neg h2]; exact h3

theorem uncached_ok {X0 : List Inst} {pc0 out : Nat} {b : RB} {bs : List Nat} (hb : BInv X0 pc0 out b bs)
    {lo hi : UInt8} {next : Nat} {rs : List (UInt8 × UInt8)} (hn : NextOK b.inst X0.length out next rs) :
    BInv X0 pc0 out (b.uncachedSuffix lo hi false next).1 bs ∧
    Grow b.inst (b.uncachedSuffix lo hi false next).1.inst ∧
    X0.length ≤ (b.uncachedSuffix lo hi false next).2 ∧
    (b.uncachedSuffix lo hi false next).2 < (b.uncachedSuffix lo hi false next).1.inst.length ∧
    (b.uncachedSuffix lo hi false next).1.inst[(b.uncachedSuffix lo hi false next).2]? =
      some (.byteRange lo hi false (if next = 0 then out else next)) ∧
    Node (b.uncachedSuffix lo hi false next).1.inst X0.length out (b.uncachedSuffix lo hi false next).2
      ((lo, hi) :: rs) := by
  have hg : Grow b.inst (b.uncachedSuffix lo hi false next).1.inst := Grow.append _ _
  have hat : (b.uncachedSuffix lo hi false next).1.inst[(b.uncachedSuffix lo hi false next).2]? =
      some (.byteRange lo hi false (if next = 0 then out else next)) := by
    simp [RB.uncachedSuffix, hb.out_eq]
  have hlen : (b.uncachedSuffix lo hi false next).1.inst.length = b.inst.length + 1 := by
    simp [RB.uncachedSuffix]
  refine ⟨?_, hg, hb.len, getElem?_lt hat, hat, .byte hb.len hat (hn.node.grow hg)⟩
  constructor
  · exact hb.out_eq
  · exact hb.pc0lt
  · rw [hlen]; have := hb.len; omega
  · intro i hi hne
    have : b.inst[i]? = X0[i]? := hb.old i hi hne
    rw [← this]
    simp only [RB.uncachedSuffix]
    rw [List.getElem?_append_left (by have := hb.len; omega)]
  · exact hb.chain.append
  · intro a ha
    obtain ⟨h1, h2, r, h3⟩ := hb.heads a ha
    exact ⟨h1, by rw [hlen]; omega, r, h3.grow hg⟩
  · intro pc i hs hi
    rw [hlen]
    rcases getElem?_snoc hi with h | ⟨_, rfl⟩
    · rcases hb.closed pc i hs h with ⟨lo, hi, next, h1, h2⟩ | ⟨a, c, h1, h2, h3⟩
      · exact Or.inl ⟨lo, hi, next, h1, h2.imp id (fun h => ⟨h.1, by omega⟩)⟩
      · exact Or.inr ⟨a, c, h1, ⟨h2.1, by omega⟩, h3.1, by omega⟩
    · left
      refine ⟨lo, _, _, rfl, ?_⟩
      rw [hb.out_eq]
      rcases hn with ⟨rfl, _⟩ | ⟨h1, h2, h3, _⟩
      · left; simp
      · right; rw [if_neg h3]; exact ⟨h1, by omega⟩
  · intro lo hi f n pc hm hf
    obtain ⟨h1, h2⟩ := hb.cache lo hi f n pc hm hf
    exact ⟨h1, hg _ _ _ _ _ h2⟩

theorem lookup_mem {α β : Type} [BEq α] [LawfulBEq α] {l : List (α × β)} {a : α} {b : β} (h : l.lookup a = some b) :
    (a, b) ∈ l := by
  induction l with
  | nil => simp at h
  | cons p l ih =>
    obtain ⟨x, y⟩ := p
    simp only [List.lookup] at h
    split at h
    · rename_i heq
      simp at heq
      cases h
      subst heq
      exact List.mem_cons_self
    · exact List.mem_cons_of_mem _ (ih h)

theorem suffix_ok {X0 : List Inst} {pc0 out : Nat} {b : RB} {bs : List Nat} (hb : BInv X0 pc0 out b bs)
    {lo hi : UInt8} {next : Nat} {rs : List (UInt8 × UInt8)} (hn : NextOK b.inst X0.length out next rs) :
    BInv X0 pc0 out (b.suffix lo hi false next).1 bs ∧
    Grow b.inst (b.suffix lo hi false next).1.inst ∧
    X0.length ≤ (b.suffix lo hi false next).2 ∧
    (b.suffix lo hi false next).2 < (b.suffix lo hi false next).1.inst.length ∧
    Node (b.suffix lo hi false next).1.inst X0.length out (b.suffix lo hi false next).2
      ((lo, hi) :: rs) := by
  obtain ⟨u1, u2, u3, u4, u5, u6⟩ := uncached_ok hb (lo := lo) (hi := hi) hn
  unfold RB.suffix
  split
  · exact ⟨u1, u2, u3, u4, u6⟩
  · split
    · rename_i pc hl
      obtain ⟨h1, h2⟩ := hb.cache _ _ _ _ _ (lookup_mem hl) rfl
      exact ⟨hb, Grow.refl _, h1, getElem?_lt h2, .byte h1 h2 hn.node⟩
    · refine ⟨?_, u2, u3, u4, u6⟩
      refine ⟨u1.out_eq, u1.pc0lt, u1.len, u1.old, u1.chain, u1.heads, u1.closed, ?_⟩
      intro lo' hi' f n pc hm hf
      rcases List.mem_cons.mp hm with h | h
      · cases h
        exact ⟨u3, u5⟩
      · exact u1.cache lo' hi' f n pc h hf

theorem Heads.le {X : List Inst} {s node tail : Nat} {bs : List Nat} (h : Heads X s node tail bs) : node ≤ tail := by
  induction h with
  | last => exact Nat.le_refl _
  | more _ _ hlt _ ih => omega

theorem Heads.tail_alt {X : List Inst} {s node tail : Nat} {bs : List Nat} (h : Heads X s node tail bs) :
    ∃ a b, X[tail]? = some (.alt a b) := by
  induction h with
  | last h => exact ⟨_, _, h⟩
  | more _ _ _ _ ih => exact ih

theorem Heads.tail_ge {X : List Inst} {s node tail : Nat} {bs : List Nat} (h : Heads X s node tail bs) :
    tail = node ∨ s ≤ tail := by
  cases h with
  | last => exact Or.inl rfl
  | more _ hs _ hm => exact Or.inr (Nat.le_trans hs hm.le)

/-- Adding a branch to a chain of two or more. -/
theorem Heads.extend {X : List Inst} {s node tail : Nat} {bs : List Nat} (h : Heads X s node tail bs) {o arg pc : Nat}
    (ht : X[tail]? = some (.alt o arg)) (hs : s ≤ X.length) :
    Heads ((X ++ [Inst.alt arg pc]).set tail (.alt o X.length)) s node X.length (bs ++ [pc]) := by
  have htl := getElem?_lt ht
  have hlen : ((X ++ [Inst.alt arg pc]).set tail (.alt o X.length))[X.length]? = some (.alt arg pc) := by
    rw [List.getElem?_set_ne (by omega)]; simp
  induction h with
  | last h =>
    rename_i node a b
    rw [h] at ht
    cases ht
    have hn : ((X ++ [Inst.alt arg pc]).set node (.alt o X.length))[node]? = some (.alt o X.length) := by
      rw [List.getElem?_set_self (by simp; omega)]
    exact .more hn hs htl (.last hlen)
  | more h hs' hlt hm ih =>
    rename_i node a m tail bs
    have hle := hm.le
    refine .more (a := a) (m := m) ?_ hs' hlt (ih ht htl hlen)
    rw [List.getElem?_set_ne (by omega)]
    exact append_getElem? h

theorem grow_set {X : List Inst} {t : Nat} {i j : Inst} (ht : X[t]? = some i)
    (hi : ∀ lo hi f n, i ≠ .byteRange lo hi f n) : Grow X (X.set t j) := by
  intro pc lo hi' f n h
  rw [List.getElem?_set]
  split
  · rename_i heq
    subst heq
    rw [ht] at h
    cases h
    exact absurd rfl (hi _ _ _ _)
  · exact h

theorem addBranch_ok {X0 : List Inst} {pc0 out : Nat} {b : RB} {bs : List Nat} (hb : BInv X0 pc0 out b bs)
    {pc : Nat} {rs : List (UInt8 × UInt8)} (hpc : X0.length ≤ pc) (hlt : pc < b.inst.length)
    (hn : Node b.inst X0.length out pc rs) :
    BInv X0 pc0 out (b.addBranch pc) (bs ++ [pc]) ∧ Grow b.inst (b.addBranch pc).inst := by
  have hl := hb.len
  have hp0 := hb.pc0lt
  -- the two cases in which only `pc0` changes
  have simple : ∀ (i j : Inst) (bs' : List Nat), b.inst[b.begin]? = some i → b.begin = pc0 →
      (∀ lo hi f n, i ≠ .byteRange lo hi f n) → bs' = bs ++ [pc] →
      Chain (b.inst.set b.begin j) X0.length pc0 b.begin bs' →
      BInv X0 pc0 out { b with inst := b.inst.set b.begin j } bs' ∧ Grow b.inst (b.inst.set b.begin j) := by
    intro i j bs' hi hbeg hnb hbs hch
    have hg : Grow b.inst (b.inst.set b.begin j) := grow_set hi hnb
    refine ⟨⟨hb.out_eq, hp0, by simpa using hl, ?_, hch, ?_, ?_, ?_⟩, hg⟩
    · intro k hk hne
      simp only
      rw [List.getElem?_set_ne (by omega)]
      exact hb.old k hk hne
    · intro a ha
      rw [hbs] at ha
      rcases List.mem_append.mp ha with ha | ha
      · obtain ⟨h1, h2, r, h3⟩ := hb.heads a ha
        exact ⟨h1, by simpa using h2, r, h3.grow hg⟩
      · simp at ha; subst ha
        exact ⟨hpc, by simpa using hlt, rs, hn.grow hg⟩
    · intro k i' hs hi'
      simp only at hi'
      rw [List.getElem?_set_ne (by omega)] at hi'
      have := hb.closed k i' hs hi'
      simpa using this
    · intro lo hi' f n k hm hf
      obtain ⟨h1, h2⟩ := hb.cache lo hi' f n k hm hf
      exact ⟨h1, hg _ _ _ _ _ h2⟩
  unfold RB.addBranch
  rcases hb.chain with ⟨h1, h2, h3⟩ | ⟨a, h1, h2, h3⟩ | hh
  · have h2' : b.inst[b.begin]? = some .fail := by rw [h3]; exact h2
    rw [h2']
    refine simple .fail _ _ h2' h3 (by simp) rfl ?_
    right; left
    refine ⟨pc, by simp [h1], ?_, h3⟩
    rw [h3, List.getElem?_set_self (by omega)]
  · have h2' : b.inst[b.begin]? = some (.nop a) := by rw [h3]; exact h2
    rw [h2']
    refine simple (.nop a) _ _ h2' h3 (by simp) rfl ?_
    right; right
    rw [h1, h3]
    exact .last (by rw [List.getElem?_set_self (by omega)])
  · obtain ⟨o, arg, ht⟩ := hh.tail_alt
    rw [ht]
    simp only
    have hge := hh.tail_ge
    have htl := getElem?_lt ht
    have hg : Grow b.inst ((b.inst ++ [Inst.alt arg pc]).set b.begin (.alt o b.inst.length)) :=
      (Grow.append _ _).trans (grow_set (i := .alt o arg) (append_getElem? ht) (by simp))
    have harg : X0.length ≤ arg ∧ arg < b.inst.length ∧ X0.length ≤ o ∧ o < b.inst.length := by
      rcases hge with heq | hge
      · -- the chain is a single branch with two heads
        have key : ∀ {node tail : Nat} {bs : List Nat}, Heads b.inst X0.length node tail bs → tail = node →
            b.inst[tail]? = some (.alt o arg) → bs = [o, arg] := by
          intro node tail bs h he ht
          cases h with
          | last h => rw [h] at ht; cases ht; rfl
          | more _ _ hlt hm => have := hm.le; omega
        have hbs := key hh heq ht
        have h1 := hb.heads arg (by simp [hbs])
        have h2 := hb.heads o (by simp [hbs])
        exact ⟨h1.1, h1.2.1, h2.1, h2.2.1⟩
      · rcases hb.closed _ _ hge ht with ⟨_, _, _, h1, _⟩ | ⟨a, c, h1, h2, h3⟩
        · simp at h1
        · cases h1; exact ⟨h3.1, h3.2, h2.1, h2.2⟩
    refine ⟨⟨hb.out_eq, hp0, ?_, ?_, ?_, ?_, ?_, ?_⟩, hg⟩
    · simp; omega
    · intro k hk hne
      simp only
      have hne' : b.begin ≠ k := by rcases hge with h | h <;> omega
      rw [List.getElem?_set_ne hne', List.getElem?_append_left (by omega)]
      exact hb.old k hk hne
    · exact Or.inr (Or.inr (hh.extend ht hl))
    · intro a ha
      rcases List.mem_append.mp ha with ha | ha
      · obtain ⟨h1, h2, r, h3⟩ := hb.heads a ha
        exact ⟨h1, by simp; omega, r, h3.grow hg⟩
      · simp at ha; subst ha
        exact ⟨hpc, by simp; omega, rs, hn.grow hg⟩
    · intro k i hs hi
      simp only at hi
      have hlen : ((b.inst ++ [Inst.alt arg pc]).set b.begin (.alt o b.inst.length)).length = b.inst.length + 1 := by
        simp
      simp only [hlen]
      rw [List.getElem?_set] at hi
      split at hi
      · split at hi
        · cases hi
          exact Or.inr ⟨_, _, rfl, ⟨harg.2.2.1, by omega⟩, hl, by omega⟩
        · simp at hi
      · rcases getElem?_snoc hi with h | ⟨_, rfl⟩
        · rcases hb.closed k i hs h with ⟨lo, hi, next, h1, h2⟩ | ⟨a, c, h1, h2, h3⟩
          · exact Or.inl ⟨lo, hi, next, h1, h2.imp id (fun h => ⟨h.1, by omega⟩)⟩
          · exact Or.inr ⟨a, c, h1, ⟨h2.1, by omega⟩, h3.1, by omega⟩
        · exact Or.inr ⟨_, _, rfl, ⟨harg.1, by omega⟩, hpc, by omega⟩
    · intro lo hi' f n k hm hf
      obtain ⟨h1, h2⟩ := hb.cache lo hi' f n k hm hf
      exact ⟨h1, hg _ _ _ _ _ h2⟩

theorem addBytes_ok {X0 : List Inst} {pc0 out : Nat} {bs : List Nat} : ∀ (rs : List (UInt8 × UInt8)) {b : RB},
    BInv X0 pc0 out b bs →
    BInv X0 pc0 out (b.addBytes rs).1 bs ∧ Grow b.inst (b.addBytes rs).1.inst ∧
      NextOK (b.addBytes rs).1.inst X0.length out (b.addBytes rs).2 rs := by
  intro rs
  induction rs with
  | nil => intro b hb; exact ⟨hb, Grow.refl _, Or.inl ⟨rfl, rfl⟩⟩
  | cons r rs ih =>
    intro b hb
    obtain ⟨lo, hi⟩ := r
    obtain ⟨h1, h2, h3⟩ := ih hb
    obtain ⟨k1, k2, k3, k4, k5⟩ := suffix_ok h1 (lo := lo) (hi := hi) h3
    simp only [RB.addBytes]
    refine ⟨k1, h2.trans k2, Or.inr ⟨k3, k4, ?_, k5⟩⟩
    have := hb.pc0lt
    omega

/-- The words spelled by a list of heads. -/
def HeadWords (X : List Inst) (s out : Nat) (bs : List Nat) (w : Bytes) : Prop :=
  ∃ a ∈ bs, ∃ rs, Node X s out a rs ∧ InProd rs w

theorem HeadWords.append {X : List Inst} {s out : Nat} {bs bs' : List Nat} {w : Bytes} :
    HeadWords X s out (bs ++ bs') w ↔ HeadWords X s out bs w ∨ HeadWords X s out bs' w := by
  unfold HeadWords
  constructor
  · rintro ⟨a, ha, h⟩
    rcases List.mem_append.mp ha with ha | ha
    · exact Or.inl ⟨a, ha, h⟩
    · exact Or.inr ⟨a, ha, h⟩
  · rintro (⟨a, ha, h⟩ | ⟨a, ha, h⟩)
    · exact ⟨a, List.mem_append_left _ ha, h⟩
    · exact ⟨a, List.mem_append_right _ ha, h⟩

theorem Node.det {X : List Inst} {s out pc : Nat} (ho : out < s) {rs rs' : List (UInt8 × UInt8)}
    (h : Node X s out pc rs) (h' : Node X s out pc rs') : rs = rs' := by
  induction h generalizing rs' with
  | exit =>
    cases h' with
    | exit => rfl
    | byte hs _ _ => omega
  | byte hs h _ ih =>
    cases h' with
    | exit => omega
    | byte _ h' hn' =>
      rw [h] at h'
      cases h'
      rw [ih hn']

/-- Words of heads do not change when the machine grows. -/
theorem HeadWords.grow {X0 : List Inst} {pc0 out : Nat} {b b' : RB} {bs : List Nat} (ho : out < X0.length)
    (hb : BInv X0 pc0 out b bs) (hg : Grow b.inst b'.inst) {w : Bytes} {cs : List Nat} (hc : ∀ a ∈ cs, a ∈ bs) :
    HeadWords b'.inst X0.length out cs w ↔ HeadWords b.inst X0.length out cs w := by
  constructor
  · rintro ⟨a, ha, rs, h1, h2⟩
    obtain ⟨_, _, rs', h3⟩ := hb.heads a (hc a ha)
    have := h1.det ho (h3.grow hg)
    subst this
    exact ⟨a, ha, rs, h3, h2⟩
  · rintro ⟨a, ha, rs, h1, h2⟩
    exact ⟨a, ha, rs, h1.grow hg, h2⟩

theorem branch_leaf {X0 : List Inst} {pc0 out : Nat} {b : RB} {bs : List Nat} (ho : out < X0.length)
    (hb : BInv X0 pc0 out b bs) {pc : Nat} {rs : List (UInt8 × UInt8)} (hpc : X0.length ≤ pc)
    (hlt : pc < b.inst.length) (hn : Node b.inst X0.length out pc rs) :
    BInv X0 pc0 out (b.addBranch pc) (bs ++ [pc]) ∧ Grow b.inst (b.addBranch pc).inst ∧
      ∀ w, HeadWords (b.addBranch pc).inst X0.length out [pc] w ↔ InProd rs w := by
  obtain ⟨h1, h2⟩ := addBranch_ok hb hpc hlt hn
  refine ⟨h1, h2, fun w => ?_⟩
  constructor
  · rintro ⟨a, ha, rs', h3, h4⟩
    simp at ha; subst ha
    have := h3.det ho (hn.grow h2)
    subst this
    exact h4
  · intro h
    exact ⟨pc, by simp, rs, hn.grow h2, h⟩

theorem pow6 : (2:Nat)^(6*1) = 64 := rfl
theorem pow12 : (2:Nat)^(6*2) = 4096 := rfl
theorem pow18 : (2:Nat)^(6*3) = 262144 := rfl

theorem addRange_ok {X0 : List Inst} {pc0 out : Nat} (ho : out < X0.length) :
    ∀ (fuel : Nat) (b : RB) (bs : List Nat) (lo hi : Nat), BInv X0 pc0 out b bs → GoodRange lo hi →
      hi ≤ 0x10FFFF → hi + 1 - lo ≤ fuel →
      ∃ b' cs, RB.addRange fuel b lo hi false = some b' ∧ BInv X0 pc0 out b' (bs ++ cs) ∧
        Grow b.inst b'.inst ∧
        ∀ w, HeadWords b'.inst X0.length out cs w ↔ ∃ r : Nat, lo ≤ r ∧ r ≤ hi ∧ w = encodeRaw r := by
  intro fuel
  induction fuel with
  | zero =>
    intro b bs lo hi hb _ _ hf
    refine ⟨b, [], by rw [RB.addRange, if_pos (show lo > hi by omega)], by simpa using hb, Grow.refl _, ?_⟩
    intro w
    constructor
    · rintro ⟨a, ha, _⟩; simp at ha
    · rintro ⟨r, h1, h2, _⟩; omega
  | succ fuel ih =>
    intro b bs lo hi hb hg hmax hf
    -- two recursive calls
    have two : ∀ e : Nat, lo ≤ e → e < hi → GoodRange lo e → GoodRange (e + 1) hi →
        ∃ b' cs, (match RB.addRange fuel b lo e false with
            | none => none
            | some b => RB.addRange fuel b (e + 1) hi false) = some b' ∧ BInv X0 pc0 out b' (bs ++ cs) ∧
          Grow b.inst b'.inst ∧
          ∀ w, HeadWords b'.inst X0.length out cs w ↔ ∃ r : Nat, lo ≤ r ∧ r ≤ hi ∧ w = encodeRaw r := by
      intro e h1 h2 hg1 hg2
      obtain ⟨b1, c1, a1, a2, a3, a4⟩ := ih b bs lo e hb hg1 (by omega) (by omega)
      obtain ⟨b2, c2, d1, d2, d3, d4⟩ := ih b1 (bs ++ c1) (e + 1) hi a2 hg2 hmax (by omega)
      refine ⟨b2, c1 ++ c2, by rw [a1]; exact d1, by rw [← List.append_assoc]; exact d2, a3.trans d3, ?_⟩
      intro w
      rw [HeadWords.append, HeadWords.grow ho a2 d3 (fun a ha => List.mem_append_right _ ha), a4, d4]
      constructor
      · rintro (⟨r, h3, h4, h5⟩ | ⟨r, h3, h4, h5⟩)
        · exact ⟨r, by omega, by omega, h5⟩
        · exact ⟨r, by omega, by omega, h5⟩
      · rintro ⟨r, h3, h4, h5⟩
        rcases Nat.lt_or_ge e r with h | h
        · exact Or.inr ⟨r, by omega, h4, h5⟩
        · exact Or.inl ⟨r, h3, h, h5⟩
    rw [RB.addRange]
    by_cases hlh : hi < lo
    · rw [if_pos (show lo > hi from hlh)]
      refine ⟨b, [], rfl, by simpa using hb, Grow.refl _, ?_⟩
      intro w
      constructor
      · rintro ⟨a, ha, _⟩; simp at ha
      · rintro ⟨r, h1, h2, _⟩; omega
    have hle : lo ≤ hi := by omega
    rw [if_neg (show ¬ lo > hi from hlh)]
    unfold GoodRange at hg
    cases hls : lengthSplit lo hi with
    | some mx =>
      obtain ⟨h1, h2, h3⟩ := lengthSplit_some hls
      simp only
      refine two mx h1 h2 ?_ ?_ <;> unfold GoodRange <;> omega
    | none =>
      obtain ⟨l1, l2, l3⟩ := lengthSplit_none hls
      simp only
      by_cases hascii : hi < 0x80
      · rw [if_pos (show hi < 0x80 from hascii)]
        obtain ⟨k1, k2, k3, k4, k5⟩ := suffix_ok hb (lo := byteOf lo) (hi := byteOf hi) (next := 0) (rs := [])
          (Or.inl ⟨rfl, rfl⟩)
        obtain ⟨m1, m2, m3⟩ := branch_leaf ho k1 k3 k4 k5
        exact ⟨_, _, rfl, m1, k2.trans m2, fun w => by rw [m3, leaf_ascii hascii hle]⟩
      · rw [if_neg (show ¬ hi < 0x80 from hascii)]
        cases hms : maskSplit lo hi [1, 2, 3] with
        | some es =>
          obtain ⟨e, s⟩ := es
          simp only
          obtain ⟨i, hi', h1, h2, h3⟩ := maskSplit_some hle hms
          subst h2
          simp only [List.mem_cons, List.not_mem_nil, or_false] at hi'
          rcases hi' with rfl | rfl | rfl
          · rw [pow6] at h1 h3
            refine two e ?_ ?_ ?_ ?_ <;> (try unfold GoodRange) <;> omega
          · rw [pow12] at h1 h3
            refine two e ?_ ?_ ?_ ?_ <;> (try unfold GoodRange) <;> omega
          · rw [pow18] at h1 h3
            refine two e ?_ ?_ ?_ ?_ <;> (try unfold GoodRange) <;> omega
        | none =>
          simp only
          have a1 := maskSplit_none hms 1 (by simp)
          have a2 := maskSplit_none hms 2 (by simp)
          have a3 := maskSplit_none hms 3 (by simp)
          rw [encodeRune_eq_raw (r := lo) (by omega) (by omega), encodeRune_eq_raw (r := hi) (by omega) (by omega)]
          have hlen : ¬ ((encodeRaw lo).length ≠ (encodeRaw hi).length) := by
            rw [encodeRaw_nat lo, encodeRaw_nat hi]
            rcases Nat.lt_or_ge 0xFFFF lo with h | h
            · rw [if_neg (by omega), if_neg (by omega), if_neg (by omega), if_neg (by omega), if_neg (by omega), if_neg (by omega)]
              simp
            · rcases Nat.lt_or_ge 0x7FF lo with h' | h'
              · rw [if_neg (by omega), if_neg (by omega), if_pos (by omega), if_neg (by omega), if_neg (by omega), if_pos (by omega)]
                simp
              · rw [if_neg (by omega), if_pos (by omega), if_neg (by omega), if_pos (by omega)]
                simp
          rw [if_neg hlen]
          obtain ⟨k1, k2, k3⟩ := addBytes_ok ((encodeRaw lo).zip (encodeRaw hi)) hb
          have hne : (encodeRaw lo).zip (encodeRaw hi) ≠ [] := by
            have e : ∀ r : Nat, encodeRaw r ≠ [] := by
              intro r; rw [encodeRaw_nat]; repeat' split
              all_goals simp
            cases hl : encodeRaw lo with
            | nil => exact absurd hl (e lo)
            | cons _ _ =>
              cases hh : encodeRaw hi with
              | nil => exact absurd hh (e hi)
              | cons _ _ => simp
          rcases k3 with ⟨_, h⟩ | ⟨n1, n2, n3, n4⟩
          · exact absurd h hne
          obtain ⟨m1, m2, m3⟩ := branch_leaf ho k1 n1 n2 n4
          refine ⟨_, _, rfl, m1, k2.trans m2, fun w => ?_⟩
          rw [m3]
          rcases Nat.lt_or_ge 0xFFFF lo with h | h
          · exact leaf_four (by omega) hmax hle a1 a2 a3 w
          · rcases Nat.lt_or_ge 0x7FF lo with h' | h'
            · exact leaf_three (by omega) (by omega) hle a1 a2 w
            · exact leaf_two (by omega) (by omega) hle a1 w

/-- Building the machine for a list of ranges. -/
theorem buildRanges_ok {X0 : List Inst} {pc0 out : Nat} (ho : out < X0.length) (hp : pc0 < X0.length)
    {ranges : List (Rune × Rune)} (hg : ∀ p ∈ ranges, GoodRange p.1 p.2 ∧ p.2 ≤ 0x10FFFF) :
    ∃ b bs, buildRanges X0 pc0 out ranges = some b.inst ∧ BInv X0 pc0 out b bs ∧
      ∀ w, HeadWords b.inst X0.length out bs w ↔ ∃ p ∈ ranges, ∃ r : Nat, p.1 ≤ r ∧ r ≤ p.2 ∧ w = encodeRaw r := by
  have go : ∀ (ranges : List (Rune × Rune)) (b : RB) (bs : List Nat), BInv X0 pc0 out b bs →
      (∀ p ∈ ranges, GoodRange p.1 p.2 ∧ p.2 ≤ 0x10FFFF) →
      ∃ b' cs, ranges.foldl (fun b p => b.bind fun b => b.range p.1 p.2) (some b) = some b' ∧
        BInv X0 pc0 out b' (bs ++ cs) ∧ Grow b.inst b'.inst ∧
        ∀ w, HeadWords b'.inst X0.length out cs w ↔
          ∃ p ∈ ranges, ∃ r : Nat, p.1 ≤ r ∧ r ≤ p.2 ∧ w = encodeRaw r := by
    intro ranges
    induction ranges with
    | nil =>
      intro b bs hb _
      refine ⟨b, [], rfl, by simpa using hb, Grow.refl _, fun w => ?_⟩
      constructor
      · rintro ⟨a, ha, _⟩; simp at ha
      · rintro ⟨p, hp, _⟩; simp at hp
    | cons p ranges ih =>
      intro b bs hb hg
      obtain ⟨g1, g2⟩ := hg p List.mem_cons_self
      obtain ⟨b1, c1, a1, a2, a3, a4⟩ := addRange_ok ho (p.2 + 1 - p.1) b bs p.1 p.2 hb g1 g2 (Nat.le_refl _)
      obtain ⟨b2, c2, d1, d2, d3, d4⟩ := ih b1 (bs ++ c1) a2 (fun q hq => hg q (List.mem_cons_of_mem _ hq))
      refine ⟨b2, c1 ++ c2, ?_, by rw [← List.append_assoc]; exact d2, a3.trans d3, ?_⟩
      · rw [List.foldl_cons]
        simp only [Option.bind_some, RB.range]
        rw [a1]
        exact d1
      · intro w
        rw [HeadWords.append, HeadWords.grow ho a2 d3 (fun a ha => List.mem_append_right _ ha), a4, d4]
        simp [List.mem_cons, or_and_right, exists_or]
  obtain ⟨b', cs, h1, h2, _, h4⟩ := go ranges (RB.init X0 pc0 out) [] (BInv.init hp) hg
  refine ⟨b', cs, ?_, by simpa using h2, h4⟩
  unfold buildRanges
  rw [h1]
  rfl

end Hound
