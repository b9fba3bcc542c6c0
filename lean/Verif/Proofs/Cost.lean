import Verif.Proofs.MatcherRun
import Verif.Spec.Cost

/-! How many states the matcher makes. -/

namespace Hound
open Spec

/-! ## Encodings and their members -/

theorem enc_mem {p : Prog} (hp : ProgOK p) {z y : NState} (hz : ZOK p z) (hy : ZOK p y) (h : z.enc = y.enc) (x : Nat) :
    x ∈ z.q ↔ x ∈ y.q := by
  have h1 := hz.dec hp
  have h2 := hy.dec hp
  rw [h, h2] at h1
  injection h1 with h1
  have h3 : sortInts y.q = sortInts z.q := congrArg NState.q h1
  rw [← mem_sortInts, ← h3, mem_sortInts]

theorem enc_ext {p : Prog} {z y : NState} (hz : ZOK p z) (hy : ZOK p y) (hf : z.flag = y.flag) (h : ∀ x, x ∈ z.q ↔ x ∈ y.q) :
    z.enc = y.enc := by
  unfold NState.enc
  rw [hz.part, hy.part, hf, sorted_ext (sorted_sortInts hz.q.nodup) (sorted_sortInts hy.q.nodup)
    (fun a => by rw [mem_sortInts, mem_sortInts, h])]

/-! ## What `cache` stores -/

theorem set_isSome {m : DCache} {k x : Bytes} {d : DState} : (m.set k d x).isSome = true ↔ x = k ∨ (m x).isSome = true := by
  unfold DCache.set
  split <;> simp_all

theorem upd_isSome {m : DCache} {k x : Bytes} {f : DState → DState} : (m.upd k f x).isSome = (m x).isSome := by
  unfold DCache.upd
  split <;> simp

theorem withCache_some {f : DCache → Bytes → Option DCache} {m m' : DCache} {r : Option DRef} {d : DRef}
    (h : withCache f m r = some (m', d)) : r = some d ∧ ((d = .dmatch ∧ m' = m) ∨ ∃ k, d = .st k ∧ f m k = some m') := by
  unfold withCache at h
  split at h
  · cases h
  · cases h; exact ⟨rfl, .inl ⟨rfl, rfl⟩⟩
  · rename_i k
    cases hf : f m k with
    | none => simp [hf] at h
    | some m1 =>
      simp [hf] at h
      obtain ⟨rfl, rfl⟩ := h
      exact ⟨rfl, .inr ⟨k, rfl, hf⟩⟩

/-- A call of `cache`, seen from outside: nothing, or the entry and two inner calls. -/
theorem cacheKey_steps {p : Prog} {fuel : Nat} {m m' : DCache} {k : Bytes} (h : cacheKey p (fuel + 1) m k = some m') :
    ((m k).isSome = true ∧ m' = m) ∨ (m k = none ∧ ∃ m2 r2 m3 r3,
      withCache (cacheKey p fuel) (m.set k ⟨fun _ => none, false, false⟩) (nextOf p k (some NL)) = some (m2, r2) ∧
      withCache (cacheKey p fuel) (m2.upd k (fun d => { d with matchNL := r2 == .dmatch })) (nextOf p k none) = some (m3, r3) ∧
      m' = m3.upd k (fun d => { d with matchEOT := r3 == .dmatch })) := by
  rw [cacheKey] at h
  cases hm : m k with
  | some e => rw [hm] at h; simp at h; exact .inl ⟨rfl, h.symm⟩
  | none =>
    refine .inr ⟨rfl, ?_⟩
    rw [hm] at h
    simp only at h
    split at h
    · cases h
    · rename_i m2 r2 h2
      split at h
      · cases h
      · rename_i m3 r3 h3
        cases h
        exact ⟨m2, r2, m3, r3, h2, h3, rfl⟩

theorem cacheKey_fresh {p : Prog} : ∀ (fuel : Nat) (m m' : DCache) (k : Bytes), cacheKey p fuel m k = some m' →
    (∀ x, (m x).isSome = true → (m' x).isSome = true) ∧ (m' k).isSome = true ∧
    ∀ x x1, (m' x).isSome = true → m x = none → nextOf p x (some NL) = some (.st x1) → (m' x1).isSome = true := by
  intro fuel
  induction fuel with
  | zero =>
    intro m m' k h
    rw [cacheKey] at h
    cases hm : m k with
    | none => simp [hm] at h
    | some e =>
      simp [hm] at h
      subst h
      exact ⟨fun _ h => h, by simp [hm], fun x x1 h1 h2 => by simp [h2] at h1⟩
  | succ fuel ih =>
    intro m m' k h
    rcases cacheKey_steps h with ⟨h1, rfl⟩ | ⟨hm, m2, r2, m3, r3, h2, h3, rfl⟩
    · exact ⟨fun _ h => h, h1, fun x x1 h3 h4 => by simp [h4] at h3⟩
    have step : ∀ {ma mb : DCache} {c : Option UInt8} {r : DRef}, withCache (cacheKey p fuel) ma (nextOf p k c) = some (mb, r) →
        (∀ x, (ma x).isSome = true → (mb x).isSome = true) ∧ (∀ x1, nextOf p k c = some (.st x1) → (mb x1).isSome = true) ∧
        ∀ x x1, (mb x).isSome = true → ma x = none → nextOf p x (some NL) = some (.st x1) → (mb x1).isSome = true := by
      intro ma mb c r hw
      obtain ⟨hr, ⟨rfl, rfl⟩ | ⟨k', rfl, hc⟩⟩ := withCache_some hw
      · exact ⟨fun _ h => h, fun x1 h => by rw [hr] at h; simp at h, fun x x1 h1 h2 => by simp [h2] at h1⟩
      · obtain ⟨a1, a2, a3⟩ := ih _ _ _ hc
        refine ⟨a1, fun x1 h => ?_, a3⟩
        rw [hr] at h
        injection h with h
        injection h with h
        exact h ▸ a2
    obtain ⟨a1, a2, a3⟩ := step h2
    obtain ⟨b1, b2, b3⟩ := step h3
    have hk : (m3 k).isSome = true := b1 k (by rw [upd_isSome]; exact a1 k (set_isSome.2 (.inl rfl)))
    refine ⟨fun x hx => ?_, by rw [upd_isSome]; exact hk, fun x x1 hx hmx hn => ?_⟩
    · rw [upd_isSome]
      exact b1 x (by rw [upd_isSome]; exact a1 x (set_isSome.2 (.inr hx)))
    · rw [upd_isSome] at hx ⊢
      by_cases hxk : x = k
      · subst hxk
        exact b1 _ (by rw [upd_isSome]; exact a2 _ hn)
      cases hm2 : m2 x with
      | some e =>
        refine b1 _ ?_
        rw [upd_isSome]
        refine a3 x x1 (by simp [hm2]) ?_ hn
        unfold DCache.set
        rw [if_neg hxk, hmx]
      | none =>
        refine b3 x x1 hx ?_ hn
        unfold DCache.upd
        rw [if_neg hxk, hm2]

/-! ## A chain of newlines -/

/-- The state after a newline, while there is no match. -/
def afterNL (p : Prog) (k : Bytes) : Bytes := match nextOf p k (some NL) with
  | some (.st k') => k'
  | _ => k

/-- The state after `t` newlines from the beginning of the text. -/
def nlKey (p : Prog) : Nat → Bytes
  | 0 => (startState p).enc
  | t + 1 => afterNL p (nlKey p t)

theorem cacheKey_short {p : Prog} {keys : Nat → Bytes} {L : Nat} (hstep : ∀ i, nextOf p (keys i) (some NL) = some (.st (keys (i + 1))))
    (hinj : ∀ i j, i < j → j < L → keys i ≠ keys j) : ∀ (n i : Nat) (m : DCache), i + n < L →
      (∀ j, i ≤ j → j < L → m (keys j) = none) → cacheKey p n m (keys i) = none := by
  intro n
  induction n with
  | zero =>
    intro i m hi hm
    rw [cacheKey, hm i (Nat.le_refl _) (by omega)]
  | succ n ih =>
    intro i m hi hm
    rw [cacheKey, hm i (Nat.le_refl _) (by omega)]
    simp only
    rw [hstep, withCache, ih (i + 1) _ (by omega) (fun j hj hl => ?_)]
    · rfl
    · unfold DCache.set
      rw [if_neg (Ne.symm (hinj i j (by omega) hl))]
      exact hm j (by omega) hl

theorem init_chain {p : Prog} {keys : Nat → Bytes} (h0 : keys 0 = (startState p).enc)
    (hstep : ∀ i, nextOf p (keys i) (some NL) = some (.st (keys (i + 1)))) {M : Matcher} (h : Matcher.init p = some M) (i : Nat) :
    (M.dstate (keys i)).isSome = true := by
  unfold Matcher.init at h
  split at h
  · cases h
  rename_i m1 h1
  split at h
  · cases h
  rename_i m2 h2
  cases h
  obtain ⟨_, a2, a3⟩ := cacheKey_fresh _ _ _ _ h1
  obtain ⟨b1, _, _⟩ := cacheKey_fresh _ _ _ _ h2
  refine b1 _ ?_
  induction i with
  | zero => rw [h0]; exact a2
  | succ i ih => exact a3 _ _ ih rfl (hstep i)

/-! ## Loops over newlines -/

/-- The instructions reached from `x` without reading. -/
def clo (p : Prog) (f : EmptyOp) (x : Nat) : List Nat := addq p f p.fuel [] x

theorem mem_clo {p : Prog} (hp : ProgOK p) (f : EmptyOp) {x : Nat} (hx : x < p.inst.length) (y : Nat) :
    y ∈ clo p f x ↔ EpsStar p f x y := by
  have h := addq_spec hp f p.fuel [] x (QOK.nil p) hx (by unfold Prog.fuel; omega)
  have := h.mem_iff y
  simpa [clo] using this

/-- What the assertions see at the beginning of the text, there before a newline, after a newline, and there before a newline. -/
def atText : EmptyOp := { bol := true, bot := true }
/-- Before a newline at the beginning of the text. -/
def textNL : EmptyOp := flagsBefore 5 (some NL)
/-- After a newline. -/
def atLine : EmptyOp := { bol := true }
/-- Between two newlines. -/
def lineNL : EmptyOp := flagsBefore 1 (some NL)

/-- Where the newline leads from the instruction. -/
def nlOuts (p : Prog) (y : Nat) : List Nat := (byteOuts p (some NL) y).flatMap (clo p atLine)

/-- The program stays inside `U` while only newlines are read, and there is no match. -/
def staysIn (p : Prog) (U : List Nat) : Bool :=
  (clo p atText p.start).all (U.contains ·) && (clo p atLine p.start).all (U.contains ·) &&
    U.all fun u => u < p.inst.length && [textNL, lineNL].all fun f => (clo p f u).all fun y =>
      p.inst[y]? != some .accept && (nlOuts p y).all (U.contains ·)

/-- The instruction `x` is entered by a newline from `y` only. -/
def enteredFrom (p : Prog) (U : List Nat) (x y : Nat) : Bool :=
  !(clo p atLine p.start).contains x &&
    (U.all fun u => (!(clo p lineNL u).contains x || (clo p atLine u).contains x) &&
      (!(clo p textNL u).contains x || (clo p atText u).contains x)) &&
    (List.range p.inst.length).all fun a => (nlOuts p a).contains x == (a == y)

/-- The instructions `c` are a loop over newlines that begins at the first of them. -/
def isLoop (p : Prog) (U : List Nat) (c : List Nat) : Bool :=
  (List.range c.length).all fun r =>
    ((clo p atText p.start).contains (c.getD r 0) == (r == 0)) && enteredFrom p U (c.getD r 0) (c.getD ((r + c.length - 1) % c.length) 0)


theorem contains_iff {l : List Nat} {x : Nat} : l.contains x = true ↔ x ∈ l := by simp

/-- What is known about the state after `t` newlines. -/
structure NLInv (p : Prog) (U : List Nat) (cs : List (List Nat)) (t : Nat) (z : NState) : Prop where
  ok : ZOK p z
  key : nlKey p t = z.enc
  flag : z.flag = if t = 0 then 5 else 1
  safe : ∀ x ∈ z.q, x ∈ U
  closed : ∀ x ∈ z.q, ∀ y, EpsStar p (if t = 0 then atText else atLine) x y → y ∈ z.q
  loop : ∀ c ∈ cs, ∀ r, r < c.length → (c.getD r 0 ∈ z.q ↔ r = t % c.length)

theorem nlInv_zero {p : Prog} (hp : ProgOK p) {U : List Nat} {cs : List (List Nat)} (hU : staysIn p U = true)
    (hcs : ∀ c ∈ cs, isLoop p U c = true) : NLInv p U cs 0 (startState p) := by
  have hs := startState_ok hp
  have hq : (startState p).q = clo p atText p.start := rfl
  simp only [staysIn, Bool.and_eq_true, List.all_eq_true, contains_iff] at hU
  refine ⟨hs.1, rfl, rfl, fun x hx => hU.1.1 x (hq ▸ hx), fun x hx y hy => ?_, fun c hc r hr => ?_⟩
  · rw [hs.2] at hx ⊢
    exact hx.trans hy
  · have h := hcs c hc
    simp only [isLoop, Bool.and_eq_true, List.all_eq_true, List.mem_range] at h
    have h := (h r hr).1
    rw [hq, ← contains_iff, Nat.zero_mod]
    rw [beq_iff_eq] at h
    rw [h]
    simp

theorem mod_pred {r t n : Nat} (hr : r < n) : (r + n - 1) % n = t % n ↔ r = (t + 1) % n := by
  have h1 : (t + 1) % n = (t % n + 1) % n := by rw [Nat.mod_add_mod]
  have h2 : t % n < n := Nat.mod_lt _ (by omega)
  rw [h1]
  generalize t % n = s at *
  rcases Nat.eq_zero_or_pos r with h0 | h0
  · subst h0
    rw [Nat.zero_add, Nat.mod_eq_of_lt (by omega)]
    rcases Nat.lt_or_ge (s + 1) n with h | h
    · rw [Nat.mod_eq_of_lt h]; omega
    · have : s + 1 = n := by omega
      rw [this, Nat.mod_self]; omega
  · have : r + n - 1 = (r - 1) + n := by omega
    rw [this, Nat.add_mod_right, Nat.mod_eq_of_lt (by omega)]
    rcases Nat.lt_or_ge (s + 1) n with h | h
    · rw [Nat.mod_eq_of_lt h]; omega
    · have : s + 1 = n := by omega
      rw [this, Nat.mod_self]; omega

theorem nlInv_succ {p : Prog} (hp : ProgOK p) {U : List Nat} {cs : List (List Nat)} (hU : staysIn p U = true)
    (hcs : ∀ c ∈ cs, isLoop p U c = true) {t : Nat} {z : NState} (h : NLInv p U cs t z) :
    ∃ z', NLInv p U cs (t + 1) z' ∧ nextOf p (nlKey p t) (some NL) = some (.st (nlKey p (t + 1))) := by
  simp only [staysIn, Bool.and_eq_true, List.all_eq_true, contains_iff, decide_eq_true_eq] at hU
  obtain ⟨⟨_, hU1⟩, hU2⟩ := hU
  have hfl : flagsBefore z.flag (some NL) ∈ [textNL, lineNL] := by
    rw [h.flag]
    split <;> simp [textNL, lineNL]
  have hbound : ∀ x ∈ z.q, x < p.inst.length := h.ok.q.bound
  have hsafe : ∀ i ∈ z.q, ∀ a, EpsStar p (flagsBefore z.flag (some NL)) i a → p.inst[a]? ≠ some .accept ∧
      ∀ o ∈ byteOuts p (some NL) a, ∀ w, EpsStar p atLine o w → w ∈ U := by
    intro i hi a ha
    obtain ⟨hlt, h2⟩ := hU2 i (h.safe i hi)
    have h3 := h2 _ hfl a ((mem_clo hp _ hlt a).2 ha)
    refine ⟨by simpa using h3.1, fun o ho w hw => h3.2 w ?_⟩
    exact List.mem_flatMap.2 ⟨o, ho, (mem_clo hp _ (byteOuts_lt hp ho) w).2 hw⟩
  rcases nextOf_spec hp h.ok (some NL) with ⟨_, id, hid, x, hs, ha⟩ | ⟨_, z', hz', hn, hf', hq⟩
  · exact absurd ha (hsafe id hid x hs).1
  have haft : (flagsAfter (some NL)).1 = atLine := by decide
  rw [haft] at hq
  have hkey : nlKey p (t + 1) = z'.enc := by
    rw [nlKey, afterNL, h.key, hn]
  refine ⟨z', ⟨hz', hkey, ?_, ?_, ?_, ?_⟩, ?_⟩
  · rw [hf']; simp [flagsAfter, flagBOL, isWordByte, NL]
  · intro x hx
    obtain ⟨id, rfl | ⟨a, ⟨i, hi, hs⟩, ho⟩, hx⟩ := (hq x).1 hx
    · exact hU1 x ((mem_clo hp _ hp.start x).2 hx)
    · exact (hsafe i hi a hs).2 id ho x hx
  · intro x hx y hy
    simp only [Nat.add_eq_zero_iff, Nat.one_ne_zero, and_false, if_false] at hy
    obtain ⟨id, h1, h2⟩ := (hq x).1 hx
    exact (hq y).2 ⟨id, h1, h2.trans hy⟩
  · intro c hc r hr
    have hl := hcs c hc
    simp only [isLoop, Bool.and_eq_true, List.all_eq_true, List.mem_range] at hl
    have hent := (hl r hr).2
    simp only [enteredFrom, Bool.and_eq_true, List.all_eq_true, List.mem_range, beq_iff_eq] at hent
    obtain ⟨⟨e1, _⟩, e3⟩ := hent
    have hpr : (r + c.length - 1) % c.length < c.length := Nat.mod_lt _ (by omega)
    have hent2 := (hl _ hpr).2
    simp only [enteredFrom, Bool.and_eq_true, List.all_eq_true, List.mem_range, beq_iff_eq, Bool.or_eq_true, Bool.not_eq_true'] at hent2
    obtain ⟨⟨_, e2⟩, _⟩ := hent2
    have hprev := h.loop c hc _ hpr
    generalize c.getD r 0 = x at *
    generalize c.getD ((r + c.length - 1) % c.length) 0 = y at *
    rw [← mod_pred hr, ← hprev, hq]
    constructor
    · rintro ⟨id, rfl | ⟨a, ⟨i, hi, hs⟩, ho⟩, hx⟩
      · have := (mem_clo hp _ hp.start x).2 hx
        simp at e1
        exact absurd this e1
      · have hilt := hbound i hi
        have halt : a < p.inst.length := by
          refine Classical.byContradiction fun hge => ?_
          have : p.inst[a]? = none := List.getElem?_eq_none (by omega)
          simp [byteOuts, this] at ho
        have hy := e3 a halt
        have : x ∈ nlOuts p a := List.mem_flatMap.2 ⟨id, ho, (mem_clo hp _ (byteOuts_lt hp ho) x).2 hx⟩
        rw [contains_iff.2 this] at hy
        have hay : a = y := by simpa using hy.symm
        subst hay
        have h2 := e2 i (h.safe i hi)
        refine h.closed i hi a ?_
        have hfe := h.flag
        split
        · rename_i ht
          rw [if_pos ht] at hfe
          rw [hfe] at hs
          rcases h2.2 with h3 | h3
          · have := contains_iff.2 ((mem_clo hp textNL hilt a).2 hs)
            rw [h3] at this
            cases this
          · exact (mem_clo hp _ hilt a).1 (contains_iff.1 h3)
        · rename_i ht
          rw [if_neg ht] at hfe
          rw [hfe] at hs
          rcases h2.1 with h3 | h3
          · have := contains_iff.2 ((mem_clo hp lineNL hilt a).2 hs)
            rw [h3] at this
            cases this
          · exact (mem_clo hp _ hilt a).1 (contains_iff.1 h3)
    · intro hy
      have hylt := hbound y hy
      have hx := e3 y hylt
      have : x ∈ nlOuts p y := by
        refine contains_iff.1 ?_
        rw [hx]
        simp
      obtain ⟨o, ho, hxo⟩ := List.mem_flatMap.1 this
      exact ⟨o, .inr ⟨y, ⟨y, hy, .refl _⟩, ho⟩, (mem_clo hp _ (byteOuts_lt hp ho) x).1 hxo⟩
  · rw [h.key, hn, hkey]

/-- The product of the numbers. -/
def product : List Nat → Nat
  | [] => 1
  | m :: ms => m * product ms

theorem coprime_product {m : Nat} : ∀ {ms : List Nat}, (∀ n ∈ ms, Nat.Coprime m n) → Nat.Coprime m (product ms)
  | [], _ => Nat.coprime_one_right m
  | n :: ns, h => by
    have h1 := h n List.mem_cons_self
    have h2 := coprime_product (ms := ns) fun x hx => h x (List.mem_cons_of_mem _ hx)
    exact Nat.Coprime.mul_right h1 h2

theorem product_dvd {d : Nat} : ∀ {ms : List Nat}, ms.Pairwise Nat.Coprime → (∀ m ∈ ms, m ∣ d) → product ms ∣ d
  | [], _, _ => ⟨d, (Nat.one_mul d).symm⟩
  | m :: ms, hc, h => by
    obtain ⟨h1, h2⟩ := List.pairwise_cons.1 hc
    exact Nat.Coprime.mul_dvd_of_dvd_of_dvd (coprime_product h1) (h m List.mem_cons_self)
      (product_dvd h2 fun x hx => h x (List.mem_cons_of_mem _ hx))

theorem nlKey_spec {p : Prog} (hp : ProgOK p) {U : List Nat} {cs : List (List Nat)} (hU : staysIn p U = true)
    (hcs : ∀ c ∈ cs, isLoop p U c = true) :
    (∀ t, nextOf p (nlKey p t) (some NL) = some (.st (nlKey p (t + 1)))) ∧
    ((cs.map List.length).Pairwise Nat.Coprime → (∀ c ∈ cs, c ≠ []) →
      ∀ i j, i < j → j < product (cs.map List.length) → nlKey p i ≠ nlKey p j) := by
  have hinv : ∀ t, ∃ z, NLInv p U cs t z := by
    intro t
    induction t with
    | zero => exact ⟨_, nlInv_zero hp hU hcs⟩
    | succ t ih =>
      obtain ⟨z, hz⟩ := ih
      obtain ⟨z', hz', _⟩ := nlInv_succ hp hU hcs hz
      exact ⟨z', hz'⟩
  refine ⟨fun t => ?_, fun hco hne i j hij hj he => ?_⟩
  · obtain ⟨z, hz⟩ := hinv t
    obtain ⟨_, _, h⟩ := nlInv_succ hp hU hcs hz
    exact h
  · obtain ⟨z, hz⟩ := hinv i
    obtain ⟨y, hy⟩ := hinv j
    have hmem := enc_mem hp hz.ok hy.ok (by rw [← hz.key, ← hy.key, he])
    have hd : ∀ m ∈ cs.map List.length, m ∣ j - i := by
      intro m hm
      obtain ⟨c, hc, rfl⟩ := List.mem_map.1 hm
      have hlen : 0 < c.length := List.length_pos_iff.2 (hne c hc)
      have h1 := (hz.loop c hc (i % c.length) (Nat.mod_lt _ hlen)).2 rfl
      have h2 := (hy.loop c hc (i % c.length) (Nat.mod_lt _ hlen)).1 ((hmem _).1 h1)
      exact Nat.dvd_of_mod_eq_zero (Nat.sub_mod_eq_zero_of_mod_eq h2.symm)
    have := Nat.le_of_dvd (by omega) (product_dvd hco hd)
    omega


/-! ## Programs that read no newline -/

/-- The state at the end of the text. -/
def endState (p : Prog) : NState := { q := addq p {} p.fuel [] p.start, part := 0, flag := 0 }

theorem endState_ok {p : Prog} (hp : ProgOK p) : ZOK p (endState p) ∧ ∀ x, x ∈ (endState p).q ↔ EpsStar p {} p.start x := by
  have h := addq_spec hp {} p.fuel [] p.start (QOK.nil p) hp.start (by unfold Prog.fuel; omega)
  refine ⟨⟨h.ok, rfl, by simp [endState]⟩, fun x => ?_⟩
  have := h.mem_iff x
  simpa [endState] using this

theorem noNewline_outs {p : Prog} (h : NoNewline p) (x : Nat) : byteOuts p (some NL) x = [] := by
  unfold byteOuts
  split
  · rename_i lo hi fold out b hi' hb
    cases hb
    rw [if_neg]
    intro hr
    exact h lo hi fold out (List.mem_of_getElem? hi') (inByteRange_iff.1 hr)
  · rfl

theorem nextOf_newline {p : Prog} (hp : ProgOK p) (hn : NoNewline p) {k : Bytes} (hk : IsKey p k) :
    nextOf p k (some NL) = some .dmatch ∨ nextOf p k (some NL) = some (.st (startLineState p).enc) := by
  obtain ⟨z, hz, rfl⟩ := hk
  rcases nextOf_spec hp hz (some NL) with ⟨h, _⟩ | ⟨_, z', hz', h, hf, hq⟩
  · exact .inl h
  · refine .inr ?_
    have hs := startLineState_ok hp
    rw [h, enc_ext hz' hs.1 hf (fun x => ?_)]
    rw [hq, hs.2]
    simp only [noNewline_outs hn]
    constructor
    · rintro ⟨id, rfl | ⟨a, _, h⟩, hx⟩
      · exact hx
      · cases h
    · exact fun h => ⟨_, .inl rfl, h⟩

theorem nextOf_end {p : Prog} (hp : ProgOK p) {k : Bytes} (hk : IsKey p k) :
    nextOf p k none = some .dmatch ∨ nextOf p k none = some (.st (endState p).enc) := by
  obtain ⟨z, hz, rfl⟩ := hk
  rcases nextOf_spec hp hz none with ⟨h, _⟩ | ⟨_, z', hz', h, hf, hq⟩
  · exact .inl h
  · refine .inr ?_
    have hs := endState_ok hp
    rw [h, enc_ext hz' hs.1 hf (fun x => ?_)]
    rw [hq, hs.2]
    have hb : ∀ a, byteOuts p none a = [] := by intro a; unfold byteOuts; split <;> simp_all
    simp only [hb]
    constructor
    · rintro ⟨id, rfl | ⟨a, _, h⟩, hx⟩
      · exact hx
      · cases h
    · exact fun h => ⟨_, .inl rfl, h⟩

/-- `cache` makes no states but the one it is called with and two others, always the same. -/
theorem cacheKey_makes {p : Prog} (hp : ProgOK p) (hn : NoNewline p) : ∀ (fuel : Nat) (m m' : DCache) (k : Bytes), IsKey p k →
    cacheKey p fuel m k = some m' → ∀ x, (m' x).isSome = true → (m x).isSome = true ∨ x = k ∨ x = (startLineState p).enc ∨ x = (endState p).enc := by
  intro fuel
  induction fuel with
  | zero =>
    intro m m' k _ h x hx
    rw [cacheKey] at h
    cases hm : m k with
    | none => simp [hm] at h
    | some e =>
      simp [hm] at h
      subst h
      exact .inl hx
  | succ fuel ih =>
    intro m m' k hk h x hx
    rcases cacheKey_steps h with ⟨h1, rfl⟩ | ⟨hm, m2, r2, m3, r3, h2, h3, rfl⟩
    · exact .inl hx
    rw [upd_isSome] at hx
    have sl : IsKey p (startLineState p).enc := ⟨_, (startLineState_ok hp).1, rfl⟩
    have se : IsKey p (endState p).enc := ⟨_, (endState_ok hp).1, rfl⟩
    have h3' : (m2 x).isSome = true ∨ x = k ∨ x = (startLineState p).enc ∨ x = (endState p).enc := by
      obtain ⟨hr, ⟨rfl, rfl⟩ | ⟨k', rfl, hc⟩⟩ := withCache_some h3
      · rw [upd_isSome] at hx; exact .inl hx
      · rcases nextOf_end hp hk with he | he
        · rw [he] at hr; cases hr
        · rw [he] at hr
          injection hr with hr
          injection hr with hr
          subst hr
          rcases ih _ _ _ se hc x hx with h | h | h | h
          · rw [upd_isSome] at h; exact .inl h
          · exact .inr (.inr (.inr h))
          · exact .inr (.inr (.inl h))
          · exact .inr (.inr (.inr h))
    rcases h3' with hx | hx
    · have h2' : ((m.set k ⟨fun _ => none, false, false⟩) x).isSome = true ∨ x = k ∨ x = (startLineState p).enc ∨ x = (endState p).enc := by
        obtain ⟨hr, ⟨rfl, rfl⟩ | ⟨k', rfl, hc⟩⟩ := withCache_some h2
        · exact .inl hx
        · rcases nextOf_newline hp hn hk with he | he
          · rw [he] at hr; cases hr
          · rw [he] at hr
            injection hr with hr
            injection hr with hr
            subst hr
            rcases ih _ _ _ sl hc x hx with h | h | h | h
            · exact .inl h
            · exact .inr (.inr (.inl h))
            · exact .inr (.inr (.inl h))
            · exact .inr (.inr (.inr h))
      rcases h2' with h | h
      · rcases set_isSome.1 h with h | h
        · exact .inr (.inl h)
        · exact .inl h
      · exact .inr h
    · exact .inr hx

/-- The states of the matcher are among those of the list. -/
structure Among (p : Prog) (M : Matcher) (l : List Bytes) : Prop where
  mem : ∀ x, (M.dstate x).isSome = true → x ∈ l
  key : ∀ x ∈ l, IsKey p x
  line : (startLineState p).enc ∈ l
  eot : (endState p).enc ∈ l

theorem cacheKey_among {p : Prog} (hp : ProgOK p) (hn : NoNewline p) {fuel : Nat} {M : Matcher} {m' : DCache} {k : Bytes} {l : List Bytes}
    (h : Among p M l) (hk : IsKey p k) (hc : cacheKey p fuel M.dstate k = some m') : Among p { M with dstate := m' } (k :: l) := by
  refine ⟨fun x hx => ?_, fun x hx => ?_, List.mem_cons_of_mem _ h.line, List.mem_cons_of_mem _ h.eot⟩
  · rcases cacheKey_makes hp hn _ _ _ _ hk hc x hx with h1 | rfl | rfl | rfl
    · exact List.mem_cons_of_mem _ (h.mem x h1)
    · exact List.mem_cons_self
    · exact List.mem_cons_of_mem _ h.line
    · exact List.mem_cons_of_mem _ h.eot
  · rcases List.mem_cons.1 hx with rfl | hx
    · exact hk
    · exact h.key x hx

theorem setNext_among {p : Prog} {M M' : Matcher} {d d1 : DRef} {c : UInt8} {l : List Bytes} (h : Among p M l)
    (hs : M.setNext d c d1 = some M') : Among p M' l ∧ M'.startLine = M.startLine := by
  unfold Matcher.setNext at hs
  split at hs
  · cases hs
  · cases hs
    refine ⟨⟨fun x hx => h.mem x ?_, h.key, h.line, h.eot⟩, rfl⟩
    rw [upd_isSome] at hx
    exact hx

theorem loop_among {p : Prog} (hp : ProgOK p) (hn : NoNewline p) (et : Bool) : ∀ (b : Bytes) (M M' : Matcher) (d : DRef) (i : Nat)
    (r : Option Nat) (l : List Bytes), Among p M l → Matcher.loop p et M d i b = some (M', r) →
      ∃ l', Among p M' l' ∧ l'.length ≤ l.length + b.length := by
  intro b
  induction b with
  | nil =>
    intro M M' d i r l hl h
    rw [Matcher.loop] at h
    split at h
    · cases h
    · cases h
      exact ⟨l, hl, by simp⟩
  | cons c cs ih =>
    intro M M' d i r l hl h
    unfold Matcher.loop at h
    split at h
    · cases h
    rename_i e he
    split at h
    · obtain ⟨l', h1, h2⟩ := ih _ _ _ _ _ l hl h
      exact ⟨l', h1, by simp; omega⟩
    split at h
    · split at h
      · cases h
        exact ⟨l, hl, by simp⟩
      split at h
      · cases h
      · rename_i M1 hM1
        obtain ⟨l', h1, h2⟩ := ih _ _ _ _ _ l (setNext_among hl hM1).1 h
        exact ⟨l', h1, by simp; omega⟩
    split at h
    · cases h
    rename_i k
    have hk : IsKey p k := hl.key k (hl.mem k (by simp only [Matcher.get] at he; simp [he]))
    split at h
    · cases h
    rename_i m d1 hw
    split at h
    · cases h
    rename_i M1 hM1
    have hM : ∃ l1, Among p { M with dstate := m } l1 ∧ l1.length ≤ l.length + 1 := by
      obtain ⟨hr, ⟨rfl, rfl⟩ | ⟨k', rfl, hc⟩⟩ := withCache_some hw
      · exact ⟨l, hl, by omega⟩
      · obtain ⟨r, hr', hkey⟩ := nextOf_key hp hk (some c)
        rw [hr] at hr'
        cases hr'
        exact ⟨_, cacheKey_among hp hn hl (hkey k' rfl) hc, by simp⟩
    obtain ⟨l1, h1, h2⟩ := hM
    obtain ⟨l', h3, h4⟩ := ih _ _ _ _ _ l1 (setNext_among h1 hM1).1 h
    exact ⟨l', h3, by simp; omega⟩

theorem calls_among {p : Prog} (hp : ProgOK p) (hn : NoNewline p) : ∀ (history : List (Bytes × Bool × Bool)) (M M' : Matcher)
    (l : List Bytes), Among p M l → M.calls p history = some M' → ∃ l', Among p M' l' ∧ l'.length ≤ l.length + bytesGiven history := by
  intro history
  induction history with
  | nil =>
    intro M M' l hl h
    rw [Matcher.calls] at h
    cases h
    exact ⟨l, hl, by simp⟩
  | cons a t ih =>
    intro M M' l hl h
    obtain ⟨b, bt, et⟩ := a
    rw [Matcher.calls] at h
    split at h
    · cases h
    rename_i M1 r hM1
    obtain ⟨l1, h1, h2⟩ := loop_among hp hn et _ _ _ _ _ _ l hl hM1
    obtain ⟨l', h3, h4⟩ := ih _ _ l1 h1 h
    exact ⟨l', h3, by simp only [bytesGiven]; omega⟩

theorem init_among {p : Prog} (hp : ProgOK p) (hn : NoNewline p) {M : Matcher} (h : Matcher.init p = some M) :
    Among p M [(startState p).enc, (startLineState p).enc, (endState p).enc] := by
  have k1 : IsKey p (startState p).enc := ⟨_, (startState_ok hp).1, rfl⟩
  have k2 : IsKey p (startLineState p).enc := ⟨_, (startLineState_ok hp).1, rfl⟩
  have k3 : IsKey p (endState p).enc := ⟨_, (endState_ok hp).1, rfl⟩
  unfold Matcher.init at h
  split at h
  · cases h
  rename_i m1 h1
  split at h
  · cases h
  rename_i m2 h2
  cases h
  refine ⟨fun x hx => ?_, fun x hx => ?_, by simp, by simp⟩
  · rcases cacheKey_makes hp hn _ _ _ _ k2 h2 x hx with h | rfl | rfl | rfl
    · rcases cacheKey_makes hp hn _ _ _ _ k1 h1 x h with h | rfl | rfl | rfl
      · simp at h
      · simp
      · simp
      · simp
    · simp
    · simp
    · simp
  · simp at hx
    rcases hx with rfl | rfl | rfl <;> assumption

/-- How many of the three states are missing. -/
def miss (m : DCache) (l : List Bytes) : Nat := l.countP fun k => (m k).isNone

theorem miss_mono {m m' : DCache} (h : ∀ x, (m x).isSome = true → (m' x).isSome = true) (l : List Bytes) : miss m' l ≤ miss m l := by
  unfold miss
  refine List.countP_mono_left fun k _ hk => ?_
  cases hm : m k with
  | none => rfl
  | some e =>
    have := h k (by simp [hm])
    cases hm' : m' k <;> simp_all

/-- Three calls inside one another are enough. -/
theorem cacheKey_flat {p : Prog} (hp : ProgOK p) (hn : NoNewline p) : ∀ (fuel : Nat) (m : DCache) (k : Bytes), IsKey p k →
    (if (m k).isSome then 0 else 1) + miss (m.set k ⟨fun _ => none, false, false⟩) [(startLineState p).enc, (endState p).enc] ≤ fuel →
      (cacheKey p fuel m k).isSome = true := by
  intro fuel
  induction fuel with
  | zero =>
    intro m k _ h
    rw [cacheKey]
    cases hm : m k with
    | some e => rfl
    | none => simp [hm] at h
  | succ fuel ih =>
    intro m k hk h
    have sl : IsKey p (startLineState p).enc := ⟨_, (startLineState_ok hp).1, rfl⟩
    have se : IsKey p (endState p).enc := ⟨_, (endState_ok hp).1, rfl⟩
    rw [cacheKey]
    cases hm : m k with
    | some e => rfl
    | none =>
      simp only
      rw [hm] at h
      simp only [Option.isSome_none, Bool.false_eq_true, if_false] at h
      generalize m.set k ⟨fun _ => none, false, false⟩ = m1 at *
      have hstep : ∀ (ma : DCache) (k' : Bytes), k' ∈ [(startLineState p).enc, (endState p).enc] →
          miss ma [(startLineState p).enc, (endState p).enc] ≤ fuel → ∃ mb, cacheKey p fuel ma k' = some mb := by
        intro ma k' hk' hle
        refine Option.isSome_iff_exists.1 (ih ma k' ?_ ?_)
        · simp at hk'; rcases hk' with rfl | rfl <;> assumption
        · refine Nat.le_trans ?_ hle
          unfold miss
          simp only [List.countP_cons, List.countP_nil]
          simp at hk'
          rcases hk' with rfl | rfl
          · by_cases hee : (endState p).enc = (startLineState p).enc
            · simp [hee, DCache.set]
              cases ma (startLineState p).enc <;> simp
            · simp [DCache.set, hee]
              cases ma (startLineState p).enc <;> simp
              omega
          · by_cases hee : (startLineState p).enc = (endState p).enc
            · simp [hee, DCache.set]
              cases ma (endState p).enc <;> simp
            · simp [DCache.set, hee]
              cases ma (endState p).enc <;> simp
      have hwc : ∀ (ma : DCache) (c : Option UInt8) (k' : Bytes), (nextOf p k c = some .dmatch ∨ nextOf p k c = some (.st k')) →
          k' ∈ [(startLineState p).enc, (endState p).enc] → miss ma [(startLineState p).enc, (endState p).enc] ≤ fuel →
            ∃ mb r, withCache (cacheKey p fuel) ma (nextOf p k c) = some (mb, r) ∧ ∀ x, (ma x).isSome = true → (mb x).isSome = true := by
        intro ma c k' hnx hk' hle
        rcases hnx with hnx | hnx
        · exact ⟨ma, .dmatch, by rw [hnx]; rfl, fun _ h => h⟩
        · obtain ⟨mb, hmb⟩ := hstep ma k' hk' hle
          exact ⟨mb, .st k', by rw [hnx, withCache, hmb]; rfl, (cacheKey_fresh _ _ _ _ hmb).1⟩
      obtain ⟨m2, r2, h2, e2⟩ := hwc m1 (some NL) _ (nextOf_newline hp hn hk) (by simp) (by omega)
      rw [h2]
      simp only
      have hle2 := miss_mono e2 [(startLineState p).enc, (endState p).enc]
      obtain ⟨m3, r3, h3, _⟩ := hwc (m2.upd k fun d => { d with matchNL := r2 == .dmatch }) none _ (nextOf_end hp hk) (by simp) (by
        refine Nat.le_trans (miss_mono (m := m2) (fun x hx => ?_) _) (by omega)
        rw [upd_isSome]
        exact hx)
      rw [h3]
      rfl

end Hound
