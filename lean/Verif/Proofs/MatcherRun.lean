import Verif.Proofs.MatcherPure
import Verif.Proofs.Grep

/-! From lines to texts, and the cache. -/

namespace Hound
open Spec

theorem prun_line {p : Prog} (hp : ProgOK p) {et : Bool} {l : Bytes} {bot : Bool} (hnl : NL ∉ l) :
    ∀ (r : Bytes) (pos : Nat) (d : DRef), l.drop pos = r → pos ≤ l.length → LineInv p l bot pos d →
      ∃ d', LineInv p l bot l.length d' ∧
        ∀ i rest, prun p et d i (r ++ rest) = prun p et d' (i + r.length) rest := by
  intro r
  induction r with
  | nil =>
    intro pos d hd hle h
    have hpos : pos = l.length := by
      have := congrArg List.length hd
      simp at this; omega
    subst hpos
    exact ⟨d, h, fun i rest => by simp⟩
  | cons c r ih =>
    intro pos d hd hle h
    have hc : l[pos]? = some c := by
      have : (l.drop pos)[0]? = some c := by rw [hd]; rfl
      simpa using this
    have hlt := (List.getElem?_eq_some_iff.mp hc).1
    have hcn : c ≠ NL := fun e => hnl (e ▸ List.mem_of_getElem? hc)
    have hd' : l.drop (pos + 1) = r := by
      have : (l.drop pos).drop 1 = r := by rw [hd]; rfl
      rwa [List.drop_drop] at this
    obtain ⟨d', h1, h2⟩ := ih (pos + 1) (pstep p d c) hd' hlt (lineInv_step hp hc hcn h)
    refine ⟨d', h1, fun i rest => ?_⟩
    rw [List.cons_append, prun, if_neg hcn, h2]
    rw [List.length_cons]
    congr 1
    omega

theorem prun_pieces {p : Prog} (hp : ProgOK p) {bt et : Bool} {acc : LineAcc}
    (hacc : ∀ b e l, acc b e l = true ↔ Accepts p (b && bt) (e && et) l) :
    ∀ (ps : List Bytes) (first : Bool) (off : Nat), ps ≠ [] → (∀ l ∈ ps, NL ∉ l) →
      prun p et (.st (if first && bt then startState p else startLineState p).enc) off (unpieces ps) =
        firstEnd acc first ps off := by
  intro ps
  induction ps with
  | nil => intro _ _ h; exact absurd rfl h
  | cons l ps ih =>
    intro first off _ hnl
    obtain ⟨d', h1, h2⟩ := prun_line hp (et := et) (hnl l List.mem_cons_self) l 0 _ rfl (Nat.zero_le _)
      (lineInv_start hp l (first && bt))
    have hend := lineInv_end hp h1
    cases ps with
    | nil =>
      have := h2 off []
      simp only [List.append_nil] at this
      rw [unpieces, this, firstEnd, prun]
      have : (pNL p d' || (et && pEOT p d')) = acc first true l := by
        rw [Bool.eq_iff_iff, hacc]
        cases et
        · simp [hend.1]
        · simp only [Bool.true_and, Bool.or_eq_true, hend.1, hend.2]
          exact ⟨fun h => h.elim accepts_mono id, Or.inr⟩
      rw [this]
    | cons m ms =>
      rw [unpieces, h2, firstEnd, prun, if_pos rfl]
      have : pNL p d' = acc first false l := by
        rw [Bool.eq_iff_iff, hacc, hend.1]; simp
      rw [this]
      split
      · rfl
      · have := ih false (off + l.length + 1) (by simp) (fun a ha => hnl a (List.mem_cons_of_mem _ ha))
        simpa using this

/-- The automaton without cache is a line matcher. -/
theorem prun_firstEnd {p : Prog} (hp : ProgOK p) {bt et : Bool} {acc : LineAcc}
    (hacc : ∀ b e l, acc b e l = true ↔ Accepts p (b && bt) (e && et) l) (b : Bytes) :
    prun p et (.st (if bt then startState p else startLineState p).enc) 0 b = firstEnd acc true (pieces b) 0 := by
  have := prun_pieces hp hacc (pieces b) true 0 (pieces_ne_nil b) (pieces_nlfree b)
  rwa [unpieces_pieces, Bool.true_and] at this

/-! ## The cache -/

/-- Encodings of states that occur. -/
def IsKey (p : Prog) (k : Bytes) : Prop := ∃ z, ZOK p z ∧ k = z.enc

/-- All sublists. -/
def subs : List Nat → List (List Nat)
  | [] => [[]]
  | x :: xs => subs xs ++ (subs xs).map (x :: ·)

theorem subs_length : ∀ l, (subs l).length = 2 ^ l.length
  | [] => rfl
  | x :: xs => by simp [subs, subs_length xs, Nat.pow_succ]; omega

theorem filter_mem_subs (f : Nat → Bool) : ∀ l : List Nat, l.filter f ∈ subs l
  | [] => by simp [subs]
  | x :: xs => by
    have := filter_mem_subs f xs
    simp only [subs, List.filter_cons, List.mem_append, List.mem_map]
    split
    · exact Or.inr ⟨_, this, rfl⟩
    · exact Or.inl this

/-- All keys of a program. -/
def allKeys (p : Prog) : List Bytes :=
  [0, 1, 5, 16].flatMap fun f => (subs (List.range p.inst.length)).map fun q => NState.enc { q := q, part := 0, flag := f }

theorem sortInts_sorted {l : List Nat} (h : l.Pairwise (· < ·)) : sortInts l = l :=
  sorted_ext (sorted_sortInts (h.imp (fun h => by omega))) h (fun _ => mem_sortInts)

theorem range_sorted (n : Nat) : (List.range n).Pairwise (· < ·) := List.pairwise_lt_range

theorem isKey_mem {p : Prog} {k : Bytes} (h : IsKey p k) : k ∈ allKeys p := by
  obtain ⟨z, hz, rfl⟩ := h
  unfold allKeys
  rw [List.mem_flatMap]
  refine ⟨z.flag, hz.flag, List.mem_map.mpr ⟨_, filter_mem_subs (fun a => decide (a ∈ z.q)) _, ?_⟩⟩
  unfold NState.enc
  simp only [hz.part]
  congr 2
  have hs : ((List.range p.inst.length).filter (fun a => decide (a ∈ z.q))).Pairwise (· < ·) :=
    (range_sorted _).filter _
  rw [sortInts_sorted hs]
  refine sorted_ext hs (sorted_sortInts hz.q.nodup) (fun a => ?_)
  rw [mem_sortInts, List.mem_filter, List.mem_range]
  simp only [decide_eq_true_eq]
  exact ⟨fun h => h.2, fun h => ⟨hz.q.bound a h, h⟩⟩

theorem allKeys_length (p : Prog) : (allKeys p).length = 4 * 2 ^ p.inst.length := by
  simp [allKeys, subs_length]; omega

theorem nextOf_key {p : Prog} (hp : ProgOK p) {k : Bytes} (hk : IsKey p k) (c : Option UInt8) :
    ∃ r, nextOf p k c = some r ∧ ∀ k', r = .st k' → IsKey p k' := by
  obtain ⟨z, hz, rfl⟩ := hk
  rcases nextOf_spec hp hz c with ⟨hn, _⟩ | ⟨_, z', hz', hn, _⟩
  · exact ⟨_, hn, by simp⟩
  · refine ⟨_, hn, ?_⟩
    intro k' h
    cases h
    exact ⟨z', hz', rfl⟩

/-- The cache is consistent, except possibly for the match bits of the keys in `W` (those being entered). -/
structure COK (p : Prog) (W : Bytes → Prop) (m : DCache) : Prop where
  key : ∀ k e, m k = some e → IsKey p k
  nl : ∀ k e, m k = some e → ¬ W k → e.matchNL = pNL p (.st k)
  eot : ∀ k e, m k = some e → ¬ W k → e.matchEOT = pEOT p (.st k)
  nextNL : ∀ k e d, m k = some e → e.next NL = some d →
    d = .st (startLineState p).enc ∧ nextOf p k (some NL) ≠ some .dmatch
  next : ∀ k e c d, m k = some e → c ≠ NL → e.next c = some d → nextOf p k (some c) = some d
  target : ∀ k e c k', m k = some e → e.next c = some (.st k') → ∃ e', m k' = some e'

/-- Entries stay as they are. -/
def Ext (m m' : DCache) : Prop := ∀ k e, m k = some e → m' k = some e

/-- The number of keys not yet in the cache. -/
def missing (p : Prog) (m : DCache) : Nat := (allKeys p).countP (fun k => (m k).isNone)

theorem missing_le {p : Prog} {m m' : DCache} (h : ∀ k e, m k = some e → ∃ e', m' k = some e') :
    missing p m' ≤ missing p m := by
  unfold missing
  apply List.countP_mono_left
  intro k _ hk
  cases hm : m k with
  | none => rfl
  | some e =>
    obtain ⟨e', he⟩ := h k e hm
    simp [he] at hk

theorem countP_lt {α : Type} {f g : α → Bool} : ∀ {l : List α} {x : α}, x ∈ l → (∀ y ∈ l, f y = true → g y = true) →
    f x = false → g x = true → l.countP f < l.countP g := by
  intro l
  induction l with
  | nil => intro x hx; simp at hx
  | cons a l ih =>
    intro x hx hfg hf hg
    simp only [List.countP_cons]
    have hmono : l.countP f ≤ l.countP g :=
      List.countP_mono_left (fun y hy => hfg y (List.mem_cons_of_mem _ hy))
    rcases List.mem_cons.mp hx with rfl | hx
    · simp [hf, hg]; omega
    · have := ih hx (fun y hy => hfg y (List.mem_cons_of_mem _ hy)) hf hg
      have ha := hfg a List.mem_cons_self
      cases hfa : f a
      · simp only [Bool.false_eq_true, if_false]; omega
      · simp [ha hfa]; omega

theorem missing_set {p : Prog} {m : DCache} {k : Bytes} {d : DState} (hk : IsKey p k) (hm : m k = none) :
    missing p (m.set k d) < missing p m := by
  unfold missing
  refine countP_lt (isKey_mem hk) ?_ (by simp [DCache.set]) (by simp [hm])
  intro y _ hy
  unfold DCache.set at hy
  split at hy
  · simp at hy
  · exact hy

theorem COK.upd {p : Prog} {W W' : Bytes → Prop} {m : DCache} (h : COK p W m) {k : Bytes} {f : DState → DState}
    (hf : ∀ d, (f d).next = d.next) (ho : ∀ x, x ≠ k → ¬ W' x → ¬ W x)
    (hk : ¬ W' k → ∀ e, m k = some e → (f e).matchNL = pNL p (.st k) ∧
      (f e).matchEOT = pEOT p (.st k)) : COK p W' (m.upd k f) := by
  have hget : ∀ x e, m.upd k f x = some e → ∃ e0, m x = some e0 ∧ e.next = e0.next ∧
      (x = k → e = f e0) ∧ (x ≠ k → e = e0) := by
    intro x e hx
    unfold DCache.upd at hx
    split at hx
    · rename_i hxk
      cases hm : m x with
      | none => simp [hm] at hx
      | some e0 =>
        simp [hm] at hx
        subst hx
        exact ⟨e0, rfl, hf e0, fun _ => rfl, fun h => absurd hxk h⟩
    · rename_i hxk
      exact ⟨e, hx, rfl, fun h => absurd h hxk, fun _ => rfl⟩
  constructor
  · intro x e hx
    obtain ⟨e0, h0, _⟩ := hget x e hx
    exact h.key x e0 h0
  · intro x e hx hw
    obtain ⟨e0, h0, _, h1, h2⟩ := hget x e hx
    by_cases hxk : x = k
    · subst hxk; rw [h1 rfl]; exact (hk hw e0 h0).1
    · rw [h2 hxk]; exact h.nl x e0 h0 (ho x hxk hw)
  · intro x e hx hw
    obtain ⟨e0, h0, _, h1, h2⟩ := hget x e hx
    by_cases hxk : x = k
    · subst hxk; rw [h1 rfl]; exact (hk hw e0 h0).2
    · rw [h2 hxk]; exact h.eot x e0 h0 (ho x hxk hw)
  · intro x e d hx hd
    obtain ⟨e0, h0, hn, _⟩ := hget x e hx
    exact h.nextNL x e0 d h0 (hn ▸ hd)
  · intro x e c d hx hc hd
    obtain ⟨e0, h0, hn, _⟩ := hget x e hx
    exact h.next x e0 c d h0 hc (hn ▸ hd)
  · intro x e c k' hx hd
    obtain ⟨e0, h0, hn, _⟩ := hget x e hx
    obtain ⟨e', h'⟩ := h.target x e0 c k' h0 (hn ▸ hd)
    unfold DCache.upd
    split
    · exact ⟨_, by rw [h']; rfl⟩
    · exact ⟨e', h'⟩

theorem cacheKey_spec {p : Prog} (hp : ProgOK p) : ∀ (fuel : Nat) (W : Bytes → Prop) (m : DCache) (k : Bytes),
    COK p W m → IsKey p k → missing p m < fuel →
      ∃ m', cacheKey p fuel m k = some m' ∧ COK p W m' ∧ Ext m m' ∧ ∃ e, m' k = some e := by
  intro fuel
  induction fuel with
  | zero => intro W m k _ _ h; omega
  | succ fuel ih =>
    intro W m k hc hk hf
    rw [cacheKey]
    cases hm : m k with
    | some e => exact ⟨m, rfl, hc, fun _ _ h => h, e, hm⟩
    | none =>
      simp only
      -- the entry is stored
      have hmiss := missing_set (d := ⟨fun _ => none, false, false⟩) hk hm
      have c1 : COK p (fun x => x = k ∨ W x) (m.set k ⟨fun _ => none, false, false⟩) := by
        constructor <;> simp only [DCache.set] <;> grind [COK]
      have e1 : Ext m (m.set k ⟨fun _ => none, false, false⟩) := by
        intro x e hx
        unfold DCache.set
        rw [if_neg (by rintro rfl; simp [hm] at hx)]
        exact hx
      have p1 : (m.set k ⟨fun _ => none, false, false⟩) k = some ⟨fun _ => none, false, false⟩ := by
        simp [DCache.set]
      generalize m.set k ⟨fun _ => none, false, false⟩ = m1 at *
      -- one computation of a next state
      have step : ∀ (ma : DCache) (c : Option UInt8), COK p (fun x => x = k ∨ W x) ma →
          missing p ma < fuel → ∃ r mb, nextOf p k c = some r ∧
            withCache (cacheKey p fuel) ma (nextOf p k c) = some (mb, r) ∧
            COK p (fun x => x = k ∨ W x) mb ∧ Ext ma mb := by
        intro ma c hca hfa
        obtain ⟨r, hr, hkey⟩ := nextOf_key hp hk c
        cases r with
        | dmatch => exact ⟨.dmatch, ma, hr, by rw [hr]; rfl, hca, fun _ _ h => h⟩
        | st k' =>
          obtain ⟨mb, h1, h2, h3, _⟩ := ih _ ma k' hca (hkey k' rfl) hfa
          exact ⟨.st k', mb, hr, by rw [hr]; simp [withCache, h1], h2, h3⟩
      obtain ⟨r2, m2, hr2, hw2, c2, e2⟩ := step m1 (some NL) c1 (by omega)
      rw [hw2]
      simp only
      have p2 := e2 _ _ p1
      have miss2 : missing p m2 ≤ missing p m1 := missing_le (fun x e h => ⟨e, e2 x e h⟩)
      have c2' : COK p (fun x => x = k ∨ W x) (m2.upd k (fun d => { d with matchNL := r2 == .dmatch })) :=
        c2.upd (fun _ => rfl) (fun _ _ h => h) (fun h => absurd (Or.inl rfl) h)
      have p2' : (m2.upd k (fun d => { d with matchNL := r2 == .dmatch })) k =
          some ⟨fun _ => none, r2 == .dmatch, false⟩ := by simp [DCache.upd, p2]
      have miss2' : missing p (m2.upd k (fun d => { d with matchNL := r2 == .dmatch })) ≤ missing p m2 := by
        refine missing_le (fun x e h => ?_)
        simp only [DCache.upd]
        split
        · exact ⟨_, by rw [h]; rfl⟩
        · exact ⟨e, h⟩
      have e2' : Ext m (m2.upd k (fun d => { d with matchNL := r2 == .dmatch })) := by
        intro x e hx
        unfold DCache.upd
        rw [if_neg (by rintro rfl; simp [hm] at hx)]
        exact e2 _ _ (e1 _ _ hx)
      generalize m2.upd k (fun d => { d with matchNL := r2 == .dmatch }) = m2' at *
      obtain ⟨r3, m3, hr3, hw3, c3, e3⟩ := step m2' none c2' (by omega)
      rw [hw3]
      simp only
      have p3 := e3 _ _ p2'
      refine ⟨_, rfl, ?_, ?_, ⟨⟨fun _ => none, r2 == .dmatch, r3 == .dmatch⟩, by simp [DCache.upd, p3]⟩⟩
      · have hb : ∀ r : DRef, ∀ c, nextOf p k c = some r → (r == .dmatch) = decide (nextOf p k c = some .dmatch) := by
          intro r c h
          rw [h]
          cases r <;> simp <;> rfl
        refine c3.upd (fun _ => rfl) (fun x hx hw h => h.elim hx hw) ?_
        intro _ e he
        rw [p3] at he
        cases he
        exact ⟨hb _ _ hr2, hb _ _ hr3⟩
      · intro x e hx
        unfold DCache.upd
        rw [if_neg (by rintro rfl; simp [hm] at hx)]
        exact e3 _ _ (e2' _ _ hx)

theorem missing_lt_states (p : Prog) (m : DCache) : missing p m < p.states := by
  have : missing p m ≤ (allKeys p).length := List.countP_le_length
  rw [allKeys_length] at this
  unfold Prog.states
  omega

/-- A consistent matcher. -/
structure MOK (p : Prog) (M : Matcher) : Prop where
  cok : COK p (fun _ => False) M.dstate
  start : M.start = (startState p).enc
  startLine : M.startLine = (startLineState p).enc
  hasStart : ∃ e, M.dstate M.start = some e
  hasStartLine : ∃ e, M.dstate M.startLine = some e

theorem init_ok {p : Prog} (hp : ProgOK p) : ∃ M, Matcher.init p = some M ∧ MOK p M := by
  obtain ⟨m1, h1, c1, e1, f1⟩ := cacheKey_spec hp p.states (fun _ => False) (fun _ => none) (startState p).enc
    (by constructor <;> simp) ⟨_, (startState_ok hp).1, rfl⟩ (missing_lt_states p _)
  obtain ⟨m2, h2, c2, e2, f2⟩ := cacheKey_spec hp p.states (fun _ => False) m1 (startLineState p).enc c1
    ⟨_, (startLineState_ok hp).1, rfl⟩ (missing_lt_states p _)
  refine ⟨⟨m2, (startState p).enc, (startLineState p).enc⟩, ?_, ⟨c2, rfl, rfl, ?_, f2⟩⟩
  · unfold Matcher.init
    rw [h1]; simp only; rw [h2]
  · obtain ⟨e, he⟩ := f1
    exact ⟨e, e2 _ _ he⟩

/-- The pointer leads to an entry. -/
def Has (M : Matcher) : DRef → Prop
  | .dmatch => True
  | .st k => ∃ e, M.dstate k = some e

theorem setNext_ok {p : Prog} {M : Matcher} (h : MOK p M) {k : Bytes} {e : DState} (he : M.dstate k = some e)
    {c : UInt8} {d1 : DRef} (hd : Has M d1)
    (hNL : c = NL → d1 = .st (startLineState p).enc ∧ nextOf p k (some NL) ≠ some .dmatch)
    (hne : c ≠ NL → nextOf p k (some c) = some d1) :
    ∃ M', M.setNext (.st k) c d1 = some M' ∧ MOK p M' ∧ M'.startLine = M.startLine ∧ ∀ d, Has M d → Has M' d := by
  refine ⟨_, rfl, ?_, rfl, ?_⟩
  · have hc := h.cok
    refine ⟨?_, h.start, h.startLine, ?_, ?_⟩
    · have ht := hc.target
      constructor
      · intro k' e'; simp only [DCache.upd]; split
        · intro hh; cases hk : M.dstate k' <;> simp [hk] at hh; exact hc.key _ _ hk
        · exact hc.key _ _
      · intro k' e'; simp only [DCache.upd]; split
        · intro hh; cases hk : M.dstate k' <;> simp [hk] at hh; subst hh; intro hw; have := hc.nl k' _ hk hw; exact this
        · exact hc.nl _ _
      · intro k' e'; simp only [DCache.upd]; split
        · intro hh; cases hk : M.dstate k' <;> simp [hk] at hh; subst hh; intro hw; have := hc.eot k' _ hk hw; exact this
        · exact hc.eot _ _
      · intro k' e' d; simp only [DCache.upd]; split
        · rename_i hkk; subst hkk
          intro hh; simp [he] at hh; subst hh
          simp only
          split
          · rename_i hcc; intro hd'; cases hd'; exact hNL hcc.symm
          · exact hc.nextNL _ _ _ he
        · exact hc.nextNL _ _ _
      · intro k' e' c' d; simp only [DCache.upd]; split
        · rename_i hkk; subst hkk
          intro hh; simp [he] at hh; subst hh
          intro hcn
          simp only
          split
          · rename_i hcc; subst hcc; intro hd'; cases hd'; exact hne hcn
          · exact hc.next _ _ _ _ he hcn
        · exact hc.next _ _ _ _
      · intro k' e' c' k''
        have hex : ∀ x, (∃ e, M.dstate x = some e) → ∃ e, (M.dstate.upd k (fun e =>
          { e with next := fun c' => if c' = c then some d1 else e.next c' })) x = some e := by
          rintro x ⟨e, hx⟩
          simp only [DCache.upd]; split
          · exact ⟨_, by rw [hx]; rfl⟩
          · exact ⟨e, hx⟩
        intro h1 h2
        apply hex
        simp only [DCache.upd] at h1
        split at h1
        · rename_i hkk; subst hkk
          simp [he] at h1; subst h1
          simp only at h2
          split at h2
          · cases h2; exact hd
          · exact ht _ _ _ _ he h2
        · exact ht _ _ _ _ h1 h2
    · obtain ⟨e', h'⟩ := h.hasStart
      simp only [DCache.upd]; split
      · exact ⟨_, by rw [h']; rfl⟩
      · exact ⟨e', h'⟩
    · obtain ⟨e', h'⟩ := h.hasStartLine
      simp only [DCache.upd]; split
      · exact ⟨_, by rw [h']; rfl⟩
      · exact ⟨e', h'⟩
  · intro d hd
    cases d with
    | dmatch => trivial
    | st x =>
      obtain ⟨e', h'⟩ := hd
      simp only [Has, DCache.upd]
      split
      · exact ⟨_, by rw [h']; rfl⟩
      · exact ⟨e', h'⟩

theorem loop_spec {p : Prog} (hp : ProgOK p) (et : Bool) : ∀ (b : Bytes) (M : Matcher) (d : DRef) (i : Nat),
    MOK p M → Has M d → ∃ M', Matcher.loop p et M d i b = some (M', prun p et d i b) ∧ MOK p M' := by
  intro b
  induction b with
  | nil =>
    intro M d i hM hd
    rw [Matcher.loop, prun]
    cases d with
    | dmatch => exact ⟨M, by simp [Matcher.get, pNL], hM⟩
    | st k =>
      obtain ⟨e, he⟩ := hd
      refine ⟨M, ?_, hM⟩
      simp only [Matcher.get, he]
      rw [hM.cok.nl k e he id, hM.cok.eot k e he id]
  | cons c cs ih =>
    intro M d i hM hd
    rw [Matcher.loop.eq_def, prun]
    cases d with
    | dmatch =>
      simp only [Matcher.get]
      by_cases hc : c = NL
      · simp only [hc, if_true, pNL]
        exact ⟨M, rfl, hM⟩
      · simp only [hc, if_false, pstep]
        exact ih M .dmatch (i + 1) hM trivial
    | st k =>
      obtain ⟨e, he⟩ := hd
      have hnl := hM.cok.nl k e he id
      simp only [Matcher.get, he, pstep]
      cases hn : e.next c with
      | some d1 =>
        simp only
        have hhas : Has M d1 := by
          cases d1 with
          | dmatch => trivial
          | st k' => exact hM.cok.target k e c k' he hn
        obtain ⟨M', h1, h2⟩ := ih M d1 (i + 1) hM hhas
        refine ⟨M', ?_, h2⟩
        rw [h1]
        by_cases hc : c = NL
        · subst hc
          obtain ⟨hd1, hne⟩ := hM.cok.nextNL k e d1 he hn
          simp [hd1, hne, pNL]
        · rw [if_neg hc, hM.cok.next k e c d1 he hc hn]
          rfl
      | none =>
        simp only
        by_cases hc : c = NL
        · subst hc
          simp only [if_true, hnl]
          split
          · exact ⟨M, by simp [*], hM⟩
          · rename_i hdm
            obtain ⟨M1, h1, h2, h3, h4⟩ := setNext_ok hM he (c := NL) (d1 := .st M.startLine) hM.hasStartLine
              (fun _ => ⟨by rw [hM.startLine], by simpa [pNL] using hdm⟩) (fun h => absurd rfl h)
            rw [h1]
            simp only
            obtain ⟨M', h5, h6⟩ := ih M1 (.st M1.startLine) (i + 1) h2 h2.hasStartLine
            refine ⟨M', ?_, h6⟩
            rw [h5, h2.startLine]
        · simp only [if_neg hc]
          obtain ⟨r, hr, hkey⟩ := nextOf_key hp (hM.cok.key k e he) (some c)
          have hstep : ∃ m', withCache (cacheKey p p.states) M.dstate (some r) = some (m', r) ∧
              COK p (fun _ => False) m' ∧ Ext M.dstate m' ∧ (∀ k', r = .st k' → ∃ e, m' k' = some e) := by
            cases r with
            | dmatch => exact ⟨M.dstate, rfl, hM.cok, fun _ _ h => h, by simp⟩
            | st k' =>
              obtain ⟨m', h1, h2, h3, h4⟩ := cacheKey_spec hp p.states _ M.dstate k' hM.cok (hkey k' rfl)
                (missing_lt_states p _)
              refine ⟨m', by simp [withCache, h1], h2, h3, ?_⟩
              intro k'' h; cases h; exact h4
          obtain ⟨m', hw, hco, hext, hin⟩ := hstep
          rw [hr, hw]
          simp only
          have hM1 : MOK p { M with dstate := m' } := by
            refine ⟨hco, hM.start, hM.startLine, ?_, ?_⟩
            · obtain ⟨e', h'⟩ := hM.hasStart; exact ⟨e', hext _ _ h'⟩
            · obtain ⟨e', h'⟩ := hM.hasStartLine; exact ⟨e', hext _ _ h'⟩
          have hhas : Has { M with dstate := m' } r := by
            cases r with
            | dmatch => trivial
            | st k' => exact hin k' rfl
          obtain ⟨M2, h1, h2, h3, h4⟩ := setNext_ok hM1 (hext _ _ he) (c := c) (d1 := r) hhas
            (fun h => absurd h hc) (fun _ => hr)
          rw [h1]
          simp only
          obtain ⟨M', h5, h6⟩ := ih M2 r (i + 1) h2 (h4 r hhas)
          exact ⟨M', h5, h6⟩

/-- Whatever the cache holds, `match` computes the cache-free result. -/
theorem mrun_spec {p : Prog} (hp : ProgOK p) {M : Matcher} (hM : MOK p M) (b : Bytes) (bt et : Bool) :
    ∃ M', M.run p b bt et =
      some (M', prun p et (.st (if bt then startState p else startLineState p).enc) 0 b) ∧ MOK p M' := by
  unfold Matcher.run
  have hd : (if bt then DRef.st M.start else .st M.startLine) =
      .st (if bt then startState p else startLineState p).enc := by
    cases bt
    · simp [hM.startLine]
    · simp [hM.start]
  rw [hd]
  refine loop_spec hp et b M _ 0 hM ?_
  cases bt
  · simp only [Bool.false_eq_true, if_false]; rw [← hM.startLine]; exact hM.hasStartLine
  · simp only [if_true]; rw [← hM.start]; exact hM.hasStart

theorem calls_spec {p : Prog} (hp : ProgOK p) : ∀ (cs : List (Bytes × Bool × Bool)) (M : Matcher), MOK p M →
    ∃ M', M.calls p cs = some M' ∧ MOK p M' := by
  intro cs
  induction cs with
  | nil => intro M hM; exact ⟨M, rfl, hM⟩
  | cons a cs ih =>
    intro M hM
    obtain ⟨b, bt, et⟩ := a
    obtain ⟨M1, h1, h2⟩ := mrun_spec hp hM b bt et
    rw [Matcher.calls, h1]
    exact ih M1 h2

end Hound
