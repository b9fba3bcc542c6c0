import Verif.Proofs.Thompson

/-! # Every expression has a program of the shape `syntax.Compile` builds -/

namespace Hound
open Spec

/-- Where an instruction continues. -/
def nextsOf : Inst → List Nat
  | .nop out | .capture out | .empty _ out | .byteRange _ _ _ out | .rune _ _ out | .rune1 _ out
  | .runeAny out | .runeAnyNotNL out => [out]
  | .alt out arg | .altMatch out arg => [out, arg]
  | .fail | .accept => []

theorem thompson_append {orbit : Rune → List Rune} {X : List Inst} (Z : List Inst) {re : Re} {e k : Nat}
    (h : Thompson orbit X re e k) : Thompson orbit (X ++ Z) re e k := by
  have up : ∀ {n : Nat} {i : Inst}, X[n]? = some i → (X ++ Z)[n]? = some i := by
    intro n i h
    rw [List.getElem?_append_left (List.getElem?_eq_some_iff.mp h).1, h]
  induction h with
  | fail h => exact .fail (up h)
  | emptyMatch => exact .emptyMatch
  | skip h hi _ ih => exact .skip (up h) hi ih
  | skipEnd h hi _ ih => exact .skipEnd (up h) hi ih
  | litNil => exact .litNil
  | litCons h ho hr _ ih => exact .litCons (up h) ho hr ih
  | charClass h ho hr => exact .charClass (up h) ho hr
  | anyCharNotNL h ho hr => exact .anyCharNotNL (up h) ho hr
  | anyChar h ho hr => exact .anyChar (up h) ho hr
  | beginLine h => exact .beginLine (up h)
  | endLine h => exact .endLine (up h)
  | beginText h => exact .beginText (up h)
  | endText h => exact .endText (up h)
  | wordBoundary h => exact .wordBoundary (up h)
  | noWordBoundary h => exact .noWordBoundary (up h)
  | capture _ ih => exact .capture ih
  | star h hi _ ih => exact .star (up h) hi ih
  | plus h hi _ ih => exact .plus (up h) hi ih
  | quest h hi _ ih => exact .quest (up h) hi ih
  | concatNil => exact .concatNil
  | concatCons _ _ ih1 ih2 => exact .concatCons ih1 ih2
  | altNil h => exact .altNil (up h)
  | altOne _ ih => exact .altOne ih
  | altCons h hi _ _ ih1 ih2 => exact .altCons (up h) hi ih1 ih2
  | simplify h _ ih => exact .simplify h ih

/-- A fragment for `re` can be put behind any `n` instructions, for any exit. -/
def Buildable (orbit : Rune → List Rune) (re : Re) : Prop :=
  ∀ n k, ∃ Y e, (e < n + Y.length ∨ e = k) ∧
    (∀ i ∈ Y, ∀ t ∈ nextsOf i, t < n + Y.length ∨ t = k) ∧
    ∀ X : List Inst, X.length = n → Thompson orbit (X ++ Y) re e k

variable {orbit : Rune → List Rune}

theorem last_get {X : List Inst} {n : Nat} (h : X.length = n) (i : Inst) : (X ++ [i])[n]? = some i := by
  rw [List.getElem?_append_right (by omega)]; simp [h]

theorem buildable_one {re : Re} (i : Nat → Inst) (hn : ∀ k, ∀ t ∈ nextsOf (i k), t = k)
    (h : ∀ X e k, X[e]? = some (i k) → Thompson orbit X re e k) : Buildable orbit re := by
  intro n k
  refine ⟨[i k], n, by simp, ?_, ?_⟩
  · intro j hj t ht
    simp only [List.mem_singleton] at hj
    subst hj
    exact .inr (hn k t ht)
  · intro X hX
    exact h _ _ _ (last_get hX _)

theorem buildable_none {re : Re} (h : ∀ X k, Thompson orbit X re k k) : Buildable orbit re :=
  fun n k => ⟨[], k, .inr rfl, by simp, fun X _ => h _ _⟩

theorem buildable_simplify {re re' : Re} (h : ∀ w i j, MatchAt orbit w re i j ↔ MatchAt orbit w re' i j)
    (hb : Buildable orbit re') : Buildable orbit re := by
  intro n k
  obtain ⟨Y, e, h1, h2, h3⟩ := hb n k
  exact ⟨Y, e, h1, h2, fun X hX => .simplify h (h3 X hX)⟩

/-- One fragment after the other. -/
theorem buildable_seq {r1 r2 re : Re} (h1 : Buildable orbit r1) (h2 : Buildable orbit r2)
    (h : ∀ X e m k, Thompson orbit X r1 e m → Thompson orbit X r2 m k → Thompson orbit X re e k) :
    Buildable orbit re := by
  intro n k
  obtain ⟨Y2, m, a1, a2, a3⟩ := h2 n k
  obtain ⟨Y1, e, b1, b2, b3⟩ := h1 (n + Y2.length) m
  refine ⟨Y2 ++ Y1, e, ?_, ?_, ?_⟩
  · rw [List.length_append]; omega
  · intro i hi t ht
    rw [List.length_append]
    rcases List.mem_append.mp hi with hi | hi
    · have := a2 i hi t ht; omega
    · have := b2 i hi t ht; omega
  · intro X hX
    have c2 := thompson_append Y1 (a3 X hX)
    have c1 := b3 (X ++ Y2) (by rw [List.length_append, hX])
    rw [List.append_assoc] at c1 c2
    exact h _ _ _ _ c1 c2

theorem buildable_literal {fold : Bool} : ∀ rs : List Rune, Buildable orbit (.literal rs fold)
  | [] => buildable_none fun _ _ => .litNil
  | r :: rs => by
    intro n k
    obtain ⟨Y, m, a1, a2, a3⟩ := buildable_literal (fold := fold) rs n k
    refine ⟨Y ++ [.rune [r] fold m], n + Y.length, .inl (by simp), ?_, ?_⟩
    · intro i hi t ht
      rw [List.length_append]
      rcases List.mem_append.mp hi with hi | hi
      · have := a2 i hi t ht; omega
      · simp only [List.mem_singleton] at hi
        subst hi
        simp only [nextsOf, List.mem_singleton] at ht
        subst ht
        omega
    · intro X hX
      have := thompson_append [.rune [r] fold m] (a3 X hX)
      rw [← List.append_assoc]
      exact .litCons (last_get (by rw [List.length_append, hX]) _) rfl (fun x => Iff.rfl) this

/-- Range bounds, flattened as in Go. -/
def flatRanges : List (Rune × Rune) → List Rune
  | [] => []
  | p :: ps => p.1 :: p.2 :: flatRanges ps

theorem rangePairs_flat : ∀ ps : List (Rune × Rune), rangePairs (flatRanges ps) = ps
  | [] => rfl
  | p :: ps => by simp [flatRanges, rangePairs, rangePairs_flat ps]

theorem instHas_flat {ps : List (Rune × Rune)} {out : Nat} {x : Rune} :
    InstHas orbit (.rune (flatRanges ps) false out) x ↔ ∃ p ∈ ps, p.1 ≤ x ∧ x ≤ p.2 := by
  have : InstHas orbit (.rune (flatRanges ps) false out) x ↔ ∃ p ∈ rangePairs (flatRanges ps), p.1 ≤ x ∧ x ≤ p.2 := by
    cases ps with
    | nil => exact Iff.rfl
    | cons p ps => exact Iff.rfl
  rw [this, rangePairs_flat]

/-- A fragment with one branching instruction in front of it, to which it returns. -/
theorem buildable_loop {r re : Re} (hr : Buildable orbit r) (plus : Bool)
    (h : ∀ X e l k, X[l]? = some (.alt e k) → Thompson orbit X r e l → Thompson orbit X re (if plus then e else l) k) :
    Buildable orbit re := by
  intro n k
  obtain ⟨Y, e, a1, a2, a3⟩ := hr (n + 1) n
  refine ⟨.alt e k :: Y, if plus then e else n, ?_, ?_, ?_⟩
  · rw [List.length_cons]; split <;> omega
  · intro i hi t ht
    rw [List.length_cons]
    rcases List.mem_cons.mp hi with rfl | hi
    · simp only [nextsOf, List.mem_cons, List.not_mem_nil, or_false] at ht
      omega
    · have := a2 i hi t ht; omega
  · intro X hX
    have hc := a3 (X ++ [.alt e k]) (by rw [List.length_append, hX]; rfl)
    have e1 : X ++ [.alt e k] ++ Y = X ++ .alt e k :: Y := by simp
    rw [e1] at hc
    refine h _ _ _ _ ?_ hc
    rw [List.getElem?_append_right (by omega)]; simp [hX]

/-- A branching instruction behind one fragment, or two. -/
theorem buildable_branch {r1 r2 re : Re} (h1 : Buildable orbit r1) (h2 : Buildable orbit r2)
    (h : ∀ X l e e' k, X[l]? = some (.alt e e') → Thompson orbit X r1 e k → Thompson orbit X r2 e' k →
      Thompson orbit X re l k) : Buildable orbit re := by
  intro n k
  obtain ⟨Y1, e1, a1, a2, a3⟩ := h1 n k
  obtain ⟨Y2, e2, b1, b2, b3⟩ := h2 (n + Y1.length) k
  refine ⟨Y1 ++ Y2 ++ [.alt e1 e2], n + (Y1.length + Y2.length), .inl (by simp), ?_, ?_⟩
  · intro i hi t ht
    simp only [List.length_append, List.length_singleton]
    rcases List.mem_append.mp hi with hi | hi
    · rcases List.mem_append.mp hi with hi | hi
      · have := a2 i hi t ht; omega
      · have := b2 i hi t ht; omega
    · simp only [List.mem_singleton] at hi
      subst hi
      simp only [nextsOf, List.mem_cons, List.not_mem_nil, or_false] at ht
      omega
  · intro X hX
    have c1 := thompson_append [.alt e1 e2] (thompson_append Y2 (a3 X hX))
    have c2 := thompson_append [.alt e1 e2] (b3 (X ++ Y1) (by rw [List.length_append, hX]))
    have e0 : X ++ Y1 ++ Y2 ++ [.alt e1 e2] = X ++ (Y1 ++ Y2 ++ [.alt e1 e2]) := by simp
    rw [e0] at c1 c2
    refine h _ _ _ _ _ ?_ c1 c2
    rw [← e0, List.getElem?_append_right (by simp; omega)]
    simp [hX]

theorem buildable_concat : ∀ {rs : List Re}, (∀ r ∈ rs, Buildable orbit r) → Buildable orbit (.concat rs)
  | [], _ => buildable_none fun _ _ => .concatNil
  | r :: rs, h => buildable_seq (h r (by simp)) (buildable_concat (fun x hx => h x (by simp [hx])))
      fun _ _ _ _ => .concatCons

theorem buildable_alternate : ∀ {rs : List Re}, (∀ r ∈ rs, Buildable orbit r) → Buildable orbit (.alternate rs)
  | [], _ => buildable_one (fun _ => .fail) (by simp [nextsOf]) fun _ _ _ h => .altNil h
  | r :: rs, h => buildable_branch (h r (by simp)) (buildable_alternate (fun x hx => h x (by simp [hx])))
      fun _ _ _ _ _ h => .altCons h (.inl rfl)

theorem buildable_star {r : Re} (h : Buildable orbit r) : Buildable orbit (.star r) :=
  buildable_loop h false fun _ _ _ _ h hf => .star h (.inl rfl) hf

theorem buildable_plus {r : Re} (h : Buildable orbit r) : Buildable orbit (.plus r) :=
  buildable_loop h true fun _ _ _ _ h hf => .plus h (.inl rfl) hf

theorem buildable_quest {r : Re} (h : Buildable orbit r) : Buildable orbit (.quest r) := by
  have hx : Buildable orbit (.alternate [r, .emptyMatch]) := buildable_alternate (by
    intro x hx
    simp only [List.mem_cons, List.not_mem_nil, or_false] at hx
    rcases hx with rfl | rfl
    · exact h
    · exact buildable_none fun _ _ => .emptyMatch)
  refine buildable_simplify (fun w i j => ?_) hx
  simp only [MatchAt, AlternateAt, or_false]
  exact Or.comm

theorem concatAt_append {w : Bytes} : ∀ {xs ys : List Re} {i j : Nat},
    ConcatAt orbit w (xs ++ ys) i j ↔ ∃ k, ConcatAt orbit w xs i k ∧ ConcatAt orbit w ys k j
  | [], ys, i, j => by simp [ConcatAt]
  | x :: xs, ys, i, j => by
    simp only [List.cons_append, ConcatAt, concatAt_append (xs := xs)]
    constructor
    · rintro ⟨a, h1, b, h2, h3⟩; exact ⟨b, ⟨a, h1, h2⟩, h3⟩
    · rintro ⟨b, ⟨a, h1, h2⟩, h3⟩; exact ⟨a, h1, b, h2, h3⟩

theorem concatAt_replicate {w : Bytes} {r : Re} : ∀ {n : Nat} {i j : Nat},
    ConcatAt orbit w (List.replicate n r) i j ↔ Iter (MatchAt orbit w r) n i j
  | 0, i, j => by simp [ConcatAt, Iter]
  | n + 1, i, j => by simp only [List.replicate_succ, ConcatAt, Iter, concatAt_replicate]

theorem iter_quest {w : Bytes} {r : Re} : ∀ {m : Nat} {i j : Nat},
    Iter (MatchAt orbit w (.quest r)) m i j ↔ ∃ n, n ≤ m ∧ Iter (MatchAt orbit w r) n i j
  | 0, i, j => by
    simp only [Iter]
    constructor
    · rintro rfl; exact ⟨0, Nat.le_refl _, rfl⟩
    · rintro ⟨n, hn, h⟩
      have : n = 0 := by omega
      subst this; exact h
  | m + 1, i, j => by
    have hq : ∀ a b, MatchAt orbit w (.quest r) a b ↔ a = b ∨ MatchAt orbit w r a b := fun a b => by
      simp only [MatchAt]
    simp only [Iter, iter_quest (m := m), hq]
    constructor
    · rintro ⟨k, hk, n, hn, h⟩
      rcases hk with rfl | hk
      · exact ⟨n, by omega, h⟩
      · exact ⟨n + 1, by omega, k, hk, h⟩
    · rintro ⟨n, hn, h⟩
      cases n with
      | zero => simp only [Iter] at h; subst h; exact ⟨i, .inl rfl, 0, by omega, rfl⟩
      | succ n =>
        obtain ⟨k, h1, h2⟩ := h
        exact ⟨k, .inr h1, n, by omega, h2⟩

theorem iter_add {R : Nat → Nat → Prop} : ∀ {a b i j : Nat}, Iter R (a + b) i j ↔ ∃ k, Iter R a i k ∧ Iter R b k j
  | 0, b, i, j => by simp [Iter]
  | a + 1, b, i, j => by
    rw [show a + 1 + b = (a + b) + 1 by omega]
    simp only [Iter, iter_add (a := a)]
    constructor
    · rintro ⟨x, h1, y, h2, h3⟩; exact ⟨y, ⟨x, h1, h2⟩, h3⟩
    · rintro ⟨y, ⟨x, h1, h2⟩, h3⟩; exact ⟨x, h1, y, h2, h3⟩

/-- What `Simplify` does with a repetition. -/
def unroll (r : Re) (lo : Nat) : Option Nat → Re
  | none => .concat (List.replicate lo r ++ [.star r])
  | some hi => if lo ≤ hi then .concat (List.replicate lo r ++ List.replicate (hi - lo) (.quest r)) else .noMatch

theorem unroll_match {r : Re} {lo : Nat} {hi : Option Nat} {w : Bytes} {i j : Nat} :
    MatchAt orbit w (.rep r lo hi) i j ↔ MatchAt orbit w (unroll r lo hi) i j := by
  cases hi with
  | none =>
    simp only [unroll, MatchAt, concatAt_append, concatAt_replicate]
    simp only [ConcatAt, MatchAt]
    constructor
    · rintro ⟨n, h1, _, h2⟩
      rw [show n = lo + (n - lo) by omega] at h2
      obtain ⟨k, h3, h4⟩ := iter_add.mp h2
      exact ⟨k, h3, j, ⟨_, h4⟩, rfl⟩
    · rintro ⟨k, h3, j', ⟨m, h4⟩, rfl⟩
      exact ⟨lo + m, by omega, by simp, iter_add.mpr ⟨k, h3, h4⟩⟩
  | some hi =>
    simp only [unroll]
    split
    · rw [MatchAt, MatchAt]
      simp only [concatAt_append, concatAt_replicate, iter_quest]
      constructor
      · rintro ⟨n, h1, h0, h2⟩
        have := h0 hi rfl
        rw [show n = lo + (n - lo) by omega] at h2
        obtain ⟨k, h3, h4⟩ := iter_add.mp h2
        exact ⟨k, h3, n - lo, by omega, h4⟩
      · rintro ⟨k, h3, m, hm, h4⟩
        exact ⟨lo + m, by omega, by intro h hh; cases hh; omega, iter_add.mpr ⟨k, h3, h4⟩⟩
    · simp only [MatchAt, iff_false]
      rintro ⟨n, h1, h0, _⟩
      have := h0 hi rfl
      omega

mutual
theorem buildable : ∀ re : Re, Buildable orbit re
  | .noMatch => buildable_one (fun _ => .fail) (by simp [nextsOf]) fun _ _ _ h => .fail h
  | .emptyMatch => buildable_none fun _ _ => .emptyMatch
  | .literal rs fold => buildable_literal rs
  | .charClass ranges => buildable_one (fun k => .rune (flatRanges ranges) false k) (by simp [nextsOf])
      fun _ _ _ h => .charClass h rfl (fun _ => instHas_flat)
  | .anyCharNotNL => buildable_one (fun k => .runeAnyNotNL k) (by simp [nextsOf])
      fun _ _ _ h => .anyCharNotNL h rfl (fun _ => Iff.rfl)
  | .anyChar => buildable_one (fun k => .runeAny k) (by simp [nextsOf]) fun _ _ _ h => .anyChar h rfl (fun _ => trivial)
  | .beginLine => buildable_one (fun k => .empty { bol := true } k) (by simp [nextsOf]) fun _ _ _ h => .beginLine h
  | .endLine => buildable_one (fun k => .empty { eol := true } k) (by simp [nextsOf]) fun _ _ _ h => .endLine h
  | .beginText => buildable_one (fun k => .empty { bot := true } k) (by simp [nextsOf]) fun _ _ _ h => .beginText h
  | .endText => buildable_one (fun k => .empty { eot := true } k) (by simp [nextsOf]) fun _ _ _ h => .endText h
  | .wordBoundary => buildable_one (fun k => .empty { wb := true } k) (by simp [nextsOf])
      fun _ _ _ h => .wordBoundary h
  | .noWordBoundary => buildable_one (fun k => .empty { nwb := true } k) (by simp [nextsOf])
      fun _ _ _ h => .noWordBoundary h
  | .capture r => buildable_simplify (fun w i j => by simp only [MatchAt]) (buildable r)
  | .star r => buildable_star (buildable r)
  | .plus r => buildable_plus (buildable r)
  | .quest r => buildable_quest (buildable r)
  | .rep r lo hi => by
    refine buildable_simplify (fun w i j => unroll_match) ?_
    cases hi with
    | none =>
      refine buildable_concat ?_
      intro x hx
      rcases List.mem_append.mp hx with hx | hx
      · rw [List.eq_of_mem_replicate hx]; exact buildable r
      · rw [List.mem_singleton] at hx; subst hx; exact buildable_star (buildable r)
    | some hi =>
      simp only [unroll]
      split
      · refine buildable_concat ?_
        intro x hx
        rcases List.mem_append.mp hx with hx | hx
        · rw [List.eq_of_mem_replicate hx]; exact buildable r
        · rw [List.eq_of_mem_replicate hx]; exact buildable_quest (buildable r)
      · exact buildable_one (fun _ => .fail) (by simp [nextsOf]) fun _ _ _ h => .fail h
  | .concat rs => buildable_concat (buildableL rs)
  | .alternate rs => buildable_alternate (buildableL rs)
theorem buildableL : ∀ (rs : List Re) (r : Re), r ∈ rs → Buildable orbit r
  | [], r, h => by simp at h
  | x :: xs, r, h => by
    rcases List.mem_cons.mp h with e | e
    · rw [e]; exact buildable x
    · exact buildableL xs r e
end

/-- For every expression there is a program built like the one of `syntax.Compile`, with all targets in range. -/
theorem exists_compiles (orbit : Rune → List Rune) (re : Re) :
    ∃ p, Compiles orbit re p ∧ p.start < p.inst.length ∧ ∀ i ∈ p.inst, ∀ t ∈ nextsOf i, t < p.inst.length := by
  obtain ⟨Y, e, h1, h2, h3⟩ := buildable (orbit := orbit) re 1 0
  refine ⟨⟨.accept :: Y, e⟩, ⟨0, h3 [.accept] rfl, rfl⟩, ?_, ?_⟩
  · simp only [List.length_cons]; omega
  · intro i hi t ht
    simp only [List.length_cons]
    rcases List.mem_cons.mp hi with rfl | hi
    · simp [nextsOf] at ht
    · have := h2 i hi t ht; omega

end Hound
