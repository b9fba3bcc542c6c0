import Verif.Model.Current
import Verif.Props.Searcher

namespace Hound.Cur
open Sr (Cfg PC)

variable {F : Type} {c : Cfg} {tree : Nat → F}

/-- The steps of the searcher among the events. -/
def srOf : List Ev → List Sr.Ev
  | [] => []
  | .sr e :: es => e :: srOf es
  | _ :: es => srOf es

theorem mem_srOf {e : Sr.Ev} : ∀ {es : List Ev}, e ∈ srOf es ↔ Ev.sr e ∈ es
  | [] => by simp [srOf]
  | .sr x :: es => by simp [srOf, mem_srOf (es := es)]
  | .changed r :: es => by simp [srOf, mem_srOf (es := es)]
  | .fetched r :: es => by simp [srOf, mem_srOf (es := es)]

theorem srOf_append : ∀ es fs : List Ev, srOf (es ++ fs) = srOf es ++ srOf fs
  | [], fs => rfl
  | .sr x :: es, fs => by simp [srOf, srOf_append es fs]
  | .changed r :: es, fs => by simp [srOf, srOf_append es fs]
  | .fetched r :: es, fs => by simp [srOf, srOf_append es fs]

theorem Step.sr_eq {s t : St F} {e : Sr.Ev} (h : Step c tree s (.sr e) t) : Sr.Step c s.sr e t.sr := by
  generalize hx : Ev.sr e = x at h
  cases h <;> simp at hx <;> subst hx <;> assumption

theorem Step.other_eq {s t : St F} {e : Ev} (h : Step c tree s e t) (hn : ∀ x, e ≠ .sr x) : t.sr = s.sr := by
  cases h <;> first | rfl | exact absurd rfl (hn _)

theorem Exec.sr_eq {s t : St F} {es : List Ev} (h : Exec c tree s es t) : Sr.Exec c s.sr (srOf es) t.sr := by
  induction h with
  | nil s => exact .nil _
  | @cons s t u e es h1 _ ih =>
    cases e with
    | sr x => exact .cons h1.sr_eq ih
    | changed r => rw [h1.other_eq (by simp)] at ih; exact ih
    | fetched r => rw [h1.other_eq (by simp)] at ih; exact ih

theorem Exec.append {s t u : St F} {es fs : List Ev} (h : Exec c tree s es t) (h' : Exec c tree t fs u) : Exec c tree s (es ++ fs) u := by
  induction h with
  | nil s => exact h'
  | cons hs _ ih => exact .cons hs (ih h')

theorem Run.append {rev : Nat} {s t : St F} {es fs : List Ev} (h : Run c tree rev es s) (h' : Exec c tree s fs t) :
    Run c tree rev (es ++ fs) t := by
  obtain ⟨s0, h0, h1⟩ := h
  exact ⟨s0, h0, h1.append h'⟩

theorem Run.sr_eq {rev : Nat} {s : St F} {es : List Ev} (h : Run c tree rev es s) : Sr.Run c rev (srOf es) s.sr := by
  obtain ⟨s0, ⟨h0, _⟩, h1⟩ := h
  have := h1.sr_eq
  rw [h0] at this
  exact this

/-- A property that every step with such an event keeps. -/
theorem Exec.keepE {P : St F → Prop} {Q : Ev → Prop} (hstep : ∀ s e t, Step c tree s e t → Q e → P s → P t) {s t : St F} {es : List Ev}
    (h : Exec c tree s es t) (hq : ∀ e ∈ es, Q e) (hs : P s) : P t := by
  induction h with
  | nil => exact hs
  | cons h1 _ ih =>
    exact ih (fun e he => hq e (List.mem_cons_of_mem _ he)) (hstep _ _ _ h1 (hq _ (List.mem_cons_self ..)) hs)

/-! ## Every index has the files of its revision -/

structure Truthful (tree : Nat → F) (s : St F) : Prop where
  files : ∀ h, h < s.sr.count → s.files h = tree (s.sr.handles h).rev
  copy : ∀ r, s.sr.pc = .building r → s.copy = tree r

theorem destroy_rev {h h' : Sr.Handle} {ok : Bool} (d : Sr.Destroy h ok h') : h'.rev = h.rev := by
  cases d <;> rfl

theorem setHandle_rev {s : Sr.St} {o : Nat} {h : Sr.Handle} (hr : h.rev = (s.handles o).rev) (j : Nat) :
    (Sr.setHandle s o h j).rev = (s.handles j).rev := by
  unfold Sr.setHandle
  split
  · next e => rw [hr, e]
  · rfl

theorem Truthful.step {s t : St F} {e : Ev} (h : Step c tree s e t) (hs : Truthful tree s) : Truthful tree t := by
  obtain ⟨h1, h2⟩ := hs
  cases h with
  | changed r => exact ⟨h1, h2⟩
  | fetched a b => exact ⟨h1, h2⟩
  | check t a => cases a; exact ⟨h1, by simp⟩
  | pulled r t a b =>
    cases a with
    | pullSame a => exact ⟨h1, by simp⟩
    | pullNew r a b => exact ⟨h1, by simp⟩
  | pullFails t x a => cases a; exact ⟨h1, by simp⟩
  | built t a =>
    cases a with
    | buildOk r a =>
      refine ⟨fun h hh => ?_, by simp⟩
      by_cases he : h = s.sr.count
      · subst he; simpa [Sr.setHandle] using h2 r a
      · have hh : h < s.sr.count + 1 := hh
        simp only [he, if_false, Sr.setHandle]
        exact h1 h (by omega)
  | other e t a n1 n2 n3 =>
    cases a
    case destroyed o n ok hd a d =>
      refine ⟨fun h hh => ?_, ?_⟩
      · show s.files h = tree (Sr.setHandle s.sr o hd h).rev
        rw [setHandle_rev (destroy_rev d)]; exact h1 h hh
      · cases ok <;> simp
    case undo n ok hd a b d =>
      refine ⟨fun h hh => ?_, by simp⟩
      show s.files h = tree (Sr.setHandle s.sr n hd h).rev
      rw [setHandle_rev (destroy_rev d)]; exact h1 h hh
    all_goals first
      | exact absurd rfl n1
      | exact absurd rfl n3
      | exact absurd rfl (n2 _)
      | exact ⟨h1, h2⟩
      | exact ⟨h1, by simp⟩

theorem Run.truthful {rev : Nat} {es : List Ev} {s : St F} (h : Run c tree rev es s) : Truthful tree s := by
  obtain ⟨s0, ⟨h0, _, h2⟩, h1⟩ := h
  refine h1.keepE (Q := fun _ => True) (fun _ _ _ hs _ => Truthful.step hs) (fun _ _ => trivial) ⟨fun h _ => ?_, ?_⟩
  · rw [h2, h0]; rfl
  · rw [h0]; simp [Sr.St.init]

/-! ## Revisions that are served, or will be -/

/-- Only these revisions are served or on their way to be. -/
structure Only (R : Nat → Prop) (s : St F) : Prop where
  live : R (s.sr.handles s.sr.live).rev
  fetched : ∀ r, s.fetched = some r → R r
  building : ∀ r, s.sr.pc = .building r → R r
  swapping : ∀ n, s.sr.pc = .swapping n → R (s.sr.handles n).rev

/-- The same, but the index of such a revision may still be under way. -/
structure Soon (R : Nat → Prop) (s : St F) : Prop where
  live : R (s.sr.handles s.sr.live).rev ∨ (∃ r, s.sr.pc = .building r) ∨ ∃ n, s.sr.pc = .swapping n
  fetched : ∀ r, s.fetched = some r → R r
  building : ∀ r, s.sr.pc = .building r → R r
  swapping : ∀ n, s.sr.pc = .swapping n → R (s.sr.handles n).rev

theorem Soon.step {R : Nat → Prop} {s t : St F} {e : Ev} (h : Step c tree s e t) (hi : Sr.Inv s.sr) (hq : e ≠ .sr (.built false))
    (hR : ∀ r, e = .fetched r → R r) (hs : Soon R s) : Soon R t := by
  obtain ⟨h1, h2, h3, h4⟩ := hs
  cases h with
  | changed r => exact ⟨h1, h2, h3, h4⟩
  | fetched a b => exact ⟨h1, fun r hr => hR r (by cases hr; rfl), h3, h4⟩
  | check t a =>
    cases a with
    | check a => exact ⟨Or.inl (by simpa [a] using h1), by simp, by simp, by simp⟩
  | pulled r t a b =>
    cases a with
    | pullSame a => exact ⟨Or.inl (by simpa [a] using h1), h2, by simp, by simp⟩
    | pullNew r a _ => exact ⟨Or.inl (by simpa [a] using h1), h2, fun x hx => by cases hx; exact h2 _ b, by simp⟩
  | pullFails t x a =>
    cases a with
    | pullFails a => exact ⟨Or.inl (by simpa [a] using h1), h2, by simp, by simp⟩
  | built t a =>
    cases a with
    | buildOk r a =>
      refine ⟨Or.inr (Or.inr ⟨_, rfl⟩), h2, by simp, fun n hn => ?_⟩
      cases hn
      simpa [Sr.setHandle] using h3 r a
  | other e t a n1 n2 n3 =>
    cases a
    case destroyed o n ok hd a d =>
      have h1 : R (s.sr.handles s.sr.live).rev := by simpa [a] using h1
      refine ⟨Or.inl ?_, h2, ?_, ?_⟩
      · show R (Sr.setHandle s.sr o hd s.sr.live).rev
        rw [setHandle_rev (destroy_rev d)]; exact h1
      · cases ok <;> simp
      · cases ok <;> simp
    case undo n ok hd a b d =>
      have h1 : R (s.sr.handles s.sr.live).rev := by simpa [a] using h1
      refine ⟨Or.inl ?_, h2, by simp, by simp⟩
      show R (Sr.setHandle s.sr n hd s.sr.live).rev
      rw [setHandle_rev (destroy_rev d)]; exact h1
    case swapLock n a b => exact ⟨Or.inl (h4 n a), h2, by simp, by simp⟩
    all_goals first
      | exact absurd rfl n1
      | exact absurd rfl n3
      | exact absurd rfl (n2 _)
      | exact absurd rfl hq
      | exact ⟨h1, h2, h3, h4⟩
      | (refine ⟨Or.inl ?_, h2, by simp, by simp⟩; simp_all)

theorem Only.step {R : Nat → Prop} {s t : St F} {e : Ev} (h : Step c tree s e t) (hi : Sr.Inv s.sr)
    (hR : ∀ r, e = .fetched r → R r) (hs : Only R s) : Only R t := by
  by_cases hq : e = .sr (.built false)
  · subst hq
    obtain ⟨h1, h2, h3, h4⟩ := hs
    generalize hx : Ev.sr (.built false) = e at h
    cases h <;> simp at hx
    case other a b d f g =>
      subst hx
      cases b
      exact ⟨h1, h2, by simp, by simp⟩
  · have := Soon.step h hi hq hR ⟨Or.inl hs.live, hs.2, hs.3, hs.4⟩
    refine ⟨?_, this.2, this.3, this.4⟩
    obtain ⟨h1, h2, h3, h4⟩ := hs
    have hl := hi.live
    cases h with
    | changed r => exact h1
    | fetched a b => exact h1
    | check t a => cases a; exact h1
    | pulled r t a b => cases a <;> exact h1
    | pullFails t x a => cases a; exact h1
    | built t a =>
      cases a with
      | buildOk r a =>
        show R (Sr.setHandle s.sr s.sr.count ⟨r, true, true⟩ s.sr.live).rev
        unfold Sr.setHandle
        rw [if_neg (by omega)]; exact h1
    | other e t a n1 n2 n3 =>
      cases a
      case destroyed o n ok hd a d =>
        show R (Sr.setHandle s.sr o hd s.sr.live).rev
        rw [setHandle_rev (destroy_rev d)]; exact h1
      case undo n ok hd a b d =>
        show R (Sr.setHandle s.sr n hd s.sr.live).rev
        rw [setHandle_rev (destroy_rev d)]; exact h1
      case swapLock n a b => exact h4 n a
      all_goals first
        | exact absurd rfl n1
        | exact absurd rfl n3
        | exact absurd rfl (n2 _)
        | exact h1

theorem Only.mono {R R' : Nat → Prop} (h : ∀ r, R r → R' r) {s : St F} (hs : Only R s) : Only R' s :=
  ⟨h _ hs.live, fun r hr => h _ (hs.fetched r hr), fun r hr => h _ (hs.building r hr), fun n hn => h _ (hs.swapping n hn)⟩

theorem Only.exec {R : Nat → Prop} {s t : St F} {es : List Ev} (h : Exec c tree s es t) (hi : Sr.Inv s.sr)
    (hR : ∀ r, Ev.fetched r ∈ es → R r) (hs : Only R s) : Only R t := by
  induction h with
  | nil => exact hs
  | @cons s t u e es h1 _ ih =>
    refine ih ?_ (fun r hr => hR r (List.mem_cons_of_mem _ hr)) (Only.step h1 hi (fun r hr => hR r (by rw [hr]; exact List.mem_cons_self ..)) hs)
    cases e with
    | sr x => exact Sr.Inv.step h1.sr_eq hi
    | changed r => rw [h1.other_eq (by simp)]; exact hi
    | fetched r => rw [h1.other_eq (by simp)]; exact hi

theorem inv_step {s t : St F} {e : Ev} (h1 : Step c tree s e t) (hi : Sr.Inv s.sr) : Sr.Inv t.sr := by
  cases e with
  | sr x => exact Sr.Inv.step h1.sr_eq hi
  | changed r => rw [h1.other_eq (by simp)]; exact hi
  | fetched r => rw [h1.other_eq (by simp)]; exact hi

theorem Soon.exec {R : Nat → Prop} {s t : St F} {es : List Ev} (h : Exec c tree s es t) (hi : Sr.Inv s.sr) (hb : Ev.sr (.built false) ∉ es)
    (hR : ∀ r, Ev.fetched r ∈ es → R r) (hs : Soon R s) : Soon R t := by
  induction h with
  | nil => exact hs
  | @cons s t u e es h1 _ ih =>
    exact ih (inv_step h1 hi) (fun hh => hb (List.mem_cons_of_mem _ hh)) (fun r hr => hR r (List.mem_cons_of_mem _ hr))
      (Soon.step h1 hi (fun hh => hb (by rw [hh]; exact List.mem_cons_self ..)) (fun r hr => hR r (by rw [hr]; exact List.mem_cons_self ..)) hs)

/-- At the end of a check nothing is under way. -/
theorem Soon.release {R : Nat → Prop} {s t : St F} (h : Step c tree s (.sr .release) t) (hs : Soon R s) : Only R t := by
  obtain ⟨h1, h2, h3, h4⟩ := hs
  generalize hx : Ev.sr .release = e at h
  cases h <;> simp at hx
  case other e t a n1 n2 n3 =>
    subst hx
    cases a with
    | release res a => exact ⟨by simpa [a] using h1, h2, by simp, by simp⟩

/-- When a check reports this revision. -/
theorem Soon.pulled {s t : St F} {r : Nat} (h : Step c tree s (.sr (.pulled (some r))) t) (hc : Sr.Clean s.sr) : Soon (· = r) t := by
  generalize hx : Ev.sr (.pulled (some r)) = e at h
  cases h <;> simp at hx
  case pulled r' t a b =>
    subst hx
    cases a with
    | pullSame a =>
      refine ⟨Or.inl (hc.rev (by simp [a]) (by simp [a])).symm, fun x hx => ?_, by simp, by simp⟩
      exact Option.some.inj (hx.symm.trans b)
    | pullNew _ a hne =>
      refine ⟨Or.inr (Or.inl ⟨_, rfl⟩), fun x hx => Option.some.inj (hx.symm.trans b), fun x hx => ?_, by simp⟩
      cases hx; rfl
  case other a b d f g => subst hx; exact absurd rfl (f _)

end Hound.Cur
