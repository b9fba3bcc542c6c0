import Verif.Proofs.Current
import Verif.Spec.Current

/-!
# C90: what is searched is the repository as it was when it was last checked
-/

namespace Hound.Cur
open Spec
open Sr (Cfg PC)

variable {F : Type} {c : Cfg} {tree : Nat → F}

theorem searchEnd_eq {s t : St F} {i r h : Nat} (h1 : Step c tree s (.sr (.searchEnd i r h)) t) :
    (i, some h) ∈ s.sr.searches ∧ r = (s.sr.handles h).rev := by
  have := h1.sr_eq
  generalize t.sr = u at this
  generalize hx : Sr.Ev.searchEnd i r h = e at this
  cases this <;> simp at hx
  case searchEnd j k a =>
    obtain ⟨rfl, rfl, rfl⟩ := hx
    exact ⟨a, rfl⟩

/-- **C90, truth.** Every answer is made from the files of the revision it names, and the repository was at that revision when it was
checked. -/
theorem answers_true {rev : Nat} {es : List Ev} {s t : St F} {i r h : Nat} (h0 : Run c tree rev es s)
    (h1 : Step c tree s (.sr (.searchEnd i r h)) t) : s.files h = tree r ∧ (r = rev ∨ Ev.fetched r ∈ es) := by
  obtain ⟨hm, hr⟩ := searchEnd_eq h1
  have hi := h0.sr_eq.inv
  have hl := hi.searches i h hm
  have ht := h0.truthful
  refine ⟨by rw [hr]; exact ht.files h (by rw [hl]; exact hi.live), ?_⟩
  obtain ⟨s0, ⟨e1, e2, _⟩, hx⟩ := h0
  have ho : Only (fun r => r = rev ∨ Ev.fetched r ∈ es) s :=
    Only.exec hx (by rw [e1]; exact Sr.Inv.init rev) (fun r hr => Or.inr hr)
      ⟨by rw [e1]; exact Or.inl rfl, by rw [e2]; simp, by rw [e1]; simp [Sr.St.init], by rw [e1]; simp [Sr.St.init]⟩
  rw [hr, hl]
  exact ho.live

/-- What a search that starts now will be made from. -/
theorem answersFrom_live {rev : Nat} {es : List Ev} {s : St F} (h0 : Run c tree rev es s) :
    AnswersFrom c tree s (s.sr.handles s.sr.live).rev := by
  intro i s1 es1 s2 r' h s3 h1 h2 hn h3
  have h4 := Sr.search_one_index h0.sr_eq h1.sr_eq h2.sr_eq (fun r h hh => hn r h (mem_srOf.1 hh)) h3.sr_eq
  have hr : Run c tree rev (es ++ .sr (.searchStart i) :: es1) s2 := h0.append (.cons h1 h2)
  obtain ⟨ht, _⟩ := answers_true hr h3
  rw [← h4.2.2.1]
  exact ⟨rfl, ht⟩

/-- **C90**, the full claim: a search that starts after a check that succeeded is made from the files of the revision found by this
check, or by a later one. -/
def CurrentFull (F : Type) : Prop :=
  ∀ (c : Cfg) (tree : Nat → F) (rev r : Nat) (es0 es1 es2 : List Ev) (s0 s1 s2 s3 s4 : St F), Run c tree rev es0 s0 →
    Step c tree s0 (.sr (.pulled (some r))) s1 → Exec c tree s1 es1 s2 → Ev.sr (.built false) ∉ es1 →
    Step c tree s2 (.sr .release) s3 → Exec c tree s3 es2 s4 →
    ∃ r', (r' = r ∨ Ev.fetched r' ∈ es1 ++ es2) ∧ AnswersFrom c tree s4 r'

/-- C90 as long as every replaced index could be removed. Missing: after such a failure the program goes on with an index it has
removed, see `not_currentFull`. -/
theorem answers_current_partial {rev r : Nat} {es0 es1 es2 : List Ev} {s0 s1 s2 s3 s4 : St F} (h0 : Run c tree rev es0 s0)
    (h1 : Step c tree s0 (.sr (.pulled (some r))) s1) (h2 : Exec c tree s1 es1 s2) (hb : Ev.sr (.built false) ∉ es1)
    (h3 : Step c tree s2 (.sr .release) s3) (h4 : Exec c tree s3 es2 s4) (hd : Ev.sr (.destroyed false) ∉ es0) :
    ∃ r', (r' = r ∨ Ev.fetched r' ∈ es1 ++ es2) ∧ AnswersFrom c tree s4 r' := by
  have hc := h0.sr_eq.clean (fun hh => hd (mem_srOf.1 hh))
  have i1 := inv_step h1 hc.inv
  have hs : Soon (fun x => x = r ∨ Ev.fetched x ∈ es1 ++ es2) s2 := by
    refine Soon.exec h2 i1 hb (fun x hx => Or.inr (List.mem_append_left _ hx)) ?_
    have := Soon.pulled h1 hc
    exact ⟨this.live.imp_left Or.inl, fun x hx => Or.inl (this.fetched x hx), fun x hx => Or.inl (this.building x hx),
      fun x hx => Or.inl (this.swapping x hx)⟩
  have hr3 : Run c tree rev (es0 ++ (.sr (.pulled (some r)) :: (es1 ++ [.sr .release]))) s3 :=
    h0.append (.cons h1 (h2.append (.cons h3 (.nil _))))
  have ho := Only.exec h4 hr3.sr_eq.inv (fun x hx => Or.inr (List.mem_append_right _ hx)) (Soon.release h3 hs)
  exact ⟨_, ho.live, answersFrom_live (hr3.append h4)⟩

/-- What is fetched while nobody changes the repository. -/
theorem fetched_upstream {s t : St F} {es : List Ev} (h : Exec c tree s es t) (hn : ∀ r, Ev.changed r ∉ es) :
    t.upstream = s.upstream ∧ ∀ r, Ev.fetched r ∈ es → r = s.upstream := by
  induction h with
  | nil => exact ⟨rfl, by simp⟩
  | @cons s t u e es h1 _ ih =>
    obtain ⟨i1, i2⟩ := ih fun r hr => hn r (List.mem_cons_of_mem _ hr)
    have hu : t.upstream = s.upstream := by
      cases h1 <;> first | rfl | exact absurd (List.mem_cons_self ..) (hn _)
    refine ⟨i1.trans hu, fun r hr => ?_⟩
    rcases List.mem_cons.1 hr with hr | hr
    · subst hr
      cases h1
      rfl
    · rw [← hu]; exact i2 r hr

/-- **C90, when the repository is not changed any more.** Once a check has found the repository as it is now, every search is made from
the files it has now. -/
theorem latest_shown_partial {rev : Nat} {es0 es1 es2 : List Ev} {s0 s1 s2 s3 s4 : St F} (h0 : Run c tree rev es0 s0)
    (h1 : Step c tree s0 (.sr (.pulled (some s0.upstream))) s1) (h2 : Exec c tree s1 es1 s2) (hb : Ev.sr (.built false) ∉ es1)
    (h3 : Step c tree s2 (.sr .release) s3) (h4 : Exec c tree s3 es2 s4) (hd : Ev.sr (.destroyed false) ∉ es0)
    (hn : ∀ r, Ev.changed r ∉ es1 ++ es2) : AnswersFrom c tree s4 s4.upstream := by
  obtain ⟨r', hr', ha⟩ := answers_current_partial h0 h1 h2 hb h3 h4 hd
  have u1 : s1.upstream = s0.upstream := by cases h1 <;> rfl
  have u3 : s3.upstream = s2.upstream := by cases h3; rfl
  obtain ⟨a1, a2⟩ := fetched_upstream h2 fun r hr => hn r (List.mem_append_left _ hr)
  obtain ⟨b1, b2⟩ := fetched_upstream h4 fun r hr => hn r (List.mem_append_right _ hr)
  have : r' = s4.upstream := by
    rw [b1, u3, a1, u1]
    rcases hr' with hr' | hr'
    · exact hr'
    · rcases List.mem_append.1 hr' with hr' | hr'
      · rw [a2 _ hr', u1]
      · rw [b2 _ hr', u3, a1, u1]
  rw [← this]; exact ha

/-! ## A change comes to be shown -/

/-- A call from outside changes neither the goroutine's place nor the indexes. -/
theorem outside_eq {s t : Sr.St} {e : Sr.Ev} (h : Sr.Step c s e t) (hp : e.poller = false) :
    t.pc = s.pc ∧ t.handles = s.handles ∧ t.live = s.live := by
  cases h <;> simp [Sr.Ev.poller] at hp <;> exact ⟨rfl, rfl, rfl⟩

theorem outside_step {s t : St F} {e : Ev} (h : Step c tree s e t) (hp : ownStep e = false) :
    t.sr.pc = s.sr.pc ∧ t.sr.handles = s.sr.handles ∧ t.sr.live = s.sr.live ∧ t.fetched = s.fetched := by
  cases h with
  | changed r => exact ⟨rfl, rfl, rfl, rfl⟩
  | fetched a b => simp [ownStep] at hp
  | check t a => simp [ownStep, Sr.Ev.poller] at hp
  | pulled r t a b => simp [ownStep, Sr.Ev.poller] at hp
  | pullFails t x a => simp [ownStep, Sr.Ev.poller] at hp
  | built t a => simp [ownStep, Sr.Ev.poller] at hp
  | other e t a n1 n2 n3 =>
    obtain ⟨a1, a2, a3⟩ := outside_eq a (by simpa [ownStep] using hp)
    exact ⟨a1, a2, a3, rfl⟩

/-- What holds all the time while nothing disturbs. -/
structure Calm (r : Nat) (s : St F) : Prop where
  clean : Sr.Clean s.sr
  old : ∀ o n, s.sr.pc = .swapped o n → (s.sr.handles o).opened = true
  upstream : s.upstream = r

/-- How far it is to the moment when the index of the new revision is live. -/
inductive Ahead (c : Cfg) (r : Nat) : Nat → St F → Prop where
  | asked {m : Nat} {s : St F} : Sr.Asked c s.sr → s.sr.pc.toCheck + (if s.fetched = none then 1 else 0) + 6 ≤ m → Ahead c r m s
  | checking {m : Nat} {s : St F} : s.sr.pc = .pulling → s.fetched = none → 5 ≤ m → Ahead c r m s
  | read {m : Nat} {s : St F} : s.sr.pc = .pulling → s.fetched = some r → 4 ≤ m → Ahead c r m s
  | building {m : Nat} {s : St F} : s.sr.pc = .building r → s.fetched = some r → 3 ≤ m → Ahead c r m s
  | swapping {m : Nat} {s : St F} (n : Nat) : s.sr.pc = .swapping n → (s.sr.handles n).rev = r → s.fetched = some r → 2 ≤ m → Ahead c r m s

theorem Calm.step {r : Nat} {s t : St F} {e : Ev} (h : Step c tree s e t) (hq : Undisturbed [e]) (hs : Calm r s) : Calm r t := by
  obtain ⟨h1, h2, h3⟩ := hs
  obtain ⟨q1, q2, q3, q4, q5⟩ := hq e (List.mem_singleton.2 rfl)
  have hc : Sr.Clean t.sr := by
    cases e with
    | sr x => exact Sr.Clean.step h.sr_eq (fun hh => q5 (by rw [hh])) h1
    | changed r => rw [h.other_eq (by simp)]; exact h1
    | fetched r => rw [h.other_eq (by simp)]; exact h1
  refine ⟨hc, ?_, ?_⟩
  · cases h with
    | changed r => exact h2
    | fetched a b => exact h2
    | check t a => cases a; simp
    | pulled r t a b => cases a <;> simp
    | pullFails t x a => cases a; simp
    | built t a => cases a; simp
    | other e t a n1 n2 n3 =>
      cases a
      case destroyed o n ok hd a d => cases ok <;> simp
      case swapLock n a b =>
        intro o n' hh
        cases hh
        exact h1.usable.1
      all_goals first | exact h2 | simp
  · cases h <;> first | exact h3 | exact absurd rfl (q1 _)

theorem pulled_only {r : Nat} {s t : St F} (hs : Calm r s) (h : Sr.Step c s.sr (.pulled (some r)) t.sr) (hf : t.fetched = some r) :
    Only (· = r) t ∨ t.sr.pc = .building r := by
  have hc := hs.clean
  have : ∀ u : Sr.St, Sr.Step c s.sr (.pulled (some r)) u → (u.pc = .building r ∨ (u.pc = .releasing none ∧ (u.handles u.live).rev = r)) := by
    intro u hu
    generalize hx : Sr.Ev.pulled (some r) = e at hu
    cases hu <;> simp at hx
    case pullSame a => right; rw [hx]; exact ⟨rfl, (hc.rev (by simp [a]) (by simp [a])).symm⟩
    case pullNew r' a b => left; rw [hx]
  rcases this _ h with h | ⟨h, h'⟩
  · exact Or.inr h
  · exact Or.inl ⟨h', fun x hx => Option.some.inj (hx.symm.trans hf), by simp [h], by simp [h]⟩

theorem ahead_step {r m : Nat} {s t : St F} {e : Ev} (h : Step c tree s e t) (hq : Undisturbed [e]) (hs : Calm r s)
    (ha : Ahead c r m s) : (ownStep e = false → Ahead c r m t) ∧
      (ownStep e = true → Only (· = r) t ∨ (1 ≤ m ∧ Ahead c r (m - 1) t)) := by
  obtain ⟨q1, q2, q3, q4, q5⟩ := hq e (List.mem_singleton.2 rfl)
  constructor
  · intro ho
    obtain ⟨o1, o2, o3, o4⟩ := outside_step h ho
    cases ha with
    | asked a b =>
      refine .asked ?_ (by rw [o1, o4]; exact b)
      cases e with
      | sr x =>
        refine Sr.Asked.step h.sr_eq ⟨q2 x rfl, fun hh => ?_⟩ a
        subst hh; simp [ownStep, Sr.Ev.poller] at ho
      | changed r => rw [h.other_eq (by simp)]; exact a
      | fetched r => rw [h.other_eq (by simp)]; exact a
    | checking a b d => exact .checking (o1.trans a) (o4.trans b) d
    | read a b d => exact .read (o1.trans a) (o4.trans b) d
    | building a b d => exact .building (o1.trans a) (o4.trans b) d
    | swapping n a b d f => exact .swapping n (o1.trans a) (by rw [o2]; exact b) (o4.trans d) f
  · intro ho
    cases ha with
    | asked a b =>
      right
      refine ⟨by omega, ?_⟩
      cases h with
      | changed r => simp [ownStep] at ho
      | fetched p f =>
        rw [if_pos f] at b
        refine .asked a ?_
        show s.sr.pc.toCheck + (if some s.upstream = none then 1 else 0) + 6 ≤ m - 1
        rw [if_neg (by simp)]; omega
      | check t a =>
        cases a with
        | check a => exact .checking rfl rfl (by omega)
      | pulled r t a' f =>
        have := Sr.poller_toCheck a' rfl (by simp)
        refine .asked (Sr.Asked.step a' ⟨rfl, by simp⟩ a) ?_
        show t.pc.toCheck + (if s.fetched = none then 1 else 0) + 6 ≤ m - 1
        omega
      | pullFails t x a' => exact absurd rfl q3
      | built t a' =>
        have := Sr.poller_toCheck a' rfl (by simp)
        refine .asked (Sr.Asked.step a' ⟨rfl, by simp⟩ a) ?_
        show t.pc.toCheck + (if s.fetched = none then 1 else 0) + 6 ≤ m - 1
        omega
      | other e t a' n1 n2 n3 =>
        have := Sr.poller_toCheck a' (by simpa [ownStep] using ho) n1
        refine .asked (Sr.Asked.step a' ⟨q2 e rfl, n1⟩ a) ?_
        show t.pc.toCheck + (if s.fetched = none then 1 else 0) + 6 ≤ m - 1
        omega
    | checking a b d =>
      right
      refine ⟨by omega, ?_⟩
      cases h with
      | changed r => simp [ownStep] at ho
      | fetched p f => exact .read a (by show some s.upstream = some r; rw [hs.upstream]) (by omega)
      | check t a' => cases a' with | check a' => simp [a] at a'
      | pulled r t a' f => rw [b] at f; simp at f
      | pullFails t x a' => exact absurd rfl q3
      | built t a' => cases a' with | buildOk r a' => simp [a] at a'
      | other e t a' n1 n2 n3 =>
        simp only [ownStep] at ho
        cases a' <;> simp_all [Sr.Ev.poller]
    | read a b d =>
      cases h with
      | changed r => simp [ownStep] at ho
      | fetched p f => rw [b] at f; simp at f
      | check t a' => cases a' with | check a' => simp [a] at a'
      | pulled r' t a' f =>
        have : r' = r := Option.some.inj (f.symm.trans b)
        subst this
        rcases pulled_only (t := { s with sr := t, copy := tree r' }) hs a' b with h | h
        · exact Or.inl h
        · exact Or.inr ⟨by omega, .building h b (by omega)⟩
      | pullFails t x a' => exact absurd rfl q3
      | built t a' => cases a' with | buildOk r a' => simp [a] at a'
      | other e t a' n1 n2 n3 =>
        simp only [ownStep] at ho
        cases a' <;> simp_all [Sr.Ev.poller]
    | building a b d =>
      right
      refine ⟨by omega, ?_⟩
      cases h with
      | changed r => simp [ownStep] at ho
      | fetched p f => rw [b] at f; simp at f
      | check t a' => cases a' with | check a' => simp [a] at a'
      | pulled r' t a' f => cases a' <;> simp_all
      | pullFails t x a' => exact absurd rfl q3
      | built t a' =>
        cases a' with
        | buildOk r' a' =>
          have : r' = r := by rw [a] at a'; cases a'; rfl
          subst this
          exact .swapping s.sr.count rfl (by simp [Sr.setHandle]) b (by omega)
      | other e t a' n1 n2 n3 =>
        simp only [ownStep] at ho
        cases a' <;> simp_all [Sr.Ev.poller]
    | swapping n a b d f =>
      left
      cases h with
      | changed r => simp [ownStep] at ho
      | fetched p f => rw [d] at f; simp at f
      | check t a' => cases a' with | check a' => simp [a] at a'
      | pulled r' t a' f => cases a' <;> simp_all
      | pullFails t x a' => exact absurd rfl q3
      | built t a' => cases a' with | buildOk r a' => simp [a] at a'
      | other e t a' n1 n2 n3 =>
        simp only [ownStep] at ho
        cases a'
        case swapLock n' a' b' =>
          have : n' = n := by rw [a] at a'; cases a'; rfl
          subst this
          exact ⟨b, fun x hx => Option.some.inj (hx.symm.trans d), by simp, by simp⟩
        all_goals simp_all [Sr.Ev.poller]

theorem ahead_moves {r m : Nat} {s : St F} (hs : Calm r s) (ha : Ahead c r m s) : MovesOn c tree s := by
  have mk : ∀ {e t}, Sr.Step c s.sr e t → e.poller = true → e ≠ .check → (∀ x, e ≠ .pulled x) → (∀ b, e ≠ .built b) →
      e ≠ .destroyed false → MovesOn c tree s := by
    intro e t h h1 h2 h3 h4 h5
    refine Or.inl ⟨.sr e, _, h1, ?_, .other s e t h h2 h3 (h4 true)⟩
    intro x hx
    rw [List.mem_singleton] at hx
    subst hx
    refine ⟨by simp, ?_, ?_, ?_, ?_⟩
    · intro y hy; cases hy
      cases e <;> simp_all [Sr.Ev.poller, Sr.Ev.stop]
    · simpa using h3 none
    · simpa using h4 false
    · simpa using h5
  have good : ∀ e : Ev, (∀ r, e ≠ .changed r) → (∀ x, e = .sr x → x.stop = false) →
    e ≠ .sr (.pulled none) → e ≠ .sr (.built false) → e ≠ .sr (.destroyed false) → Undisturbed [e] := by
    intro e a1 a2 a3 a4 a5 x hx
    rw [List.mem_singleton] at hx
    subst hx
    exact ⟨a1, a2, a3, a4, a5⟩
  have pull : s.sr.pc = .pulling → MovesOn c tree s := by
    intro hp
    cases hf : s.fetched with
    | none => exact Or.inl ⟨_, _, rfl, good _ (by simp) (by simp) (by simp) (by simp) (by simp), .fetched s hp hf⟩
    | some x =>
      refine Or.inl ⟨.sr (.pulled (some x)), ?_⟩
      by_cases hx : x = s.sr.rev
      · have hst : Sr.Step c s.sr (.pulled (some x)) { s.sr with pc := .releasing none } := by rw [hx]; exact .pullSame s.sr hp
        exact ⟨_, rfl, good _ (by simp) (by simp [Sr.Ev.stop]) (by simp) (by simp) (by simp), .pulled s x _ hst hf⟩
      · exact ⟨_, rfl, good _ (by simp) (by simp [Sr.Ev.stop]) (by simp) (by simp) (by simp), .pulled s x _ (.pullNew s.sr x hp hx) hf⟩
  have build : ∀ r, s.sr.pc = .building r → MovesOn c tree s := fun r hp =>
    Or.inl ⟨_, _, rfl, good _ (by simp) (by simp [Sr.Ev.stop]) (by simp) (by simp) (by simp), .built s _ (.buildOk s.sr r hp)⟩
  have swap : ∀ n, s.sr.pc = .swapping n → MovesOn c tree s := by
    intro n hp
    by_cases he : s.sr.searches = []
    · exact mk (.swapLock s.sr n hp he) rfl (by simp) (by simp) (by simp) (by simp)
    · exact Or.inr he
  cases ha with
  | asked a b =>
    cases hp : s.sr.pc with
    | hold => exact mk (.gate s.sr hp (a.hold hp)) rfl (by simp) (by simp) (by simp) (by simp)
    | gated => exact mk (.enter s.sr hp a.poll) rfl (by simp) (by simp) (by simp) (by simp)
    | waiting =>
      rcases a.asked with h | h | h | h
      · exact mk (.wakeUpdate s.sr hp h) rfl (by simp) (by simp) (by simp) (by simp)
      · exact mk (.wakeTimer s.sr hp h) rfl (by simp) (by simp) (by simp) (by simp)
      · simp [hp] at h
      · simp [hp] at h
    | woken => exact mk (.goOn s.sr hp a.running.1) rfl (by simp) (by simp) (by simp) (by simp)
    | acquiring => exact Or.inl ⟨_, _, rfl, good _ (by simp) (by simp [Sr.Ev.stop]) (by simp) (by simp) (by simp), .check s _ (.check s.sr hp)⟩
    | pulling => exact pull hp
    | building r => exact build r hp
    | swapping n => exact swap n hp
    | swapped o n => exact mk (.destroyed s.sr o n true _ hp (.ok _ (hs.old o n hp))) rfl (by simp) (by simp) (by simp) (by simp)
    | undo n => exact absurd hp (hs.clean.noUndo n)
    | releasing r => exact mk (.release s.sr r hp) rfl (by simp) (by simp) (by simp) (by simp)
    | done => exact absurd hp a.notDone
  | checking a b d => exact pull a
  | read a b d => exact pull a
  | building a b d => exact build _ a
  | swapping n a b d f => exact swap n a

theorem ahead_exec {r : Nat} {s t : St F} {es : List Ev} (h : Exec c tree s es t) : ∀ {m : Nat}, Undisturbed es → Calm r s →
    (Only (· = r) s ∨ Ahead c r m s) → Only (· = r) t ∨ ((es.filter ownStep).length ≤ m ∧ MovesOn c tree t) := by
  induction h with
  | nil =>
    intro m _ hs ha
    exact ha.imp_right fun ha => ⟨by simp, ahead_moves hs ha⟩
  | @cons s t u e es h1 h2 ih =>
    intro m hq hs ha
    have hq1 : Undisturbed [e] := fun x hx => hq x (by rw [List.mem_singleton.1 hx]; exact List.mem_cons_self ..)
    have hq2 : Undisturbed es := fun x hx => hq x (List.mem_cons_of_mem _ hx)
    have hs' := Calm.step h1 hq1 hs
    have stay : Only (· = r) t → Only (· = r) u := Only.exec h2 hs'.clean.inv fun x hx => by
      rw [(fetched_upstream h2 (fun r hr => (hq2 _ hr).1 r rfl)).2 x hx, hs'.upstream]
    rcases ha with ha | ha
    · exact Or.inl (stay (Only.step h1 hs.clean.inv (fun x hx => by subst hx; cases h1; exact hs.upstream) ha))
    · obtain ⟨a1, a2⟩ := ahead_step h1 hq1 hs ha
      cases ho : ownStep e with
      | false =>
        rw [List.filter_cons, if_neg (by simp [ho])]
        exact ih hq2 hs' (Or.inr (a1 ho))
      | true =>
        rw [List.filter_cons, if_pos ho, List.length_cons]
        rcases a2 ho with k | ⟨k1, k2⟩
        · exact Or.inl (stay k)
        · exact (ih hq2 hs' (Or.inr k2)).imp_right fun ⟨l1, l2⟩ => ⟨by omega, l2⟩

theorem calm_run {rev : Nat} {es : List Ev} {s : St F} (h : Run c tree rev es s) (hd : Ev.sr (.destroyed false) ∉ es) :
    Calm s.upstream s := by
  refine ⟨h.sr_eq.clean fun hh => hd (mem_srOf.1 hh), ?_, rfl⟩
  obtain ⟨s0, ⟨e1, e2, _⟩, hx⟩ := h
  have key := hx.keepE (P := fun s => Sr.Clean s.sr ∧ ∀ o n, s.sr.pc = .swapped o n → (s.sr.handles o).opened = true)
    (Q := fun e => e ≠ .sr (.destroyed false)) ?_ (fun e he hh => hd (hh ▸ he)) ?_
  · exact key.2
  · rintro s e t hst hq ⟨k1, k2⟩
    constructor
    · cases e with
      | sr x => exact Sr.Clean.step hst.sr_eq (fun hh => hq (by rw [hh])) k1
      | changed r => rw [hst.other_eq (by simp)]; exact k1
      | fetched r => rw [hst.other_eq (by simp)]; exact k1
    · cases hst with
      | changed r => exact k2
      | fetched a b => exact k2
      | check t a => cases a; simp
      | pulled r t a b => cases a <;> simp
      | pullFails t x a => cases a; simp
      | built t a => cases a; simp
      | other e t a n1 n2 n3 =>
        cases a
        case destroyed o n ok hd a d => cases ok <;> simp
        case swapLock n a b =>
          intro o n' hh
          cases hh
          exact k1.usable.1
        all_goals first | exact k2 | simp
  · rw [e1]
    exact ⟨⟨Sr.Inv.init rev, by simp [Sr.St.init, Sr.Handle.Usable], by simp [Sr.St.init], by simp [Sr.St.init], by simp [Sr.St.init]⟩,
      by simp [Sr.St.init]⟩

theorem asked_shown {rev : Nat} {es : List Ev} {s : St F} (h : Run c tree rev es s) (hd : Ev.sr (.destroyed false) ∉ es)
    (ha : Sr.Asked c s.sr) : ComesToShow c tree s s.upstream := by
  refine ⟨s.sr.pc.toCheck + 7, fun es' t hx hq => ?_⟩
  refine (ahead_exec hx (m := s.sr.pc.toCheck + 7) hq (calm_run h hd) (Or.inr (.asked ha (by split <;> omega)))).imp_left fun ho => ?_
  have := answersFrom_live (h.append hx)
  rw [ho.live] at this
  exact this

/-- **C90, on request.** After an accepted request for an update, a bounded number of steps of the goroutine leads to a state in
which searches are made from the files the repository had when the request was made (as long as it is not changed again, nothing fails, and
the searcher is not stopped; and if it polls or had begun to wait for updates). Missing: see `Sr.not_updateNotLostFull` and `not_currentFull`. -/
theorem request_shown_partial {rev : Nat} {es : List Ev} {s t : St F} (h : Run c tree rev es s) (hd : Ev.sr (.destroyed false) ∉ es)
    (hs : ∀ e, Ev.sr e ∈ es → e.stop = false) (hg : c.timer = true ∨ Ev.sr .enter ∈ es)
    (hu : Step c tree s (.sr .updateAccepted) t) : ComesToShow c tree t s.upstream := by
  have hq : t.upstream = s.upstream := by cases hu; rfl
  rw [← hq]
  have hr : Run c tree rev (es ++ [.sr .updateAccepted]) t := h.append (.cons hu (.nil _))
  refine asked_shown hr (by simpa using hd) ?_
  exact Sr.update_asked h.sr_eq (fun e he => hs e (mem_srOf.1 he)) hu.sr_eq (hg.imp_right mem_srOf.2)

/-- **C90, by polling.** The same without a request, for a searcher that polls. -/
theorem poll_shown_partial {rev : Nat} {es : List Ev} {s : St F} (h : Run c tree rev es s) (hd : Ev.sr (.destroyed false) ∉ es)
    (hs : ∀ e, Ev.sr e ∈ es → e.stop = false) (ht : c.timer = true) (hb : Ev.sr .begin ∈ es) : ComesToShow c tree s s.upstream :=
  asked_shown h hd (Sr.polls_asked h.sr_eq (fun e he => hs e (mem_srOf.1 he)) ht (mem_srOf.2 hb))

/-! ## Cases -/

/-- The first index is of revision 7; the repository is changed to 8, and the searcher is asked. -/
def updateEvents : List Ev := [.sr .begin, .sr .gate, .sr .enter, .changed 8, .sr .updateAccepted, .sr .wake, .sr .goOn, .sr .check, .fetched 8]

def readState : St Nat where
  sr := { Sr.St.init 7 with pc := .pulling, begun := true }
  upstream := 8
  fetched := some 8
  copy := 0
  files := fun _ => 7

theorem readState_run : Run ⟨true, true, true⟩ id 7 updateEvents readState := by
  let s0 : St Nat := ⟨Sr.St.init 7, 7, none, 0, fun _ => 7⟩
  let s1 : Sr.St := { Sr.St.init 7 with begun := true, updateCh := true }
  let s2 : Sr.St := { Sr.St.init 7 with begun := true, pc := .waiting }
  exact ⟨s0, ⟨rfl, rfl, fun _ => rfl⟩,
    .cons (.other s0 _ s1 (.begin _ rfl rfl) (by simp) (by simp) (by simp)) <|
    .cons (.other _ .gate _ (.gate s1 rfl rfl) (by simp) (by simp) (by simp)) <|
    .cons (.other _ .enter s2 (.enter _ rfl (Or.inl rfl)) (by simp) (by simp) (by simp)) <|
    .cons (.changed _ 8) <|
    .cons (.other _ .updateAccepted _ (.updateAccepted s2 rfl rfl) (by simp) (by simp) (by simp)) <|
    .cons (.other _ .wake _ (.wakeUpdate _ rfl rfl) (by simp) (by simp) (by simp)) <|
    .cons (.other _ .goOn _ (.goOn _ rfl rfl) (by simp) (by simp) (by simp)) <|
    .cons (.check _ _ (.check _ rfl)) <|
    .cons (.fetched _ rfl rfl) <| .nil _⟩

theorem step_other {c : Cfg} {tree : Nat → F} (s : St F) {e : Sr.Ev} {t : Sr.St} (h : Sr.Step c s.sr e t)
    (h1 : e ≠ .check := by simp) (h2 : ∀ x, e ≠ .pulled x := by simp) (h3 : e ≠ .built true := by simp) :
    Step c tree s (.sr e) { s with sr := t } := .other s e t h h1 h2 h3

/-- The check has found revision 8 ... -/
def foundState : St Nat := { readState with sr := { readState.sr with pc := .building 8 }, copy := 8 }

/-- ... its index is made ... -/
def builtState : St Nat := { foundState with
  sr := { foundState.sr with
    handles := Sr.setHandle foundState.sr foundState.sr.count ⟨8, true, true⟩, count := foundState.sr.count + 1
    pc := .swapping foundState.sr.count }
  files := fun h => if h = foundState.sr.count then foundState.copy else foundState.files h }

/-- ... and taken into use. -/
def swappedState : St Nat := { builtState with sr := { builtState.sr with live := 1, pc := .swapped 0 1 } }

/-- The index that was replaced is removed, or it is not. -/
def replacedState (ok : Bool) (h : Sr.Handle) : St Nat := { swappedState with
  sr := { swappedState.sr with handles := Sr.setHandle swappedState.sr 0 h, pc := if ok then .releasing (some 8) else .undo 1 } }

theorem found_step : Step ⟨true, true, true⟩ id readState (.sr (.pulled (some readState.upstream))) foundState :=
  .pulled readState 8 _ (.pullNew readState.sr 8 rfl (by decide)) rfl

theorem swapped_exec : Exec ⟨true, true, true⟩ id foundState [.sr (.built true), .sr .swapLock] swappedState :=
  .cons (.built foundState builtState.sr (.buildOk foundState.sr 8 rfl)) <|
  .cons (step_other builtState (.swapLock builtState.sr 1 rfl rfl)) <| .nil _

theorem removed_exec : Exec ⟨true, true, true⟩ id foundState [.sr (.built true), .sr .swapLock, .sr (.destroyed true)]
    (replacedState true ⟨7, false, false⟩) :=
  swapped_exec.append <| .cons (step_other swappedState (.destroyed swappedState.sr 0 1 true _ rfl (.ok _ rfl))) <| .nil _

/-- `answers_current_partial`, `latest_shown_partial`: the check finds revision 8, the index is built and taken into use; searches then are
made from the files of revision 8. -/
example : ∃ s3 : St Nat, Step ⟨true, true, true⟩ id (replacedState true ⟨7, false, false⟩) (.sr .release) s3 ∧
    AnswersFrom ⟨true, true, true⟩ id s3 8 ∧ (∃ s4, Step ⟨true, true, true⟩ id s3 (.sr (.searchStart 0)) s4) := by
  have h3 : Step ⟨true, true, true⟩ id (replacedState true ⟨7, false, false⟩) (.sr .release) _ :=
    step_other (replacedState true ⟨7, false, false⟩) (.release _ (some 8) rfl)
  exact ⟨_, h3, latest_shown_partial readState_run found_step removed_exec (by decide) h3 (.nil _) (by decide) (by simp),
    _, step_other _ (.searchStart _ 0 rfl rfl (fun x hx => nomatch hx))⟩

/-- `answers_true`: a search that starts while the new index is built is made from the files of revision 7. -/
example : ∃ (s t : St Nat) (es : List Ev), Run ⟨true, true, true⟩ id 7 es s ∧ Ev.sr (.built true) ∈ es ∧
    Step ⟨true, true, true⟩ id s (.sr (.searchEnd 0 7 0)) t ∧ s.files 0 = id 7 := by
  let f1 : St Nat := { foundState with sr := { foundState.sr with searches := [(0, none)] } }
  let f2 : St Nat := { f1 with
    sr := { f1.sr with handles := Sr.setHandle f1.sr 1 ⟨8, true, true⟩, count := 2, pc := .swapping 1 }
    files := fun h => if h = 1 then 8 else 7 }
  let f3 : St Nat := { f2 with sr := { f2.sr with searches := [(0, some 0)] } }
  have h := readState_run.append (.cons found_step <|
    .cons (step_other foundState (.searchStart foundState.sr 0 rfl rfl fun x hx => nomatch hx)) <|
    .cons (.built f1 f2.sr (.buildOk f1.sr 8 rfl)) <| .cons (step_other f2 (t := f3.sr) (.searchRead f2.sr 0 (List.mem_singleton.2 rfl))) <| .nil _)
  have h1 : Step ⟨true, true, true⟩ id f3 (.sr (.searchEnd 0 7 0)) _ := step_other f3 (.searchEnd f3.sr 0 0 (List.mem_singleton.2 rfl))
  exact ⟨f3, _, _, h, by decide, h1, (answers_true h h1).1⟩

/-- `request_shown_partial`, `poll_shown_partial`: a searcher that has begun, at revision 7; the repository is changed, and the request is
accepted. -/
example : ∃ s t : St Nat, Run ⟨true, true, true⟩ id 7 [.sr .begin, .sr .gate, .sr .enter, .changed 8] s ∧
    Step ⟨true, true, true⟩ id s (.sr .updateAccepted) t ∧ ComesToShow ⟨true, true, true⟩ id t 8 ∧ ComesToShow ⟨true, true, true⟩ id s 8 := by
  let s0 : St Nat := ⟨Sr.St.init 7, 7, none, 0, fun _ => 7⟩
  let s1 : St Nat := { s0 with sr := { s0.sr with begun := true, updateCh := true } }
  let s2 : St Nat := { s0 with sr := { s0.sr with begun := true, pc := .gated } }
  let s3 : St Nat := { s0 with sr := { s0.sr with begun := true, pc := .waiting }, upstream := 8 }
  have h : Run ⟨true, true, true⟩ id 7 [.sr .begin, .sr .gate, .sr .enter, .changed 8] s3 :=
    ⟨s0, ⟨rfl, rfl, fun _ => rfl⟩, .cons (step_other s0 (.begin _ rfl rfl)) <| .cons (step_other s1 (.gate _ rfl rfl)) <|
      .cons (step_other s2 (.enter _ rfl (Or.inl rfl))) <| .cons (.changed _ 8) <| .nil _⟩
  have hu : Step ⟨true, true, true⟩ id s3 (.sr .updateAccepted) _ := step_other s3 (.updateAccepted _ rfl rfl)
  have hs : ∀ e, Ev.sr e ∈ [Ev.sr .begin, .sr .gate, .sr .enter, .changed 8] → e.stop = false := by
    intro e he
    simp only [List.mem_cons, Ev.sr.injEq, reduceCtorEq, List.not_mem_nil, or_false] at he
    rcases he with rfl | rfl | rfl <;> rfl
  exact ⟨s3, _, h, hu, request_shown_partial h (by decide) hs (Or.inl rfl) hu, poll_shown_partial h (by decide) hs rfl (by decide)⟩

/-! ## The full claim is false of the program -/

/-- After the failure: the new index is live and removed, and the searcher believes to be at revision 7. The repository is set back to 7, and
a check has read that. -/
def confusedState : St Nat := { swappedState with
  sr := { swappedState.sr with
    handles := Sr.setHandle { swappedState.sr with handles := Sr.setHandle swappedState.sr 0 ⟨7, true, true⟩ } 1 ⟨8, false, false⟩, pc := .pulling }
  upstream := 7, fetched := some 7 }

theorem confused_run : Run ⟨true, true, true⟩ id 7 (updateEvents ++ .sr (.pulled (some 8)) ::
    ([.sr (.built true), .sr .swapLock] ++ [.sr (.destroyed false), .sr .undone, .sr .release, .changed 7, .sr .wake, .sr .goOn,
      .sr .check, .fetched 7])) confusedState := by
  let d0 := replacedState false ⟨7, true, true⟩
  let d1 : St Nat := { d0 with sr := { d0.sr with handles := confusedState.sr.handles, pc := .releasing none } }
  let d2 : St Nat := { d1 with sr := { d1.sr with pc := .waiting }, upstream := 7 }
  let d3 : St Nat := { d2 with sr := { d2.sr with pc := .woken } }
  let d4 : St Nat := { d3 with sr := { d3.sr with pc := .acquiring } }
  let d5 : St Nat := { d4 with sr := { d4.sr with pc := .pulling }, fetched := none }
  exact readState_run.append <| .cons found_step <| swapped_exec.append <|
    .cons (step_other swappedState (t := d0.sr) (.destroyed swappedState.sr 0 1 false _ rfl (.closeFails _))) <|
    .cons (step_other d0 (t := d1.sr) (.undo d0.sr 1 true _ rfl (fun i hi => nomatch hi) (.ok _ rfl))) <|
    .cons (step_other d1 (.release d1.sr none rfl)) <|
    .cons (.changed _ 7) <|
    .cons (step_other d2 (t := d3.sr) (.wakeTimer d2.sr rfl rfl)) <|
    .cons (step_other d3 (t := d4.sr) (.goOn d3.sr rfl rfl)) <|
    .cons (.check d4 d5.sr (.check d4.sr rfl)) <|
    .cons (.fetched d5 rfl rfl) <| .nil _

/-- C90 as stated is false of the program: the search is made from revision 8, which the repository has left, although a check has succeeded
since. -/
theorem not_currentFull : ¬ CurrentFull Nat := by
  intro h
  let e1 : St Nat := { confusedState with sr := { confusedState.sr with pc := .releasing none }, copy := 7 }
  let e2 : St Nat := { e1 with sr := { e1.sr with pc := .waiting } }
  let e3 : St Nat := { e2 with sr := { e2.sr with searches := [(0, none)] } }
  let e4 : St Nat := { e3 with sr := { e3.sr with searches := [(0, some 1)] } }
  obtain ⟨r', hr, ha⟩ := h ⟨true, true, true⟩ id 7 7 _ [] [] confusedState e1 e1 e2 e2 confused_run
    (.pulled confusedState 7 e1.sr (.pullSame confusedState.sr rfl) rfl) (.nil _) (by simp)
    (step_other e1 (t := e2.sr) (.release e1.sr none rfl)) (.nil _)
  have hr : r' = 7 := by simpa using hr
  have := (ha 0 e3 [.sr (.searchRead 0)] e4 8 1 _ (step_other e2 (t := e3.sr) (.searchStart e2.sr 0 rfl rfl fun x hx => nomatch hx))
    (.cons (step_other e3 (t := e4.sr) (.searchRead e3.sr 0 (List.mem_singleton.2 rfl))) (.nil _)) (by simp)
    (step_other e4 (.searchEnd e4.sr 0 1 (List.mem_singleton.2 rfl)))).1
  omega

end Hound.Cur
