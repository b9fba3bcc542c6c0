import Verif.Model.Signal

/-!
# C49: delivery of signals of the web page
-/

namespace Hound.Signal
open Spec

variable {L : Type} [DecidableEq L]

theorem listening_snoc (es : List (Event L)) (e : Event L) :
    listening (es ++ [e]) = listen (listening es) e := by
  simp [listening]

omit [DecidableEq L] in
theorem callsOf_append (id : Nat) (a b : List (Event L)) :
    callsOf id (a ++ b) = callsOf id a ++ callsOf id b := by
  simp [callsOf]

/-- The number of the delivery an event belongs to. -/
def Event.id? : Event L → Option Nat
  | .tapped _ | .untapped _ => none
  | .raised i | .called i _ | .finished i | .threw i => some i

/-- A delivery begun when `snap` listened has made its first `k` calls. -/
def Deliv (es : List (Event L)) (id : Nat) (snap : List L) (k : Nat) : Prop :=
  ∃ pre post, es = pre ++ .raised id :: post ∧ listening pre = snap ∧ (∀ e ∈ pre, e.id? ≠ some id) ∧
    .raised id ∉ post ∧ callsOf id post = snap.take k ∧ k ≤ snap.length

theorem Deliv.snoc {es : List (Event L)} {id : Nat} {snap : List L} {k : Nat} (h : Deliv es id snap k)
    {e : Event L} (hr : e ≠ .raised id) (hc : ∀ l, e ≠ .called id l) : Deliv (es ++ [e]) id snap k := by
  obtain ⟨pre, post, rfl, h1, h2, h3, h4, h5⟩ := h
  refine ⟨pre, post ++ [e], by simp, h1, h2, ?_, ?_, h5⟩
  · simp only [List.mem_append, List.mem_singleton, not_or]
    exact ⟨h3, fun h => hr h.symm⟩
  · rw [callsOf_append, h4]
    have : callsOf id [e] = [] := by
      cases e <;> simp [callsOf]
      rename_i i l
      intro h; subst h; exact hc l rfl
    rw [this, List.append_nil]

theorem Deliv.call {es : List (Event L)} {id : Nat} {snap : List L} {k : Nat} (h : Deliv es id snap k)
    {l : L} (hl : snap[k]? = some l) : Deliv (es ++ [.called id l]) id snap (k + 1) := by
  obtain ⟨pre, post, rfl, h1, h2, h3, h4, h5⟩ := h
  have hk : k < snap.length := by
    rcases Nat.lt_or_ge k snap.length with h | h
    · exact h
    · rw [List.getElem?_eq_none h] at hl; exact absurd hl (by simp)
  refine ⟨pre, post ++ [.called id l], by simp, h1, h2, ?_, ?_, hk⟩
  · simpa using h3
  · rw [callsOf_append, h4, List.take_add_one, hl]
    simp [callsOf]

/-- The invariant of the program. -/
structure Inv (s : State L) : Prop where
  cur : s.cur < s.heap.length
  now : s.array s.cur = listening s.trace
  all : ∀ id, id < s.begun → ∃ snap k, Deliv s.trace id snap k ∧ (.finished id ∈ s.trace → snap.length ≤ k)
  frame : ∀ f ∈ s.frames, f.addr < s.heap.length ∧ f.stop = (s.array f.addr).length ∧ f.id < s.begun ∧
    .finished f.id ∉ s.trace ∧ Deliv s.trace f.id (s.array f.addr) f.next
  nodup : (s.frames.map (·.id)).Nodup
  fresh : ∀ e ∈ s.trace, ∀ i, e.id? = some i → i < s.begun

omit [DecidableEq L] in
theorem array_append {s : State L} {a : Nat} (h : a < s.heap.length) (x : List (List L)) :
    (s.heap ++ x).getD a [] = s.array a := by
  simp [State.array, List.getD, List.getElem?_append_left h]

/-- A step that only appends a tap or untap event and moves to a new array keeps the invariant. -/
theorem Inv.change {s : State L} (h : Inv s) (e : Event L) (x : List (List L)) (cur : Nat)
    (he : e.id? = none) (hc : cur < (s.heap ++ x).length)
    (hn : (s.heap ++ x).getD cur [] = listen (listening s.trace) e) :
    Inv { s with heap := s.heap ++ x, cur := cur, trace := s.trace ++ [e] } := by
  have hr : ∀ i, e ≠ .raised i := by intro i h; subst h; simp [Event.id?] at he
  have hca : ∀ i l, e ≠ .called i l := by intro i l h; subst h; simp [Event.id?] at he
  have hf : ∀ i, e ≠ .finished i := by intro i h; subst h; simp [Event.id?] at he
  refine ⟨hc, ?_, ?_, ?_, h.nodup, ?_⟩
  · simp only [State.array]; rw [hn, listening_snoc]
  · intro id hid
    obtain ⟨snap, k, h1, h2⟩ := h.all id hid
    refine ⟨snap, k, h1.snoc (hr id) (hca id), fun hm => h2 ?_⟩
    simp only [List.mem_append, List.mem_singleton] at hm
    rcases hm with hm | hm
    · exact hm
    · exact absurd hm.symm (hf id)
  · intro f hfm
    obtain ⟨h1, h2, h3, h4, h5⟩ := h.frame f hfm
    have ha : State.array { s with heap := s.heap ++ x, cur := cur, trace := s.trace ++ [e] } f.addr
        = s.array f.addr := array_append h1 x
    rw [ha]
    refine ⟨by simp; omega, h2, h3, ?_, h5.snoc (hr _) (hca _)⟩
    simp only [List.mem_append, List.mem_singleton, not_or]
    exact ⟨h4, fun h => hf _ h.symm⟩
  · intro e' he' i hi
    simp only [List.mem_append, List.mem_singleton] at he'
    rcases he' with he' | rfl
    · exact h.fresh e' he' i hi
    · rw [he] at hi; exact absurd hi (by simp)

theorem erase_idx {ls : List L} {l : L} {ix : Nat} (h : ls.idxOf? l = some ix) :
    ls.eraseIdx ix = ls.erase l := by
  induction ls generalizing ix with
  | nil => simp [List.idxOf?] at h
  | cons a ls ih =>
    rw [List.idxOf?_cons] at h
    by_cases ha : a = l
    · subst ha
      simp at h; subst h; simp
    · have hb : (a == l) = false := by simpa using ha
      rw [hb] at h
      simp only [Bool.false_eq_true, if_false, Option.map_eq_some_iff] at h
      obtain ⟨j, hj, rfl⟩ := h
      rw [List.erase_cons, hb]
      simp [ih hj]

theorem erase_none {ls : List L} {l : L} (h : ls.idxOf? l = none) : ls.erase l = ls := by
  apply List.erase_of_not_mem
  simpa [List.idxOf?_eq_none_iff] using h

theorem Inv.step {s s' : State L} (h : Inv s) (hs : Step s s') : Inv s' := by
  cases hs with
  | tap l =>
    refine h.change (.tapped l) [s.array s.cur ++ [l]] s.heap.length rfl (by simp) ?_
    simp [List.getD, listen, h.now]
  | untap l =>
    unfold untap
    cases hi : (s.array s.cur).idxOf? l with
    | none =>
      have := h.change (.untapped l) [] s.cur rfl (by simpa using h.cur)
        (by rw [array_append h.cur, ← h.now]; simp only [listen]; rw [erase_none hi])
      simpa using this
    | some ix =>
      have e : spliceAt (s.heap ++ [s.array s.cur]) s.heap.length ix
          = s.heap ++ [(s.array s.cur).eraseIdx ix] := by
        simp [spliceAt, List.getD]
      simp only [e]
      refine h.change (.untapped l) [(s.array s.cur).eraseIdx ix] s.heap.length rfl (by simp) ?_
      rw [erase_idx hi, h.now]
      simp [List.getD, listen]
  | raise =>
    have hnot : ∀ e ∈ s.trace, e.id? ≠ some s.begun := fun e he hc =>
      absurd (h.fresh e he _ hc) (Nat.lt_irrefl _)
    have hdel : Deliv (s.trace ++ [.raised s.begun]) s.begun (s.array s.cur) 0 :=
      ⟨s.trace, [], rfl, h.now.symm, hnot, by simp, by simp [callsOf], Nat.zero_le _⟩
    refine ⟨h.cur, ?_, ?_, ?_, ?_, ?_⟩
    · show s.array s.cur = _
      rw [h.now, raise, listening_snoc]; rfl
    · intro id hid
      simp only [raise] at hid ⊢
      by_cases e : id = s.begun
      · subst e
        refine ⟨_, 0, hdel, fun hm => ?_⟩
        simp only [List.mem_append, List.mem_singleton, reduceCtorEq, or_false] at hm
        exact absurd rfl (hnot _ hm)
      · obtain ⟨snap, k, h1, h2⟩ := h.all id (by omega)
        refine ⟨snap, k, h1.snoc (by intro hh; injection hh; omega) (by simp), fun hm => h2 ?_⟩
        simpa using hm
    · intro f hf
      simp only [raise, List.mem_cons] at hf ⊢
      rcases hf with rfl | hf
      · refine ⟨h.cur, rfl, by simp, ?_, hdel⟩
        simp only [List.mem_append, List.mem_singleton, reduceCtorEq, or_false]
        exact fun hm => hnot _ hm rfl
      · obtain ⟨h1, h2, h3, h4, h5⟩ := h.frame f hf
        exact ⟨h1, h2, by omega, by simpa using h4, h5.snoc (by intro hh; injection hh; omega) (by simp)⟩
    · simp only [raise, List.map_cons, List.nodup_cons]
      refine ⟨?_, h.nodup⟩
      intro hm
      obtain ⟨f, hf, hfi⟩ := List.mem_map.1 hm
      have := (h.frame f hf).2.2.1
      omega
    · intro e he i hi
      simp only [raise, List.mem_append, List.mem_singleton] at he ⊢
      rcases he with he | rfl
      · have := h.fresh e he i hi; omega
      · simp only [Event.id?, Option.some.injEq] at hi; omega
  | call _ f fs l hfr hlt hl =>
    have hmem : f ∈ s.frames := by rw [hfr]; simp
    obtain ⟨g1, g2, g3, g4, g5⟩ := h.frame f hmem
    have hnd := h.nodup
    rw [hfr] at hnd
    simp only [List.map_cons, List.nodup_cons] at hnd
    have hdel := g5.call hl
    have hne : ∀ f' ∈ fs, f'.id ≠ f.id := fun f' hf' hh => hnd.1 (List.mem_map.2 ⟨f', hf', hh⟩)
    refine ⟨h.cur, ?_, ?_, ?_, ?_, ?_⟩
    · show s.array s.cur = _
      rw [h.now, listening_snoc]; rfl
    · intro id hid
      by_cases e : id = f.id
      · subst e
        exact ⟨_, _, hdel, fun hm => absurd (by simpa using hm) g4⟩
      · obtain ⟨snap, k, h1, h2⟩ := h.all id hid
        refine ⟨snap, k, h1.snoc (by simp) (by intro l' hh; injection hh with a b; exact e a.symm), fun hm => h2 ?_⟩
        simpa using hm
    · intro f' hf'
      simp only [List.mem_cons] at hf'
      rcases hf' with rfl | hf'
      · exact ⟨g1, g2, g3, by simpa using g4, hdel⟩
      · obtain ⟨h1, h2, h3, h4, h5⟩ := h.frame f' (by rw [hfr]; simp [hf'])
        exact ⟨h1, h2, h3, by simpa using h4,
          h5.snoc (by simp) (by intro l' hh; injection hh with a b; exact hne f' hf' a.symm)⟩
    · simpa using hnd
    · intro e he i hi
      simp only [List.mem_append, List.mem_singleton] at he
      rcases he with he | rfl
      · exact h.fresh e he i hi
      · simp only [Event.id?, Option.some.injEq] at hi; subst hi; exact g3
  | skip _ f fs hfr hlt hl =>
    have hmem : f ∈ s.frames := by rw [hfr]; simp
    obtain ⟨-, g2, -⟩ := h.frame f hmem
    rw [List.getElem?_eq_none_iff] at hl
    omega
  | finish _ f fs hfr hle =>
    have hmem : f ∈ s.frames := by rw [hfr]; simp
    obtain ⟨g1, g2, g3, g4, g5⟩ := h.frame f hmem
    have hnd := h.nodup
    rw [hfr] at hnd
    simp only [List.map_cons, List.nodup_cons] at hnd
    have hne : ∀ f' ∈ fs, f'.id ≠ f.id := fun f' hf' hh => hnd.1 (List.mem_map.2 ⟨f', hf', hh⟩)
    refine ⟨h.cur, ?_, ?_, ?_, hnd.2, ?_⟩
    · show s.array s.cur = _
      rw [h.now, listening_snoc]; rfl
    · intro id hid
      by_cases e : id = f.id
      · subst e
        exact ⟨_, _, g5.snoc (by simp) (by simp), fun _ => by omega⟩
      · obtain ⟨snap, k, h1, h2⟩ := h.all id hid
        refine ⟨snap, k, h1.snoc (by simp) (by simp), fun hm => h2 ?_⟩
        simp only [List.mem_append, List.mem_singleton, Event.finished.injEq] at hm
        exact hm.resolve_right e
    · intro f' hf'
      obtain ⟨h1, h2, h3, h4, h5⟩ := h.frame f' (by rw [hfr]; simp [hf'])
      refine ⟨h1, h2, h3, ?_, h5.snoc (by simp) (by simp)⟩
      simp only [List.mem_append, List.mem_singleton, Event.finished.injEq, not_or]
      exact ⟨h4, hne f' hf'⟩
    · intro e he i hi
      simp only [List.mem_append, List.mem_singleton] at he
      rcases he with he | rfl
      · exact h.fresh e he i hi
      · simp only [Event.id?, Option.some.injEq] at hi; subst hi; exact g3
  | throw _ f fs hfr =>
    have hmem : f ∈ s.frames := by rw [hfr]; simp
    obtain ⟨g1, g2, g3, g4, g5⟩ := h.frame f hmem
    have hnd := h.nodup
    rw [hfr] at hnd
    simp only [List.map_cons, List.nodup_cons] at hnd
    refine ⟨h.cur, ?_, ?_, ?_, hnd.2, ?_⟩
    · show s.array s.cur = _
      rw [h.now, listening_snoc]; rfl
    · intro id hid
      obtain ⟨snap, k, h1, h2⟩ := h.all id hid
      exact ⟨snap, k, h1.snoc (by simp) (by simp), fun hm => h2 (by simpa using hm)⟩
    · intro f' hf'
      obtain ⟨h1, h2, h3, h4, h5⟩ := h.frame f' (by rw [hfr]; simp [hf'])
      exact ⟨h1, h2, h3, by simpa using h4, h5.snoc (by simp) (by simp)⟩
    · intro e he i hi
      simp only [List.mem_append, List.mem_singleton] at he
      rcases he with he | rfl
      · exact h.fresh e he i hi
      · simp only [Event.id?, Option.some.injEq] at hi; subst hi; exact g3

theorem reach_inv {s : State L} (h : Reach s) : Inv s := by
  induction h with
  | init =>
    exact ⟨by simp [State.init], by simp [State.init, State.array, listening], by simp [State.init],
      by simp [State.init], by simp [State.init], by simp [State.init]⟩
  | step _ hs ih => exact ih.step hs

theorem split_unique {α : Type} {x : α} {a b c d : List α} (h : a ++ x :: b = c ++ x :: d)
    (ha : x ∉ a) (hc : x ∉ c) : a = c ∧ b = d := by
  induction a generalizing c with
  | nil =>
    cases c with
    | nil => simpa using h
    | cons y c => simp only [List.nil_append, List.cons_append, List.cons.injEq] at h; simp [h.1] at hc
  | cons y a ih =>
    cases c with
    | nil => simp only [List.nil_append, List.cons_append, List.cons.injEq] at h; simp [h.1] at ha
    | cons z c =>
      simp only [List.cons_append, List.cons.injEq] at h
      obtain ⟨h1, h2⟩ := ih h.2 (fun hh => ha (by simp [hh])) (fun hh => hc (by simp [hh]))
      exact ⟨by rw [h.1, h1], h2⟩

/-- **C49**. In every execution, whatever listeners do while they are called: a delivery that was begun
calls the listeners tapped and not yet untapped when it was begun (`listening pre`), in tap order;
when it has finished it called exactly these, and if it has not finished, or a listener threw, a first
part of them. -/
theorem delivery_exact {s : State L} (h : Reach s) {id : Nat} {pre post : List (Event L)}
    (ht : s.trace = pre ++ .raised id :: post) :
    callsOf id post <+: listening pre ∧
    (.finished id ∈ post → callsOf id post = listening pre) := by
  have inv := reach_inv h
  have hid : id < s.begun := inv.fresh (.raised id) (by rw [ht]; simp) id rfl
  obtain ⟨snap, k, ⟨pre', post', h1, h2, h3, h4, h5, h6⟩, h7⟩ := inv.all id hid
  rw [ht] at h1
  have hpre : .raised id ∉ pre' := fun hm => h3 _ hm rfl
  have hpre2 : .raised id ∉ pre := by
    intro hm
    obtain ⟨p1, p2, rfl⟩ := List.append_of_mem hm
    by_cases hp1 : (.raised id : Event L) ∈ p1
    · have : p1 ++ .raised id :: p2 ++ .raised id :: post = p1 ++ .raised id :: (p2 ++ .raised id :: post) := by simp
      rw [this] at h1
      -- the first occurrence of the event decides
      obtain ⟨q1, q2, e, hq⟩ : ∃ q1 q2, p1 = q1 ++ .raised id :: q2 ∧ (.raised id : Event L) ∉ q1 := by
        clear h1 this hm ht
        induction p1 with
        | nil => simp at hp1
        | cons y p ih =>
          by_cases hy : y = .raised id
          · subst hy; exact ⟨[], p, rfl, by simp⟩
          · have : (.raised id : Event L) ∈ p := by
              rcases List.mem_cons.1 hp1 with hh | hh
              · exact absurd hh.symm hy
              · exact hh
            obtain ⟨q1, q2, e, hq⟩ := ih this
            exact ⟨y :: q1, q2, by rw [e]; rfl, by simp [hq, Ne.symm hy]⟩
      rw [e] at h1
      have e2 : q1 ++ .raised id :: q2 ++ .raised id :: (p2 ++ .raised id :: post) =
        q1 ++ .raised id :: (q2 ++ .raised id :: (p2 ++ .raised id :: post)) := by simp
      rw [e2] at h1
      obtain ⟨-, hb⟩ := split_unique h1 hq hpre
      exact h4 (by rw [← hb]; simp)
    · have : p1 ++ .raised id :: p2 ++ .raised id :: post = p1 ++ .raised id :: (p2 ++ .raised id :: post) := by simp
      rw [this] at h1
      obtain ⟨-, hb⟩ := split_unique h1 hp1 hpre
      exact h4 (by rw [← hb]; simp)
  obtain ⟨rfl, rfl⟩ := split_unique h1 hpre2 hpre
  refine ⟨by rw [h5, h2]; exact List.take_prefix _ _, fun hf => ?_⟩
  have := h7 (by rw [ht]; simp [hf])
  rw [h5, h2, List.take_of_length_le this]

/-- **C49**, the other direction: every call of a listener belongs to a delivery that was begun before. -/
theorem call_has_delivery {s : State L} (h : Reach s) {id : Nat} {l : L} (hc : .called id l ∈ s.trace) :
    ∃ pre post, s.trace = pre ++ .raised id :: post ∧ .called id l ∈ post := by
  have inv := reach_inv h
  have hid : id < s.begun := inv.fresh _ hc id rfl
  obtain ⟨snap, k, ⟨pre, post, h1, h2, h3, -⟩, -⟩ := inv.all id hid
  refine ⟨pre, post, h1, ?_⟩
  rw [h1] at hc
  simp only [List.mem_append, List.mem_cons, reduceCtorEq, false_or] at hc
  exact hc.resolve_left fun hm => h3 _ hm rfl

/-- A delivery that is running, is the innermost one and meets no exception can always go on, so it is
the listeners that decide when it ends. -/
theorem delivery_advances {s : State L} (h : Reach s) {f : Frame} {fs : List Frame}
    (hf : s.frames = f :: fs) :
    (∃ l, Step s { s with
      frames := { f with next := f.next + 1 } :: fs, trace := s.trace ++ [.called f.id l] }) ∨
    Step s { s with frames := fs, trace := s.trace ++ [.finished f.id] } := by
  have inv := reach_inv h
  obtain ⟨-, h2, -⟩ := inv.frame f (by rw [hf]; simp)
  by_cases hlt : f.next < f.stop
  · left
    have : f.next < (s.array f.addr).length := by omega
    exact ⟨(s.array f.addr)[f.next], .call s f fs _ hf hlt (List.getElem?_eq_getElem this)⟩
  · right; exact .finish s f fs hf (by omega)

/-- Commands, to write down concrete executions: `go` makes the next call or finishes the innermost
delivery. -/
inductive Cmd where
  | tap (l : Nat)
  | untap (l : Nat)
  | raise
  | go

/-- One command. -/
def exec1 (s : State Nat) : Cmd → Option (State Nat)
  | .tap l => some (tap l s)
  | .untap l => some (untap l s)
  | .raise => some (raise s)
  | .go => match s.frames with
    | [] => none
    | f :: fs =>
      if f.next < f.stop then
        match (s.array f.addr)[f.next]? with
        | none => none
        | some l => some { s with
            frames := { f with next := f.next + 1 } :: fs, trace := s.trace ++ [.called f.id l] }
      else some { s with frames := fs, trace := s.trace ++ [.finished f.id] }

theorem exec1_step {s s' : State Nat} {c : Cmd} (h : exec1 s c = some s') : Step s s' := by
  cases c with
  | tap l => cases h; exact .tap l s
  | untap l => cases h; exact .untap l s
  | raise => cases h; exact .raise s
  | go =>
    simp only [exec1] at h
    split at h
    · simp at h
    · rename_i f fs hf
      split at h
      · rename_i hlt
        split at h
        · simp at h
        · rename_i l hl
          cases h
          exact .call s f fs l hf hlt hl
      · rename_i hlt
        cases h
        exact .finish s f fs hf (by omega)

theorem exec_reach {cs : List Cmd} {s s' : State Nat} (hr : Reach s) (h : cs.foldlM exec1 s = some s') :
    Reach s' := by
  induction cs generalizing s with
  | nil => cases h; exact hr
  | cons c cs ih =>
    rw [List.foldlM_cons] at h
    cases h1 : exec1 s c with
    | none => rw [h1] at h; simp at h
    | some s1 => rw [h1] at h; exact ih (.step hr (exec1_step h1)) h

/-- Listeners 1, 2 and 3 are tapped and the signal is raised; listener 1 untaps itself and 2 and taps 4,
and raises again; the second delivery calls 3 and 4, the first goes on with 2 and 3. -/
example : ∃ s : State Nat, Reach s ∧ s.trace =
    [.tapped 1, .tapped 2, .tapped 3, .raised 0, .called 0 1, .untapped 1, .untapped 2, .tapped 4,
     .raised 1, .called 1 3, .called 1 4, .finished 1, .called 0 2, .called 0 3, .finished 0] :=
  ⟨_, exec_reach (cs := [.tap 1, .tap 2, .tap 3, .raise, .go, .untap 1, .untap 2, .tap 4, .raise, .go,
    .go, .go, .go, .go, .go]) .init rfl, rfl⟩

end Hound.Signal
