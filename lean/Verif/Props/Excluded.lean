import Verif.Spec.ExcludedPage
import Verif.Props.Answer
import Verif.Props.Walk

namespace Hound.Excl
open Spec JsonText Wire
open Hound.Config (Json)

/-! ### The server -/

theorem exec_append {s u : Srv} {a b : List Ev} (h : Exec s (a ++ b) u) : ∃ t, Exec s a t ∧ Exec t b u := by
  induction a generalizing s with
  | nil => exact ⟨s, .nil, h⟩
  | cons e a ih =>
    cases h with
    | cons h1 h2 =>
      obtain ⟨t, h3, h4⟩ := ih h2
      exact ⟨t, .cons h1 h3, h4⟩

/-- What holds of the server at all times. -/
structure Inv (b : Bytes) (s : Srv) : Prop where
  current : s.store s.dir = some b
  dir : s.dir ∈ s.used
  doomed : ∀ d, s.doomed = some d → d ≠ s.dir ∧ d ∈ s.used
  reads : (s.reads.map (·.1)).Nodup
  dirs : ∀ r ∈ s.reads, r.2 ∈ s.used

theorem inv_step {b : Bytes} {s t : Srv} {e : Ev} (h : Inv b s) (hs : Step s e t) : Inv (currentList b [e]) t := by
  cases hs with
  | publish hd hx =>
    refine ⟨if_pos rfl, by simp, ?_, h.reads, fun r hr => List.mem_cons_of_mem _ (h.dirs r hr)⟩
    rintro d e
    cases e
    exact ⟨fun e => hd (by have e' : s.dir = _ := e; simp only [] at e'; rw [← e']; exact h.dir), List.mem_cons_of_mem _ h.dir⟩
  | destroy hx =>
    obtain ⟨h1, h2⟩ := h.doomed _ hx
    exact ⟨(if_neg (Ne.symm h1)).trans h.current, h.dir, (fun d e => by cases e), h.reads, h.dirs⟩
  | begin hi =>
    refine ⟨h.current, h.dir, h.doomed, ?_, fun r hr => ?_⟩
    · rw [List.map_cons, List.nodup_cons]
      exact ⟨hi, h.reads⟩
    · rcases List.mem_cons.1 hr with rfl | hr
      · exact h.dir
      · exact h.dirs r hr
  | finish hi =>
    exact ⟨h.current, h.dir, h.doomed, (List.filter_sublist.map _).nodup h.reads,
      fun r hr => h.dirs r (List.mem_filter.1 hr).1⟩

theorem currentList_cons (b : Bytes) (e : Ev) (es : List Ev) : currentList b (e :: es) = currentList (currentList b [e]) es := by
  cases e <;> rfl

theorem inv_exec {b : Bytes} {s t : Srv} {es : List Ev} (h : Inv b s) (hs : Exec s es t) : Inv (currentList b es) t := by
  induction hs generalizing b with
  | nil => exact h
  | cons h1 _ ih =>
    rw [currentList_cons]
    exact ih (inv_step h h1)

theorem inv_start (b : Bytes) : Inv b (start b) :=
  ⟨rfl, by simp [start], (fun d e => by cases e), by simp [start], (fun r hr => by cases hr)⟩

/-- What holds of a request that has begun: it knows a directory whose list is `b`, or that has been destroyed. -/
structure Reading (i d : Nat) (b : Bytes) (swapped : Prop) (s : Srv) : Prop where
  mem : (i, d) ∈ s.reads
  file : s.store d = some b ∨ (s.store d = none ∧ swapped)
  dir : d = s.dir ∨ swapped

theorem reading_step {i d : Nat} {b c : Bytes} {swapped : Prop} {s t : Srv} {e : Ev} (hi : Inv c s)
    (h : Reading i d b swapped s) (hs : Step s e t) (he : ∀ x, e ≠ .finish i x) :
    Reading i d b (swapped ∨ ∃ x, e = .publish x) t := by
  have hw : ∀ {p : Prop}, swapped → swapped ∨ p := fun x => .inl x
  cases hs with
  | @publish d' b' hd hx =>
    have hne : d ≠ d' := fun e => hd (e ▸ hi.dirs _ h.mem)
    refine ⟨h.mem, ?_, .inr (.inr ⟨b', rfl⟩)⟩
    show (if d = d' then some b' else s.store d) = some b ∨ (if d = d' then some b' else s.store d) = none ∧ _
    rw [if_neg hne]
    exact h.file.imp id fun h => ⟨h.1, .inl h.2⟩
  | @destroy d' hx =>
    obtain ⟨h1, h2⟩ := hi.doomed _ hx
    refine ⟨h.mem, ?_, h.dir.imp id .inl⟩
    show (if d = d' then none else s.store d) = some b ∨ (if d = d' then none else s.store d) = none ∧ _
    by_cases hd : d = d'
    · rw [if_pos hd]
      right
      refine ⟨rfl, .inl (h.dir.resolve_left fun e => h1 (hd ▸ e))⟩
    · rw [if_neg hd]
      exact h.file.imp id fun h => ⟨h.1, .inl h.2⟩
  | begin hi => exact ⟨List.mem_cons_of_mem _ h.mem, h.file.imp id fun h => ⟨h.1, .inl h.2⟩, h.dir.imp id .inl⟩
  | @finish j d' hj =>
    refine ⟨List.mem_filter.2 ⟨h.mem, decide_eq_true fun e => ?_⟩, h.file.imp id fun h => ⟨h.1, .inl h.2⟩, h.dir.imp id .inl⟩
    exact he _ (by rw [show i = j from e])

theorem reading_exec {i d : Nat} {b c : Bytes} {swapped : Prop} {s t : Srv} {es : List Ev} (hi : Inv c s)
    (h : Reading i d b swapped s) (hs : Exec s es t) (he : ∀ x, .finish i x ∉ es) :
    Reading i d b (swapped ∨ ∃ x, .publish x ∈ es) t := by
  induction hs generalizing c swapped with
  | nil => exact ⟨h.mem, h.file.imp id fun h => ⟨h.1, .inl h.2⟩, h.dir.imp id .inl⟩
  | @cons s t u e es h1 _ ih =>
    have := ih (inv_step hi h1) (reading_step hi h h1 fun x e => he x (by simp [e])) fun x hx => he x (List.mem_cons_of_mem _ hx)
    have hw : ((swapped ∨ ∃ x, e = .publish x) ∨ ∃ x, .publish x ∈ es) → (swapped ∨ ∃ x, Ev.publish x ∈ e :: es) := by
      rintro ((h | ⟨x, rfl⟩) | ⟨x, h⟩)
      · exact .inl h
      · exact .inr ⟨x, by simp⟩
      · exact .inr ⟨x, List.mem_cons_of_mem _ h⟩
    exact ⟨this.mem, this.file.imp id fun h => ⟨h.1, hw h.2⟩, this.dir.imp id hw⟩

theorem reading_begin {i : Nat} {b : Bytes} {s t : Srv} (hi : Inv b s) (h : Step s (.begin i) t) :
    Reading i s.dir b False t := by
  cases h with
  | begin => exact ⟨List.mem_cons_self .., .inl hi.current, .inl rfl⟩

theorem read_unique {l : List (Nat × Nat)} (hn : (l.map (·.1)).Nodup) {i a b : Nat} (ha : (i, a) ∈ l) (hb : (i, b) ∈ l) :
    a = b := by
  induction l with
  | nil => cases ha
  | cons r l ih =>
    rw [List.map_cons, List.nodup_cons] at hn
    rcases List.mem_cons.1 ha with e | ha <;> rcases List.mem_cons.1 hb with e' | hb
    · rw [← e] at e'; cases e'; rfl
    · exact absurd (List.mem_map.2 ⟨_, hb, by rw [← e]⟩) hn.1
    · exact absurd (List.mem_map.2 ⟨_, ha, by rw [← e']⟩) hn.1
    · exact ih hn.2 ha hb

/-- C69, exactly what the server answers to a request for the list: the list of the index that was current when the request
began, or nothing at all, and the latter only if another index was published in the meantime. -/
theorem served_list_exact {first : Bytes} {es es' : List Ev} {i : Nat} {body : Bytes} {s : Srv}
    (h : Exec (start first) (es ++ .begin i :: es' ++ [.finish i body]) s) (hf : ∀ x, .finish i x ∉ es') :
    body = currentList first es ∨ (body = [] ∧ ∃ b, .publish b ∈ es') := by
  obtain ⟨t, h1, h2⟩ := exec_append h
  obtain ⟨u, h3, h4⟩ := exec_append h1
  have hu := inv_exec (inv_start first) h3
  cases h4 with
  | cons h5 h6 =>
    cases h2 with
    | cons h7 _ =>
      have hr := reading_begin hu h5
      have hi5 := inv_step hu h5
      have hr' := reading_exec hi5 hr h6 hf
      have hit := inv_exec hi5 h6
      cases h7 with
      | @finish _ d hm =>
        have hd : d = u.dir := by
          exact read_unique hit.reads hm hr'.mem
        rw [hd]
        rcases hr'.file with hf | ⟨hf, hs⟩
        · rw [hf]; exact .inl rfl
        · rw [hf]
          exact .inr ⟨rfl, hs.resolve_left id⟩

/-- The full claim of C69 for the server: the list of an index that was current at some time during the request. -/
def ServedListFull : Prop := ∀ (first : Bytes) (es es' : List Ev) (i : Nat) (body : Bytes) (s : Srv),
  Exec (start first) (es ++ .begin i :: es' ++ [.finish i body]) s → (∀ x, .finish i x ∉ es') →
  body = currentList first es ∨ .publish body ∈ es'

/-- C69 for the server, if no index is published during the request. -/
theorem served_list_partial {first : Bytes} {es es' : List Ev} {i : Nat} {body : Bytes} {s : Srv}
    (h : Exec (start first) (es ++ .begin i :: es' ++ [.finish i body]) s) (hf : ∀ x, .finish i x ∉ es')
    (hp : ∀ b, .publish b ∉ es') : body = currentList first es :=
  (served_list_exact h hf).resolve_right fun ⟨_, b, hb⟩ => hp b hb

/-- A request that begins before an index is replaced and reads after the old one was destroyed. -/
theorem lost_exec (a b : Bytes) : ∃ s, Exec (start a) ([] ++ .begin 7 :: [.publish b, .destroy] ++ [.finish 7 []]) s := by
  exact ⟨_, .cons (.begin (by simp [start])) (.cons (.publish (d := 1) (by simp [start]) rfl) (.cons (.destroy rfl)
    (.cons (Step.finish (i := 7) (d := 0) (List.mem_cons_self ..)) .nil)))⟩

theorem not_servedListFull : ¬ ServedListFull := by
  intro h
  obtain ⟨s, hs⟩ := lost_exec (listText [(b!"a", b!"b")]) (listText [])
  have hne : ∀ l, listText l ≠ [] := fun l e => by
    have := congrArg List.length e
    simp [listText, encode] at this
  rcases h _ [] _ 7 [] s hs (by simp) with e | e
  · exact hne _ e.symm
  · simp only [List.mem_cons, Ev.publish.injEq, List.not_mem_nil, or_false, reduceCtorEq] at e
    exact hne _ e.symm

/-- A request during which nothing happens, after an index was replaced. -/
example (a b : Bytes) : ∃ s, Exec (start a) ([.publish b] ++ .begin 7 :: [.destroy] ++ [.finish 7 b]) s := by
  exact ⟨_, .cons (.publish (d := 1) (by simp [start]) rfl) (.cons (.begin (by simp [start])) (.cons (.destroy rfl)
    (.cons (Step.finish (i := 7) (d := 1) (List.mem_cons_self ..)) .nil)))⟩

/-- C69: for a repository that does not exist there is no answer. -/
theorem excludes_unknown (list : Bytes → Option Bytes) (repo : Bytes) : excludes list repo = none ↔ list repo = none := by
  simp [excludes]

/-! ### The page -/

theorem rows_list (l : List (Bytes × Bytes)) : rows (conv forPage (.arr (l.map entryJson))) =
    some (l.map fun e => (forPage e.1, forPage e.2)) := by
  have hc : ∀ e : Bytes × Bytes, conv forPage (entryJson e) =
      .obj [(Ui.js b!"Filename", .str (forPage e.1)), (Ui.js b!"Reason", .str (forPage e.2))] := by
    intro e
    simp only [entryJson, conv, convMembers, convMember]
    rw [forPage_ascii (l := b!"Filename") (by decide), forPage_ascii (l := b!"Reason") (by decide)]
  rw [conv, convs_map, rows, jsArr]
  exact allSome_map (h := fun e : Bytes × Bytes => (forPage e.1, forPage e.2)) fun e _ => by
    rw [hc]
    rfl

theorem sameRows_list (l : List (Bytes × Bytes)) : SameRows l (l.map fun e => (forPage e.1, forPage e.2)) :=
  each_map_mem fun e _ => ⟨page_has e.1, page_has e.2⟩

theorem listText_ne (l : List (Bytes × Bytes)) : listText l ≠ [] := fun e => by
  have := congrArg List.length e
  simp [listText, encode] at this

/-- What the page does with a list that arrives. -/
theorem answer_list (p : Page) (k : Nat) (l : List (Bytes × Bytes)) :
    (answer p k (some (200, listText l))).screen = .table p.repo (l.map fun e => (forPage e.1, forPage e.2)) ∧
    (answer p k (some (200, listText l))).pending = p.pending.eraseIdx k := by
  have hj : jsRead (listText l) = some (conv forPage (.arr (l.map entryJson))) := jsRead_encode _
  simp only [answer, hj]
  rw [if_neg (by omega), if_neg (listText_ne l)]
  simp only [rows_list, render]
  exact ⟨rfl, rfl⟩

theorem visit_append (a b : List Act) : visit (a ++ b) =
    b.foldl (fun p x => match x with | .click r => click p r | .answer k o => answer p k o) (visit a) := by
  rw [visit, List.foldl_append]; rfl

theorem click_pending (p : Page) (r : Ui.JsStr) : (click p r).pending = p.pending ++ [r] ∧ (click p r).repo = some r ∧
    (click p r).screen = .searching := ⟨rfl, rfl, rfl⟩

theorem render_pending (p : Page) : (render p).pending = p.pending ∧ (render p).repo = p.repo := by
  rw [render]
  split
  · exact ⟨rfl, rfl⟩
  · split <;> exact ⟨rfl, rfl⟩

theorem answer_pending (p : Page) (k : Nat) (o : Option (Nat × Bytes)) :
    (answer p k o).pending = p.pending.eraseIdx k ∧ (answer p k o).repo = p.repo := by
  simp only [answer]
  split
  · exact ⟨rfl, rfl⟩
  · split
    · exact ⟨rfl, rfl⟩
    · split
      · exact render_pending _
      · split
        · exact ⟨rfl, rfl⟩
        · exact render_pending _

/-- After a calm visit no request is without an answer. -/
theorem calm_pending (rounds : List (Ui.JsStr × Option (Nat × Bytes))) : (visit (calmActs rounds)).pending = [] := by
  have : ∀ (p : Page), p.pending = [] → ((calmActs rounds).foldl (fun p x =>
      match x with | .click r => click p r | .answer k o => answer p k o) p).pending = [] := by
    induction rounds with
    | nil => intro p h; exact h
    | cons r rs ih =>
      intro p h
      show (List.foldl _ (answer (click p r.1) 0 r.2) (calmActs rs)).pending = []
      refine ih _ ?_
      rw [(answer_pending _ _ _).1, (click_pending p r.1).1, h]
      rfl
  exact this {} rfl

/-- C69 for the page, if the user waits for the outcome of every request: after a click the page says that it is
searching; when the list arrives it shows exactly that list, as the list of the repository that was clicked. -/
theorem page_list_partial (rounds : List (Ui.JsStr × Option (Nat × Bytes))) (repo : Ui.JsStr) (l : List (Bytes × Bytes)) :
    (visit (calmActs rounds ++ [.click repo])).screen = .searching ∧
    (visit (calmActs rounds ++ [.click repo])).pending = [repo] ∧
    ∃ shown, SameRows l shown ∧
      (visit (calmActs rounds ++ [.click repo, .answer 0 (some (200, listText l))])).screen = .table (some repo) shown := by
  rw [visit_append, visit_append]
  refine ⟨rfl, ?_, _, sameRows_list l, ?_⟩
  · show (click _ _).pending = _
    rw [(click_pending _ _).1, calm_pending]
    rfl
  · simp only [List.foldl_cons, List.foldl_nil]
    rw [(answer_list _ _ _).1, (click_pending _ _).2.1]

/-- The full claim of C69 for the page: what is shown as the list of a repository is the list of that repository. -/
def PageListFull : Prop := ∀ (lists : Ui.JsStr → List (Bytes × Bytes)) (acts : List Act), Honest lists acts →
  ∀ repo shown, (visit acts).screen = .table (some repo) shown → SameRows (lists repo) shown

/-- Two clicks, and the answer to the second comes first. -/
def crossed (lists : Ui.JsStr → List (Bytes × Bytes)) (a b : Ui.JsStr) : List Act :=
  [.click a, .click b, .answer 1 (some (200, listText (lists b))), .answer 0 (some (200, listText (lists a)))]

theorem crossed_honest (lists : Ui.JsStr → List (Bytes × Bytes)) (a b : Ui.JsStr) : Honest lists (crossed lists a b) := by
  intro before k o after e
  rw [crossed] at e
  rcases before with _ | ⟨x1, _ | ⟨x2, _ | ⟨x3, _ | ⟨x4, t⟩⟩⟩⟩
  · cases e
  · injection e with e1 e2; injection e2 with e2 _; cases e2
  · injection e with e1 e2; injection e2 with e2 e3; injection e3 with e3 _; cases e3; subst e1 e2
    exact ⟨b, rfl, rfl⟩
  · injection e with e1 e2; injection e2 with e2 e3; injection e3 with e3 e4; injection e4 with e4 _; cases e4
    subst e1 e2 e3
    refine ⟨a, ?_, rfl⟩
    simp only [visit, List.foldl_cons, List.foldl_nil]
    rw [(answer_pending _ _ _).1]
    rfl
  · have := congrArg List.length e
    simp at this

/-- C69: then the page shows the list of the first as that of the second. -/
theorem crossed_shows (lists : Ui.JsStr → List (Bytes × Bytes)) (a b : Ui.JsStr) :
    (visit (crossed lists a b)).screen = .table (some b) ((lists a).map fun e => (forPage e.1, forPage e.2)) := by
  simp only [visit, crossed, List.foldl_cons, List.foldl_nil]
  rw [(answer_list _ _ _).1, (answer_pending _ _ _).2, (click_pending _ _).2.1]

theorem not_pageListFull : ¬ PageListFull := by
  intro h
  have := h (fun r => if r = [97] then [(b!"f", b!"Too long")] else []) _ (crossed_honest _ [97] [98]) _ _ (crossed_shows _ _ _)
  rw [if_pos rfl, if_neg (by decide)] at this
  cases this

/-- C69: if there is no answer, or one that is empty, no JSON text or not a success, the page goes on saying that it is
searching. -/
theorem page_stuck (rounds : List (Ui.JsStr × Option (Nat × Bytes))) (repo : Ui.JsStr) (o : Option (Nat × Bytes))
    (h : ∀ st body, o = some (st, body) → st < 200 ∨ 300 ≤ st ∨ body = [] ∨ jsRead body = none) :
    (visit (calmActs rounds ++ [.click repo, .answer 0 o])).screen = .searching := by
  rw [visit_append]
  simp only [List.foldl_cons, List.foldl_nil]
  rcases o with _ | ⟨st, body⟩
  · rfl
  · simp only [answer]
    by_cases hs : st < 200 ∨ 300 ≤ st
    · rw [if_pos hs]; rfl
    · rw [if_neg hs]
      by_cases hb : body = []
      · rw [if_pos hb]; rfl
      · rw [if_neg hb, (((h st body rfl).resolve_left fun x => hs (.inl x)).resolve_left fun x => hs (.inr x)).resolve_left hb]
        rfl

/-- Outcomes of these kinds: no answer, an empty one, an error with a list as its body. -/
example : ∀ o ∈ [none, some (200, []), some (502, listText [])], ∀ st body, o = some (st, body) →
    st < 200 ∨ 300 ≤ st ∨ body = [] ∨ jsRead body = none := by
  intro o ho st body e
  simp only [List.mem_cons, List.not_mem_nil, or_false] at ho
  rcases ho with rfl | rfl | rfl <;> cases e <;> simp

/-- C69: from the text of a reason one sees which rule excluded the file. -/
theorem reasons_differ {ρ ρ' : Bytes} {a b : ExReason} (h : reasonText ρ a = reasonText ρ' b) : a = b := by
  have h0 := congrArg (fun l => l.take 10) h
  cases a with
  | add x => cases x <;> cases b <;> first | rfl | (rename_i y; cases y <;> first | rfl | simp [reasonText] at h0) | simp [reasonText] at h0
  | _ => cases b <;> first | rfl | (rename_i y; cases y <;> first | rfl | simp [reasonText] at h0) | simp [reasonText] at h0

/-- C69, from the tree of the repository over the server's answer to the rows: every file that was excluded is shown with
its reason. -/
theorem excluded_shown (d : BuiltDir) (ratio : Bytes → Bytes) {rel : Bytes} {reason : ExReason} (h : (rel, reason) ∈ d.excluded)
    (list : Bytes → Option Bytes) (name : Bytes)
    (hl : list name = some (listText (d.excluded.map fun e => (e.1, reasonText (ratio e.1) e.2))))
    (rounds : List (Ui.JsStr × Option (Nat × Bytes))) (repo : Ui.JsStr) : ∃ shown n t,
    (visit (calmActs rounds ++ [.click repo, .answer 0 (excludes list name)])).screen = .table (some repo) shown ∧
    (n, t) ∈ shown ∧ PageHas rel n ∧ PageHas (reasonText (ratio rel) reason) t := by
  rw [excludes, hl, Option.map_some]
  obtain ⟨_, _, shown, hs, he⟩ := page_list_partial rounds repo (d.excluded.map fun e => (e.1, reasonText (ratio e.1) e.2))
  have hm : (rel, reasonText (ratio rel) reason) ∈ d.excluded.map fun e => (e.1, reasonText (ratio e.1) e.2) :=
    List.mem_map.2 ⟨_, h, rfl⟩
  have : ∀ {l : List (Bytes × Bytes)} {rows : List (Ui.JsStr × Ui.JsStr)} {x : Bytes × Bytes}, SameRows l rows → x ∈ l →
      ∃ y ∈ rows, PageHas x.1 y.1 ∧ PageHas x.2 y.2 := by
    intro l rows x hs hx
    induction hs with
    | nil => cases hx
    | cons h1 _ ih =>
      rcases List.mem_cons.1 hx with rfl | hx
      · exact ⟨_, List.mem_cons_self .., h1⟩
      · obtain ⟨y, hy, h⟩ := ih hx
        exact ⟨y, List.mem_cons_of_mem _ hy, h⟩
  obtain ⟨⟨n, t⟩, hy, h1, h2⟩ := this hs hm
  exact ⟨shown, n, t, he, hy, h1, h2⟩

/-- A visit: a click that got no answer, then a list with one file. -/
example : (visit (calmActs [(Ui.js b!"a", none)] ++ [.click (Ui.js b!"b"),
    .answer 0 (some (200, listText [(b!"x.png", b!"Not a text file.")]))])).screen =
    .table (some (Ui.js b!"b")) [(Ui.js b!"x.png", Ui.js b!"Not a text file.")] := by
  rw [visit_append]
  simp only [List.foldl_cons, List.foldl_nil]
  rw [(answer_list _ _ _).1, (click_pending _ _).2.1, List.map_cons, List.map_nil,
    forPage_ascii (l := b!"x.png") (by decide), forPage_ascii (l := b!"Not a text file.") (by decide)]

end Hound.Excl
