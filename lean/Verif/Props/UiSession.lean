import Verif.Spec.Session

/-!
# C61: what the page shows belongs to the search asked for last; C62: the page tells where a search stands
-/

namespace Hound.Ui
open Spec

variable {accepts : Pattern → Bool} {le : JsStr → JsStr → Bool}

theorem paramToBool_eq (v : JsStr) : paramToBool v = saysYes v := by
  simp only [paramToBool, saysYes, yesWords]
  rw [Bool.eq_iff_iff]
  simp [or_assoc]

theorem paramToBool_boolParam (b : Bool) : paramToBool (boolParam b) = b := by
  cases b <;> decide

/-! ## C61 -/

theorem trim_trimmed (s : JsStr) : Trimmed s (trim s) := by
  have h1 : s = s.takeWhile jsSpace ++ s.dropWhile jsSpace := List.takeWhile_append_dropWhile.symm
  have h2 : (s.dropWhile jsSpace).reverse = (s.dropWhile jsSpace).reverse.takeWhile jsSpace ++
      (s.dropWhile jsSpace).reverse.dropWhile jsSpace := List.takeWhile_append_dropWhile.symm
  have h3 : s.dropWhile jsSpace = trim s ++ ((s.dropWhile jsSpace).reverse.takeWhile jsSpace).reverse := by
    have := congrArg List.reverse h2
    rw [List.reverse_reverse, List.reverse_append] at this
    exact this
  refine ⟨s.takeWhile jsSpace, ((s.dropWhile jsSpace).reverse.takeWhile jsSpace).reverse, ?_, ?_, ?_, ?_⟩
  · rw [List.append_assoc, ← h3]; exact h1
  · intro c hc
    rcases List.mem_append.1 hc with hc | hc
    · exact List.all_eq_true.1 List.all_takeWhile c hc
    · exact List.all_eq_true.1 List.all_takeWhile c (List.mem_reverse.1 hc)
  · intro c hc
    have h4 : (s.dropWhile jsSpace).head? = some c := by
      rw [h3]
      cases ht : trim s with
      | nil => rw [ht] at hc; cases hc
      | cons x xs => rw [ht] at hc; exact hc
    have := List.head?_dropWhile_not jsSpace s
    rw [h4] at this
    simpa using this
  · intro c hc
    have h4 : ((s.dropWhile jsSpace).reverse.dropWhile jsSpace).head? = some c := by
      rw [← hc, trim, List.getLast?_reverse]
    have := List.head?_dropWhile_not jsSpace (s.dropWhile jsSpace).reverse
    rw [h4] at this
    simpa using this

/-- A search from the search bar asks for what its controls say: the texts without white space around them, the boxes as
they are checked, and the pattern that will be highlighted is that of the request. -/
theorem bar_asks (b : Bar) : Trimmed b.q (getParams b).q ∧ Trimmed b.files (getParams b).files ∧
    Trimmed b.excludeFiles (getParams b).excludeFiles ∧ (getParams b).repos = b.repos ∧
    saysYes (getParams b).i = b.ignoreCase ∧ saysYes (getParams b).literal = b.literal ∧
    barPattern b = sought (getParams b) := by
  refine ⟨trim_trimmed _, trim_trimmed _, trim_trimmed _, rfl, ?_, ?_, ?_⟩
  · rw [getParams, ← paramToBool_eq, paramToBool_boolParam]
  · rw [getParams, ← paramToBool_eq, paramToBool_boolParam]
  · simp [barPattern, sought, getParams, ← paramToBool_eq, paramToBool_boolParam]

example : trim (js b!"  a b\t") = js b!"a b" := by decide

/-- **C61**, full statement: at every moment of every visit, the files on the screen were found for the search asked for
last, and its pattern is highlighted. -/
def ShowsLastFull : Prop :=
  ∀ (accepts : Pattern → Bool) (le : JsStr → JsStr → Bool) (s : Session), Visit accepts le false s → ShowsLast s

/-- The screen shows no files. -/
def NoFiles (s : Session) : Prop := ∀ es p, s.screen = .list es p → es = []

/-- What holds at every moment of a calm visit. -/
structure CalmInv (s : Session) : Prop where
  params : s.params = s.asked.head?
  pending : s.pending = [] ∨
    (∃ f, s.pending = [.search f] ∧ s.asked.head? = some f ∧ barPattern s.bar = sought f ∧ NoFiles s) ∨
    (∃ n repo f, s.pending = [.more n repo f] ∧ s.current = some n ∧ s.asked.head? = some f ∧
      barPattern s.bar = sought f ∧ ∀ es, s.store[n]? = some es → Marked f es)
  kept : ∀ es p, s.screen = .list es p → es ≠ [] → ∀ n, s.current = some n → ∀ f, s.asked.head? = some f →
    ∀ a, s.store[n]? = some a → Marked f a
  shows : ShowsLast s

theorem NoFiles.showsLast {s : Session} (h : NoFiles s) : ShowsLast s := fun es p h1 h2 => absurd (h es p h1) h2

theorem render_null {store : List (List Entry)} {v : View} (h : v.results = .null) :
    ∃ sc, render store v = some sc ∧ ∀ es p, sc = .list es p → es = [] := by
  unfold render
  rw [h]
  cases v.error with
  | some e => exact ⟨_, rfl, by simp⟩
  | none =>
    simp only
    split
    · exact ⟨_, rfl, by simp⟩
    · exact ⟨_, rfl, by intro es p hh; cases hh; rfl⟩

theorem refresh_null {s : Session} (h : s.view.results = .null) : NoFiles (refresh s) := by
  obtain ⟨sc, h1, h2⟩ := render_null (store := s.store) h
  unfold refresh
  rw [h1]
  exact h2

@[simp] theorem refresh_params (s : Session) : (refresh s).params = s.params := by unfold refresh; split <;> rfl
@[simp] theorem refresh_asked (s : Session) : (refresh s).asked = s.asked := by unfold refresh; split <;> rfl
@[simp] theorem refresh_pending (s : Session) : (refresh s).pending = s.pending := by unfold refresh; split <;> rfl
@[simp] theorem refresh_bar (s : Session) : (refresh s).bar = s.bar := by unfold refresh; split <;> rfl
@[simp] theorem refresh_store (s : Session) : (refresh s).store = s.store := by unfold refresh; split <;> rfl
@[simp] theorem refresh_current (s : Session) : (refresh s).current = s.current := by unfold refresh; split <;> rfl

@[simp] theorem showResults_params (s : Session) (r : Held) : (showResults accepts s r).params = s.params := by
  unfold showResults; split <;> simp
@[simp] theorem showResults_asked (s : Session) (r : Held) : (showResults accepts s r).asked = s.asked := by
  unfold showResults; split <;> simp
@[simp] theorem showResults_pending (s : Session) (r : Held) : (showResults accepts s r).pending = s.pending := by
  unfold showResults; split <;> simp
@[simp] theorem showResults_store (s : Session) (r : Held) : (showResults accepts s r).store = s.store := by
  unfold showResults; split <;> simp
@[simp] theorem showResults_current (s : Session) (r : Held) : (showResults accepts s r).current = s.current := by
  unfold showResults; split <;> simp

/-- What the screen shows after results were handed to the view. -/
theorem showResults_screen {s : Session} {n : Nat} {es : List Entry} {p : Option Pattern}
    (h : (showResults accepts s (.array n)).screen = .list es p) :
    (p = some (barPattern s.bar) ∧ es = (s.store[n]?).getD []) ∨ s.screen = .list es p := by
  unfold showResults at h
  split at h
  · simp only [refresh, render] at h
    split at h
    · rename_i sc hsc
      simp only at h
      subst h
      split at hsc
      · cases hsc
      · injection hsc with hsc
        injection hsc with h1 h2
        exact .inl ⟨h2.symm, h1.symm⟩
    · exact .inr h
  · exact .inr h

/-- A search for something, asked for in a quiet moment. -/
theorem CalmInv.search {s : Session} (h : s.pending = []) {f : Form} (hq : f.q ≠ []) {inReact : Bool}
    (hb : barPattern s.bar = sought f) : CalmInv (search accepts inReact f s) := by
  have e : Ui.search accepts inReact f s = { refresh { s with view := { s.view with results := .null, query := f.q } } with
      params := some f, asked := f :: s.asked, pending := [.search f] } := by
    unfold Ui.search
    simp [hq, h]
  have hn : NoFiles (Ui.search accepts inReact f s) := by
    rw [e]
    exact refresh_null (s := { s with view := { s.view with results := .null, query := f.q } }) rfl
  refine ⟨by rw [e]; rfl, .inr (.inl ⟨f, by rw [e], by rw [e]; rfl, ?_, hn⟩), fun es p h1 h2 => absurd (hn es p h1) h2,
    hn.showsLast⟩
  rw [e]
  simpa using hb

theorem marked_perm {f : Form} {es es' : List Entry} (hp : es'.Perm es) (h : Marked f es) : Marked f es' :=
  fun e he => h e (hp.mem_iff.1 he)

theorem sortEntries_perm (es : List Entry) : (sortEntries le es).Perm es := List.mergeSort_perm _ _

/-- Nothing on the screen, nothing outstanding. -/
theorem CalmInv.quiet {s : Session} (h1 : s.params = s.asked.head?) (h2 : s.pending = []) (h3 : NoFiles s) : CalmInv s :=
  ⟨h1, .inl h2, fun es p a b => absurd (h3 es p a) b, h3.showsLast⟩

theorem showError_noFiles (s : Session) (e : JsStr) : NoFiles (showError s e) := refresh_null rfl

theorem boolish (b : Bool) : saysYes (boolParam b) = b := by rw [← paramToBool_eq, paramToBool_boolParam]

theorem calm_inv {s : Session} (h : Visit accepts le true s) : CalmInv s := by
  induction h with
  | @opened f ht =>
    by_cases hq : f.q = []
    · have e : opened accepts f = { bar := setParams f ⟨[], [], [], false, false, []⟩ } := by simp [opened, hq]
      rw [e]
      exact .quiet rfl rfl (by intro es p hh; cases hh; rfl)
    · have e : opened accepts f = search accepts false f { bar := setParams f ⟨[], [], [], false, false, []⟩ } := by
        simp [opened, hq]
      rw [e]
      refine .search rfl hq ?_
      simp [barPattern, setParams, sought, paramToBool_eq, ht rfl]
  | @typed s b hv hp ih =>
    have i := ih
    exact ⟨i.params, .inl (hp rfl), i.kept, i.shows⟩
  | @submitted s hv hp ih =>
    obtain ⟨h1, h2⟩ := hp rfl
    exact .search h1 h2 (by simp [barPattern, getParams, sought, boolish])
  | @wentBack s f hv hp ih =>
    obtain ⟨h1, h2, h3⟩ := hp rfl
    exact .search (s := { s with bar := setParams f s.bar }) h1 h3
      (by simp [barPattern, setParams, sought, paramToBool_eq, h2])
  | @answered s before after f out hv hp hm ih =>
    have i := ih
    rcases i.pending with h0 | ⟨g, h0, h1, h2, h3⟩ | ⟨n, repo, g, h0, h1, h2, h3, h4⟩
    · rw [h0] at hp; simp at hp
    · have e : before = [] ∧ after = [] ∧ f = g := by
        rw [h0] at hp
        match before, hp with
        | [], hp => simp at hp; exact ⟨rfl, hp.2, hp.1.symm⟩
        | a :: b, hp => simp at hp
      obtain ⟨rfl, rfl, rfl⟩ := e
      cases out with
      | error e =>
        refine .quiet ?_ ?_ (showError_noFiles _ _)
        · simp only [searchAnswered, showError, refresh_params, refresh_asked]; exact i.params
        · simp [searchAnswered, showError]
      | ok es =>
        have hme := marked_perm (sortEntries_perm (le := le) es) (hm es rfl)
        have hst : ∀ a, (s.store ++ [sortEntries le es])[s.store.length]? = some a → Marked f a := by
          intro a ha
          simp at ha
          exact ha ▸ hme
        refine ⟨?_, .inl ?_, ?_, ?_⟩
        · simp only [searchAnswered, showResults_params, showResults_asked]; exact i.params
        · simp [searchAnswered]
        · intro es' p hs hne n hn f' hf' a ha
          simp only [searchAnswered, showResults_current, showResults_asked, showResults_store, Option.some.injEq] at hn hf' ha
          subst hn
          rw [h1] at hf'
          obtain rfl := Option.some.inj hf'
          exact hst a ha
        · intro es' p hs hne
          simp only [searchAnswered] at hs
          rcases showResults_screen hs with ⟨hp1, hp2⟩ | hold
          · refine ⟨f, by simp only [searchAnswered, showResults_asked]; exact h1, ?_, ?_⟩
            · rw [hp1]; exact congrArg some h2
            · simp at hp2
              rw [hp2]
              exact hme
          · exact absurd (h3 es' p hold) hne
    · rw [h0] at hp
      match before, hp with
      | [], hp => simp at hp
      | a :: b, hp => simp at hp
  | @pressed s es p e hv hs he hlt hp ih =>
    have i := ih
    obtain ⟨h1, h2⟩ := hp rfl
    have hne : es ≠ [] := List.ne_nil_of_mem he
    obtain ⟨f, hf, hpf, hmk⟩ := i.shows es p hs hne
    unfold loadMore
    cases hcur : s.current with
    | none => simpa using i
    | some n =>
      rw [i.params, hf]
      simp only
      split
      · refine ⟨hf.symm, .inr (.inr ⟨n, e.repo, f, by simp [h1], rfl, hf, ?_, ?_⟩), fun es p a b m hm => i.kept es p a b m (hcur.trans hm), i.shows⟩
        · rw [h2] at hpf; exact Option.some.inj hpf
        · intro a ha
          exact i.kept es p hs hne n hcur f hf a ha
      · exact i
  | @gotMore s before after n repo f out hv hp hm ih =>
    have i := ih
    rcases i.pending with h0 | ⟨g, h0, h1, h2, h3⟩ | ⟨n', repo', g, h0, h1, h2, h3, h4⟩
    · rw [h0] at hp; simp at hp
    · rw [h0] at hp
      match before, hp with
      | [], hp => simp at hp
      | a :: b, hp => simp at hp
    · have e : before = [] ∧ after = [] ∧ n' = n ∧ repo' = repo ∧ g = f := by
        rw [h0] at hp
        match before, hp with
        | [], hp => simp at hp; exact ⟨rfl, hp.2, hp.1⟩
        | a :: b, hp => simp at hp
      obtain ⟨rfl, rfl, rfl, rfl, rfl⟩ := e
      cases out with
      | error e =>
        refine .quiet ?_ ?_ (showError_noFiles _ _)
        · simp only [moreAnswered, showError, refresh_params, refresh_asked]; exact i.params
        · simp [moreAnswered, showError]
      | ok o =>
        cases o with
        | none => exact ⟨i.params, .inl rfl, i.kept, i.shows⟩
        | some files =>
          have hst : ∀ a, (s.store.modify n' (addFiles repo' files))[n']? = some a → Marked g a := by
            intro a ha
            rw [List.getElem?_modify_eq] at ha
            cases hs : s.store[n']? with
            | none => rw [hs] at ha; simp at ha
            | some old =>
              rw [hs] at ha
              obtain rfl := Option.some.inj ha
              intro e he x hx
              obtain ⟨e0, he0, rfl⟩ := List.mem_map.1 he
              split at hx
              · rcases List.mem_append.1 hx with hx | hx
                · exact h4 old hs e0 he0 x hx
                · exact hm files rfl x hx
              · exact h4 old hs e0 he0 x hx
          simp only [moreAnswered, h1]
          refine ⟨?_, .inl ?_, ?_, ?_⟩
          · simp only [showResults_params, showResults_asked]; exact i.params
          · simp
          · intro es' p hs hne n hn f' hf' a ha
            simp only [showResults_current, showResults_asked, showResults_store] at hn hf' ha
            obtain rfl := Option.some.inj hn
            rw [h2] at hf'
            obtain rfl := Option.some.inj hf'
            exact hst a ha
          · intro es' p hs hne
            rcases showResults_screen hs with ⟨hp1, hp2⟩ | hold
            · refine ⟨g, by simp only [showResults_asked]; exact h2, ?_, ?_⟩
              · rw [hp1]; exact congrArg some h3
              · simp only at hp2
                cases hl : (s.store.modify n' (addFiles repo' files))[n']? with
                | none => rw [hl] at hp2; simp at hp2; exact absurd hp2 hne
                | some a =>
                  rw [hl] at hp2
                  simp only [Option.getD_some] at hp2
                  rw [hp2]
                  exact hst a hl
            · simpa using i.shows es' p hold hne

/-- **C61**, partial: in every calm visit the files on the screen were found for the search asked for last, and its pattern
is highlighted. Missing: visits in which something is typed or asked for while an answer is outstanding, searches for
nothing, and asking for more after the search bar was changed; for these the full statement is false
(`not_showsLastFull`). -/
theorem shows_last_partial {s : Session} (h : Visit accepts le true s) : ShowsLast s := (calm_inv h).shows

/-- The file `f` with one line. -/
def oneFile : FileMatch := ⟨b!"f", [⟨b!"x", 1, [], []⟩], false⟩

/-- The result of a request with the parameters `f` in the repository `r`, of `n` files. -/
def oneEntry (f : Form) (n : Nat) : Entry := ⟨js b!"r", js b!"1", [(f, oneFile)], n⟩

theorem sortEntries_one (e : Entry) : sortEntries le [e] = [e] := by simp [sortEntries]

/-- A form with the query given. -/
def barFor (q : JsStr) : Bar := ⟨q, [], [], false, false, []⟩

/-- The page opened without parameters. -/
def emptyForm : Form := ⟨[], js b!"nope", js b!"nope", [], [], []⟩

theorem opened_empty : opened (fun _ => true) emptyForm = { bar := barFor [] } := rfl

/-- Two searches, `a` and then `b`; the answer to `b` comes first, then the late answer to `a`. -/
theorem late_answer : ∃ s : Session, Visit (fun _ => true) (fun _ _ => true) false s ∧ s.pending = [] ∧
    s.asked.head? = some (getParams (barFor (js b!"b"))) ∧
    s.screen = .list [oneEntry (getParams (barFor (js b!"a"))) 1] (some (barPattern (barFor (js b!"b")))) := by
  have v0 := Visit.opened (accepts := fun _ => true) (le := fun _ _ => true) (calm := false) (f := emptyForm) (by simp)
  have v1 := Visit.submitted (Visit.typed (b := barFor (js b!"a")) v0 (by simp)) (by simp)
  have v2 := Visit.submitted (Visit.typed (b := barFor (js b!"b")) v1 (by simp)) (by simp)
  have v3 := Visit.answered (before := [.search (getParams (barFor (js b!"a")))]) (after := [])
    (f := getParams (barFor (js b!"b"))) (out := .ok [oneEntry (getParams (barFor (js b!"b"))) 1]) v2 rfl
    (by rintro es h; cases h; simp [Marked, oneEntry])
  have v4 := Visit.answered (before := []) (after := []) (f := getParams (barFor (js b!"a")))
    (out := .ok [oneEntry (getParams (barFor (js b!"a"))) 1]) v3
    (by simp only [searchAnswered, sortEntries_one]; rfl) (by rintro es h; cases h; simp [Marked, oneEntry])
  refine ⟨_, v4, ?_, ?_, ?_⟩
  · simp only [searchAnswered, sortEntries_one]; rfl
  · simp only [searchAnswered, sortEntries_one]; rfl
  · simp only [searchAnswered, sortEntries_one]; rfl

/-- The full statement is false: a late answer to an earlier search replaces the results of the last one. -/
theorem not_showsLastFull : ¬ ShowsLastFull := by
  intro h
  obtain ⟨s, hv, -, ha, hs⟩ := late_answer
  obtain ⟨f, hf, -, hm⟩ := h _ _ s hv _ _ hs (by simp)
  rw [ha] at hf
  obtain rfl := Option.some.inj hf
  have := hm _ (List.mem_singleton.2 rfl) (getParams (barFor (js b!"a")), oneFile) (by simp [oneEntry])
  have e : (getParams (barFor (js b!"a"))).q = (getParams (barFor (js b!"b"))).q := congrArg Form.q this
  exact absurd e (by decide)

/-- It is also false of a visit with a single search: the pattern highlighted is the text that stands in the search bar when
the answer comes. -/
theorem typed_meanwhile : ∃ s : Session, Visit (fun _ => true) (fun _ _ => true) false s ∧ s.pending = [] ∧
    s.asked = [getParams (barFor (js b!"a"))] ∧
    s.screen = .list [oneEntry (getParams (barFor (js b!"a"))) 1] (some (barPattern (barFor (js b!"b")))) := by
  have v0 := Visit.opened (accepts := fun _ => true) (le := fun _ _ => true) (calm := false) (f := emptyForm) (by simp)
  have v1 := Visit.submitted (Visit.typed (b := barFor (js b!"a")) v0 (by simp)) (by simp)
  have v2 := Visit.typed (b := barFor (js b!"b")) v1 (by simp)
  have v3 := Visit.answered (before := []) (after := []) (f := getParams (barFor (js b!"a")))
    (out := .ok [oneEntry (getParams (barFor (js b!"a"))) 1]) v2 rfl (by rintro es h; cases h; simp [Marked, oneEntry])
  refine ⟨_, v3, ?_, ?_, ?_⟩
  · simp only [searchAnswered, sortEntries_one]; rfl
  · simp only [searchAnswered, sortEntries_one]; rfl
  · simp only [searchAnswered, sortEntries_one]; rfl

/-- After a late answer the button loads the files of another search: the results of `a` are shown, and the files loaded
into them are found for `b`. -/
theorem mixed_results : ∃ s : Session, Visit (fun _ => true) (fun _ _ => true) false s ∧
    s.screen = .list [⟨js b!"r", js b!"1", [(getParams (barFor (js b!"a")), oneFile), (getParams (barFor (js b!"b")), oneFile)], 2⟩]
      (some (barPattern (barFor (js b!"b")))) := by
  have v0 := Visit.opened (accepts := fun _ => true) (le := fun _ _ => true) (calm := false) (f := emptyForm) (by simp)
  have v1 := Visit.submitted (Visit.typed (b := barFor (js b!"a")) v0 (by simp)) (by simp)
  have v2 := Visit.submitted (Visit.typed (b := barFor (js b!"b")) v1 (by simp)) (by simp)
  have v3 := Visit.answered (before := []) (after := [.search (getParams (barFor (js b!"b")))])
    (f := getParams (barFor (js b!"a"))) (out := .ok [oneEntry (getParams (barFor (js b!"a"))) 2]) v2 rfl
    (by rintro es h; cases h; simp [Marked, oneEntry])
  simp only [searchAnswered, sortEntries_one] at v3
  have v4 := Visit.pressed (es := [oneEntry (getParams (barFor (js b!"a"))) 2])
    (p := some (barPattern (barFor (js b!"b")))) (e := oneEntry (getParams (barFor (js b!"a"))) 2) v3 rfl (by simp)
    (by decide) (by simp)
  have v5 := Visit.gotMore (before := [.search (getParams (barFor (js b!"b")))]) (after := []) (n := 0) (repo := js b!"r")
    (f := getParams (barFor (js b!"b"))) (out := .ok (some [(getParams (barFor (js b!"b")), oneFile)])) v4 rfl
    (by rintro es h; cases h; simp)
  exact ⟨_, v5, rfl⟩

/-- A calm visit: a search, its answer with one of two files, the second file loaded. -/
example : ∃ s : Session, Visit (fun _ => true) (fun _ _ => true) true s ∧
    s.screen = .list [⟨js b!"r", js b!"1", [(getParams (barFor (js b!"a")), oneFile), (getParams (barFor (js b!"a")), oneFile)], 2⟩]
      (some (barPattern (barFor (js b!"a")))) := by
  have v0 := Visit.opened (accepts := fun _ => true) (le := fun _ _ => true) (calm := true) (f := emptyForm)
    (fun _ => by decide)
  have v1 := Visit.submitted (Visit.typed (b := barFor (js b!"a")) v0 (fun _ => rfl)) (fun _ => ⟨rfl, by decide⟩)
  have v2 := Visit.answered (before := []) (after := [])
    (f := getParams (barFor (js b!"a"))) (out := .ok [oneEntry (getParams (barFor (js b!"a"))) 2]) v1 rfl
    (by rintro es h; cases h; simp [Marked, oneEntry])
  simp only [searchAnswered, sortEntries_one] at v2
  have v3 := Visit.pressed (es := [oneEntry (getParams (barFor (js b!"a"))) 2])
    (p := some (barPattern (barFor (js b!"a")))) (e := oneEntry (getParams (barFor (js b!"a"))) 2) v2 rfl (by simp)
    (by decide) (fun _ => ⟨rfl, rfl⟩)
  have v4 := Visit.gotMore (before := []) (after := []) (n := 0) (repo := js b!"r")
    (f := getParams (barFor (js b!"a"))) (out := .ok (some [(getParams (barFor (js b!"a")), oneFile)])) v3 rfl
    (by rintro es h; cases h; simp)
  exact ⟨_, v4, rfl⟩

/-! ## C62 -/

/-- **C62**, full statement: after a search was asked for, the page says that it is searching, or at once that there is
nothing if there is nothing to search for; after its answer it shows all results in order, or says that there are none,
or shows the error. -/
def TellsFull : Prop :=
  ∀ (accepts : Pattern → Bool) (le : JsStr → JsStr → Bool) (s : Session), Visit accepts le false s →
    (∀ a b, le a b = true ∨ le b a = true) → (∀ a b c, le a b = true → le b c = true → le a c = true) →
    (∀ inReact f, (search accepts inReact f s).screen = if f.q = [] then .nothing else .searching) ∧
    (∀ e, (searchAnswered accepts le s (.error e)).screen = .error e) ∧
    (searchAnswered accepts le s (.ok [])).screen = .nothing ∧
    ∀ es, es ≠ [] → ∃ shown p, (searchAnswered accepts le s (.ok es)).screen = .list shown p ∧ shown.Perm es ∧
      InOrder le shown

theorem sortEntries_inOrder (ht : ∀ a b, le a b = true ∨ le b a = true)
    (htr : ∀ a b c, le a b = true → le b c = true → le a c = true) (es : List Entry) : InOrder le (sortEntries le es) := by
  refine List.Pairwise.imp ?_ (List.pairwise_mergeSort (le := entryLe le) ?_ ?_ es)
  · intro a b h
    simpa [entryLe] using h
  · intro a b c h1 h2
    simp only [entryLe, Bool.or_eq_true, Bool.and_eq_true, decide_eq_true_eq, beq_iff_eq] at h1 h2 ⊢
    rcases h1 with h1 | ⟨h1, h1'⟩ <;> rcases h2 with h2 | ⟨h2, h2'⟩
    · left; omega
    · left; omega
    · left; omega
    · right; exact ⟨by omega, htr _ _ _ h1' h2'⟩
  · intro a b
    simp only [entryLe, Bool.or_eq_true, Bool.and_eq_true, decide_eq_true_eq, beq_iff_eq]
    rcases Nat.lt_trichotomy a.files.length b.files.length with h | h | h
    · right; left; exact h
    · rcases ht a.repo b.repo with h' | h'
      · left; right; exact ⟨h.symm, h'⟩
      · right; right; exact ⟨h, h'⟩
    · left; left; exact h

/-- **C62**, partial, for every state of the page. Missing: the page says that it is searching only if it shows no error
(otherwise the error stays), a search for nothing from the search bar leaves the screen as it is, and results are shown
only if the browser accepts the pattern; for these the full statement is false (`not_tellsFull`). -/
theorem tells_partial (s : Session) (ht : ∀ a b, le a b = true ∨ le b a = true)
    (htr : ∀ a b c, le a b = true → le b c = true → le a c = true) :
    (∀ inReact f, f.q ≠ [] → (search accepts inReact f s).screen =
      match s.view.error with | some e => .error e | none => .searching) ∧
    (∀ f, f.q = [] → accepts (barPattern s.bar) = true → (search accepts true f s).screen = s.screen) ∧
    (∀ e, (searchAnswered accepts le s (.error e)).screen = .error e) ∧
    (accepts (barPattern s.bar) = true → (searchAnswered accepts le s (.ok [])).screen = .nothing ∧
      ∀ es, es ≠ [] → ∃ shown, (searchAnswered accepts le s (.ok es)).screen = .list shown (some (barPattern s.bar)) ∧
        shown.Perm es ∧ InOrder le shown) ∧
    (accepts (barPattern s.bar) = false → ∀ es, (searchAnswered accepts le s (.ok es)).screen = s.screen) := by
  refine ⟨fun inReact f hq => ?_, fun f hq ha => ?_, fun e => ?_, fun ha => ⟨?_, fun es hne => ?_⟩, fun ha es => ?_⟩
  · unfold search
    simp only [hq, false_and, and_false, if_false]
    unfold refresh render
    cases s.view.error with
    | some e => rfl
    | none => simp [hq]
  · unfold search
    simp only [hq, ha, and_self, if_true]
    unfold showResults
    split
    · rfl
    · rfl
  · rfl
  · simp [searchAnswered, showResults, ha, refresh, render, sortEntries]
  · refine ⟨sortEntries le es, ?_, sortEntries_perm es, sortEntries_inOrder ht htr es⟩
    have hl : (sortEntries le es).length ≠ 0 := by
      rw [(sortEntries_perm es).length_eq]
      exact fun h => hne (List.length_eq_zero_iff.1 h)
    simp [searchAnswered, showResults, ha, refresh, render, hl]
  · simp [searchAnswered, showResults, ha]

/-- After an error, a new search is not announced: the page shows the error until the answer comes. -/
theorem error_stays : ∃ s : Session, Visit (fun _ => true) (fun _ _ => true) true s ∧ ∀ f, f.q ≠ [] →
    (search (fun _ => true) true f s).screen = .error (js b!"The server broke down") := by
  have v0 := Visit.opened (accepts := fun _ => true) (le := fun _ _ => true) (calm := true) (f := emptyForm)
    (fun _ => by decide)
  have v1 := Visit.submitted (Visit.typed (b := barFor (js b!"a")) v0 (fun _ => rfl)) (fun _ => ⟨rfl, by decide⟩)
  have v2 := Visit.answered (before := []) (after := [])
    (f := getParams (barFor (js b!"a"))) (out := .error (js b!"The server broke down")) v1 rfl (by simp)
  refine ⟨_, v2, fun f hq => ?_⟩
  unfold search
  simp only [hq, false_and, and_false, if_false]
  rfl

/-- A pattern the server accepts and the browser does not, for instance `(?i)x`: the page goes on saying that it is
searching after the answer came. -/
theorem refused_pattern {accepts : Pattern → Bool} {b : Bar} (hq : trim b.q ≠ []) (ha : accepts (barPattern b) = false)
    (f : Form) (hf : f.q = []) (es : List Entry) (hes : Marked (getParams b) es) :
    ∃ s : Session, Visit accepts le false s ∧ s.pending = [] ∧ s.screen = .searching := by
  have v0 := Visit.opened (accepts := accepts) (le := le) (calm := false) (f := f) (by simp)
  have e0 : opened accepts f = { bar := setParams f ⟨[], [], [], false, false, []⟩ } := by simp [opened, hf]
  rw [e0] at v0
  have v1 := Visit.submitted (Visit.typed (b := b) v0 (by simp)) (by simp)
  have e1 : search accepts true (getParams b) { bar := b } =
      { bar := b, params := some (getParams b), pending := [.search (getParams b)], asked := [getParams b],
        view := { query := trim b.q }, screen := .searching } := by
    have hq' : (getParams b).q ≠ [] := hq
    have hq'' : (getParams b).q = trim b.q := rfl
    unfold search
    simp only [hq', false_and, and_false, if_false]
    unfold refresh render
    simp [hq'', hq]
  simp only at v1
  rw [e1] at v1
  have v2 := Visit.answered (before := []) (after := []) (f := getParams b) (out := .ok es) v1 rfl
    (by rintro _ h; cases h; exact hes)
  refine ⟨_, v2, ?_, ?_⟩
  · simp [searchAnswered]
  · simp [searchAnswered, showResults, ha]

/-- The full statement is false: a search for nothing, pressed in the search bar of the page just opened, does not say that
there are no results. -/
theorem not_tellsFull : ¬ TellsFull := by
  intro h
  have v0 := Visit.opened (accepts := fun _ => true) (le := fun _ _ => true) (calm := false) (f := emptyForm) (by simp)
  have := (h _ _ _ v0 (by simp) (by simp)).1 true emptyForm
  rw [(tells_partial (le := fun _ _ => true) (opened (fun _ => true) emptyForm) (by simp) (by simp)).2.1 emptyForm rfl rfl] at this
  rw [if_pos (show emptyForm.q = [] from rfl)] at this
  cases this

/-- Two results, the one with more files first. -/
example : (searchAnswered (fun _ => true) (fun _ _ => true) { bar := barFor (js b!"a") }
    (.ok [oneEntry emptyForm 1])).screen = .list [oneEntry emptyForm 1] (some (barPattern (barFor (js b!"a")))) := by
  simp only [searchAnswered, sortEntries_one]; rfl

end Hound.Ui
