import Verif.Spec.RepoList
import Verif.Props.UiRepos
import Verif.Proofs.ConfigFile

/-!
# C85: a search from the search bar is made in the repositories shown as selected
-/

namespace Hound.Ui
open Spec Api

/-- C85 at full strength: a page opened with some repositories in its address, any answers and changes of the list, then
a search from the bar. (All repositories can be chosen: the other names are the subject of C63.) -/
def SearchesShownFull : Prop :=
  ∀ (names chosen : List (List Rune)) (url : JsStr) (es : List ListEvent) (b : Bar) (α : Type) (idx : List (Bytes × α)),
    Names names → (∀ n ∈ names, Choosable n) → chosen.Sublist names → (idx.map (·.1)).Perm (names.map onServer) →
    IsText (trim b.q) → IsText (trim b.files) → IsText (trim b.excludeFiles) →
    chosen.map onPage = shownIn (listAfter (names.map onPage) (urlRepos url) es) →
    b.repos = reposParam (names.map onPage) (listAfter (names.map onPage) (urlRepos url) es).value →
    ∃ query, requestQuery (searchData (getParams b)) = some query ∧
      SearchesChosen names chosen (parseAsRepoList (Url.formValue query b!"repos") idx)

theorem sublist_filter {α : Type} [DecidableEq α] {s l : List α} (h : s.Sublist l) (hn : l.Nodup) :
    s = l.filter (fun x => decide (x ∈ s)) := by
  induction h with
  | slnil => rfl
  | cons a h ih =>
    rename_i s l
    obtain ⟨ha, hn⟩ := List.nodup_cons.1 hn
    have : a ∉ s := fun h' => ha (h.subset h')
    rw [List.filter_cons_of_neg (by simpa using this)]
    exact ih hn
  | cons_cons a h ih =>
    rename_i s l
    obtain ⟨ha, hn⟩ := List.nodup_cons.1 hn
    rw [List.filter_cons_of_pos (by simp)]
    congr 1
    refine (ih hn).trans ?_
    apply List.filter_congr
    intro x hx
    have : x ≠ a := fun e => ha (e ▸ hx)
    simp [this]

theorem untouched_changed {es : List ListEvent} {sel : JsStr → Bool} : ¬ Untouched (es ++ [.changed sel]) := by
  rintro ⟨a, b, e, h1, h2⟩
  rcases List.eq_nil_or_concat b with rfl | ⟨b, x, rfl⟩
  · have := congrArg List.getLast? e
    simp at this
  · have e' := congrArg List.getLast? e
    rw [List.concat_eq_append, ← List.cons_append, ← List.append_assoc] at e'
    simp only [List.getLast?_append, List.getLast?_singleton, Option.some_or, Option.some.injEq] at e'
    exact h2 sel (by rw [e']; simp)

theorem untouched_first {es : List ListEvent} (h : .answered ∉ es) : Untouched (es ++ [.answered]) :=
  ⟨es, [], rfl, h, by simp⟩

theorem untouched_again {es : List ListEvent} (h : .answered ∈ es) : Untouched (es ++ [.answered]) ↔ Untouched es := by
  constructor
  · rintro ⟨a, b, e, h1, h2⟩
    rcases List.eq_nil_or_concat b with rfl | ⟨b, x, rfl⟩
    · obtain ⟨rfl, -⟩ := List.append_inj' e rfl
      exact absurd h h1
    · rw [List.concat_eq_append, ← List.cons_append, ← List.append_assoc] at e
      obtain ⟨rfl, -⟩ := List.append_inj' e rfl
      exact ⟨a, b, rfl, h1, fun sel hs => h2 sel (by simp [hs])⟩
  · rintro ⟨a, b, rfl, h1, h2⟩
    exact ⟨a, b ++ [.answered], by simp, h1, by simpa using h2⟩

theorem selProp_plain {repos : List JsStr} {n : JsStr} (h : n ∉ protoNames) :
    selProp repos n = if n ∈ repos then .set else .absent := by
  have : n ≠ js b!"__proto__" := fun e => h (by rw [e]; decide)
  simp [selProp, h, this]

theorem listAfter_snoc (all url : List JsStr) (es : List ListEvent) (e : ListEvent) :
    listAfter all url (es ++ [e]) = (listAfter all url es).step url e := by simp [listAfter]

/-- What is known about the list after some events. -/
theorem list_inv {all url : List JsStr} (hp : ∀ n ∈ all, n ∉ protoNames) (es : List ListEvent) :
    (listAfter all url es).options.map (·.1) = all ∧
    ((.answered ∈ es → (listAfter all url es).repos = url) ∧ (.answered ∉ es → (listAfter all url es).repos = [])) ∧
    (listAfter all url es).value.Sublist all ∧
    ∀ o ∈ (listAfter all url es).options, o.2 = true ↔ o.1 ∈ (listAfter all url es).value ∨ (Untouched es ∧ o.1 ∈ url) := by
  induction es using Config.snocInd with
  | h0 =>
    refine ⟨by simp [listAfter, RepoList.loaded, Function.comp_def], ⟨by simp, fun _ => rfl⟩, by simp [listAfter, RepoList.loaded], ?_⟩
    intro o ho
    simp only [listAfter, RepoList.loaded, List.foldl_nil, List.mem_map] at ho ⊢
    obtain ⟨n, hn, rfl⟩ := ho
    have : ¬ Untouched [] := by rintro ⟨a, b, e, -⟩; simp at e
    simp [selProp_plain (hp n hn), SelProp.truthy, this]
  | h1 es e ih =>
    obtain ⟨i1, i2, i3, i4⟩ := ih
    rw [listAfter_snoc]
    generalize listAfter all url es = l at *
    have hall : ∀ o ∈ l.options, o.1 ∈ all := fun o ho => by rw [← i1]; exact List.mem_map_of_mem ho
    cases e with
    | answered =>
      refine ⟨?_, ⟨fun _ => rfl, by simp⟩, i3, ?_⟩
      · simp only [RepoList.step, RepoList.answered, List.map_map]
        refine Eq.trans (List.map_congr_left ?_) i1
        intro o ho
        simp only [Function.comp]
        split <;> rfl
      · intro o ho
        simp only [RepoList.step, RepoList.answered, List.mem_map] at ho ⊢
        obtain ⟨o', ho', rfl⟩ := ho
        have hp' := hp _ (hall o' ho')
        have i4' := i4 o' ho'
        rw [selProp_plain hp', selProp_plain hp']
        by_cases ha : ListEvent.answered ∈ es
        · rw [i2.1 ha, if_pos rfl, i4', untouched_again ha]
        · rw [i2.2 ha]
          have hu := untouched_first ha
          have hu' : ¬ Untouched es := by
            rintro ⟨a, b, rfl, -⟩
            exact ha (by simp)
          by_cases hm : o'.1 ∈ url
          · simp [hm, hu, SelProp.truthy]
          · simp [hm, i4']
    | changed sel =>
      refine ⟨?_, ⟨?_, ?_⟩, ?_, ?_⟩
      · rw [← i1]; simp [RepoList.step, RepoList.changed, Function.comp_def]
      · intro h; exact i2.1 (by simpa using h)
      · intro h; exact i2.2 (by simpa using h)
      · rw [← i1]
        exact List.Sublist.map _ List.filter_sublist
      · intro o ho
        simp only [RepoList.step, RepoList.changed, List.mem_map] at ho ⊢
        obtain ⟨o', ho', rfl⟩ := ho
        constructor
        · intro h
          exact .inl ⟨o', List.mem_filter.2 ⟨ho', h⟩, rfl⟩
        · rintro (⟨o'', h, e⟩ | ⟨h, -⟩)
          · rw [← e]; exact (List.mem_filter.1 h).2
          · exact absurd h untouched_changed

/-- What is shown as selected, exactly: the repositories that would be searched, and those of the address the page was
opened with as long as the user has not changed the list since the first answer. -/
theorem shown_exact {all url : List JsStr} (hp : ∀ n ∈ all, n ∉ protoNames) (es : List ListEvent) (n : JsStr) :
    n ∈ shownIn (listAfter all url es) ↔
      n ∈ all ∧ (n ∈ (listAfter all url es).value ∨ (Untouched es ∧ n ∈ url)) := by
  obtain ⟨i1, -, -, i4⟩ := list_inv (url := url) hp es
  simp only [shownIn, List.mem_map, List.mem_filter]
  constructor
  · rintro ⟨o, ⟨ho, h⟩, rfl⟩
    refine ⟨?_, (i4 o ho).1 h⟩
    rw [← i1]; exact List.mem_map_of_mem ho
  · rintro ⟨h, h'⟩
    rw [← i1] at h
    obtain ⟨o, ho, rfl⟩ := List.mem_map.1 h
    exact ⟨o, ⟨ho, (i4 o ho).2 h'⟩, rfl⟩

theorem shown_sublist {all url : List JsStr} (hp : ∀ n ∈ all, n ∉ protoNames) (es : List ListEvent) :
    (shownIn (listAfter all url es)).Sublist all := by
  have h : (shownIn (listAfter all url es)).Sublist ((listAfter all url es).options.map (·.1)) :=
    List.Sublist.map _ List.filter_sublist
  rwa [(list_inv hp es).1] at h

theorem units_comma {r : Nat} (h : validRune r = true) (hm : (44 : UInt16) ∈ units r) : r = 44 := by
  have hle := valid_le h
  have key : ∀ n, n < 65536 → (44 : UInt16) = UInt16.ofNat n → n = 44 := fun n hn e => by
    have := congrArg UInt16.toNat e
    rw [UInt16.toNat_ofNat_of_lt' hn] at this
    exact this.symm
  unfold units at hm
  split at hm
  · rename_i h1
    exact key r (by delta Rune at h1; omega) (List.mem_singleton.1 hm)
  · simp only [List.mem_cons, List.not_mem_nil, or_false] at hm
    rcases hm with hm | hm
    · have := key _ (by omega) hm; omega
    · have := key _ (by omega) hm; omega

theorem comma_onPage {n : List Rune} (hv : ∀ r ∈ n, validRune r = true) (h : 44 ∉ n) : (44 : UInt16) ∉ onPage n := by
  intro hm
  obtain ⟨r, hr, hm⟩ := List.mem_flatMap.1 hm
  exact h (units_comma (hv r hr) hm ▸ hr)

theorem split_separated : ∀ {l : List JsStr}, l ≠ [] → (∀ s ∈ l, (44 : UInt16) ∉ s) → splitUnit 44 (List.intercalate [44] l) = l
  | [], h, _ => absurd rfl h
  | [s], _, h => by rw [List.intercalate_singleton]; exact splitUnit_single (h s (by simp))
  | s :: t :: l, _, h => by
    rw [List.intercalate_cons_cons, List.append_assoc, List.singleton_append, splitUnit_append (h s (by simp)),
      split_separated (List.cons_ne_nil t l) fun x hx => h x (List.mem_cons_of_mem _ hx)]

theorem value_unchanged {all url : List JsStr} {es : List ListEvent} (h : ∀ sel, .changed sel ∉ es) : (listAfter all url es).value = [] := by
  induction es using Config.snocInd with
  | h0 => rfl
  | h1 es e ih =>
    rw [listAfter_snoc]
    cases e with
    | answered => exact ih fun sel hs => h sel (by simp [hs])
    | changed sel => exact absurd (by simp) (h sel)

/-- **C85**: a page opened with an address that names some repositories, separated by commas, shows exactly these as selected after
the first answer, until the user changes the list. -/
theorem address_shown {names chosen : List (List Rune)} {es : List ListEvent} (hn : Names names) (hch : ∀ n ∈ names, Choosable n)
    (hc : ∀ n ∈ chosen, n ∈ names) (he : .answered ∈ es) (hu : ∀ sel, .changed sel ∉ es) {n : List Rune} (h : n ∈ names) :
    onPage n ∈ shownIn (listAfter (names.map onPage) (urlRepos (List.intercalate [44] (chosen.map onPage))) es) ↔ n ∈ chosen := by
  have hp : ∀ n ∈ names.map onPage, n ∉ protoNames := by
    intro x hx
    obtain ⟨n, h, rfl⟩ := List.mem_map.1 hx
    exact fun h' => (hch n h).2.2.2.2.2 (object_name (hn.2 n h) h')
  have hunt : Untouched es := by
    cases es with
    | nil => simp at he
    | cons e es =>
      cases e with
      | answered => exact ⟨[], es, rfl, by simp, fun sel hs => hu sel (List.mem_cons_of_mem _ hs)⟩
      | changed sel => exact absurd List.mem_cons_self (hu sel)
  have hurl : urlRepos (List.intercalate [44] (chosen.map onPage)) = chosen.map onPage := by
    by_cases h0 : chosen = []
    · subst h0; rfl
    have hs := split_separated (l := chosen.map onPage) (by simpa using h0) fun x hx => by
      obtain ⟨n, hm, rfl⟩ := List.mem_map.1 hx
      exact comma_onPage (hn.2 n (hc n hm)) (hch n (hc n hm)).2.2.1
    unfold urlRepos
    rw [if_neg, hs]
    intro e
    rw [e] at hs
    cases chosen with
    | nil => exact h0 rfl
    | cons n t =>
      have e2 : onPage n = onPage [] := (List.cons.inj hs).1.symm
      have hm : n ∈ names := hc n List.mem_cons_self
      exact (hch n hm).1 (onPage_inj (hn.2 n hm) (by simp) e2)
  rw [shown_exact hp, value_unchanged hu, hurl]
  constructor
  · rintro ⟨-, h' | ⟨-, h'⟩⟩
    · simp at h'
    · obtain ⟨m, hm, e⟩ := List.mem_map.1 h'
      rwa [onPage_inj (hn.2 n h) (hn.2 m (hc m hm)) e.symm]
  · exact fun h' => ⟨List.mem_map_of_mem h, .inr ⟨hunt, List.mem_map_of_mem h'⟩⟩

/-- Opened with `?repos=a,c`: these two are shown as selected after two answers. -/
example : shownIn (listAfter [js b!"a", js b!"b", js b!"c"] (urlRepos (js b!"a,c")) [.answered, .answered]) = [js b!"a", js b!"c"] := by decide

example : onPage (name b!"c") ∈ shownIn (listAfter ([name b!"a", name b!"b", name b!"c"].map onPage)
    (urlRepos (List.intercalate [44] ([name b!"a", name b!"c"].map onPage))) [.answered]) :=
  (address_shown (by unfold Names; decide) (by unfold Choosable; decide) (by decide) (by simp) (by simp) (by decide)).2 (by decide)

/-- **C85**, partial: true if the user has changed the list since the first answer, or if there was no answer yet, or if
the address the page was opened with names none of the repositories. Otherwise it is false (`not_searchesShownFull`). -/
theorem searches_shown_partial {names chosen : List (List Rune)} {url : JsStr} {es : List ListEvent} {b : Bar} {α : Type}
    {idx : List (Bytes × α)} (hn : Names names) (hch : ∀ n ∈ names, Choosable n) (hc : chosen.Sublist names)
    (hi : (idx.map (·.1)).Perm (names.map onServer))
    (h1 : IsText (trim b.q)) (h2 : IsText (trim b.files)) (h3 : IsText (trim b.excludeFiles))
    (hs : chosen.map onPage = shownIn (listAfter (names.map onPage) (urlRepos url) es))
    (hb : b.repos = reposParam (names.map onPage) (listAfter (names.map onPage) (urlRepos url) es).value)
    (hu : ¬ Untouched es ∨ ∀ n ∈ names, onPage n ∉ urlRepos url) :
    ∃ query, requestQuery (searchData (getParams b)) = some query ∧
      SearchesChosen names chosen (parseAsRepoList (Url.formValue query b!"repos") idx) := by
  have hp : ∀ n ∈ names.map onPage, n ∉ protoNames := by
    intro x hx
    obtain ⟨n, h, rfl⟩ := List.mem_map.1 hx
    exact fun h' => (hch n h).2.2.2.2.2 (object_name (hn.2 n h) h')
  have hnd := nodup_onPage hn
  refine choice_partial hn hc hi h1 h2 h3 ?_ fun n h => hch n (hc.subset h)
  rw [hb, hs]
  congr 1
  rw [sublist_filter (shown_sublist hp es) hnd, sublist_filter (list_inv (url := urlRepos url) hp es).2.2.1 hnd]
  apply List.filter_congr
  intro x hx
  obtain ⟨n, h, rfl⟩ := List.mem_map.1 hx
  rw [decide_eq_decide, shown_exact hp]
  constructor
  · exact fun h' => ⟨hx, .inl h'⟩
  · rintro ⟨-, h' | ⟨h', h''⟩⟩
    · exact h'
    · rcases hu with hu | hu
      · exact absurd h' hu
      · exact absurd h'' (hu n h)

/-- Opened with `?repos=a`; after the first answer the user selects `b` as well. -/
example : ∃ query, requestQuery (searchData (getParams ⟨js b!"x", [], [], true, false, js b!"a,b"⟩)) = some query ∧
    SearchesChosen [name b!"a", name b!"b", name b!"c"] [name b!"a", name b!"b"]
      (parseAsRepoList (Url.formValue query b!"repos") [(b!"c", 1), (b!"a", 2), (b!"b", 3)]) := by
  refine searches_shown_partial (url := js b!"a")
    (es := [.answered, .changed fun n => n == js b!"a" || n == js b!"b", .answered]) ?_ ?_ ?_ ?_ ?_ ?_ ?_ ?_ ?_ (.inl ?_)
  · unfold Names; decide
  · unfold Choosable; decide
  · decide
  · decide
  · exact ascii_text b!"x" (by decide)
  · exact ascii_text b!"" (by decide)
  · exact ascii_text b!"" (by decide)
  · decide
  · decide
  · rw [show [ListEvent.answered, .changed fun n => n == js b!"a" || n == js b!"b", .answered] =
      [ListEvent.answered, .changed fun n => n == js b!"a" || n == js b!"b"] ++ [.answered] from rfl,
      untouched_again (by simp)]
    exact untouched_changed (es := [.answered])

/-- Opened with `?repos=a`, after the first answer: `a` is shown as selected, but a search from the bar is made in all
repositories. -/
theorem shown_not_searched : shownIn (listAfter [js b!"a", js b!"b"] (urlRepos (js b!"a")) [.answered]) = [js b!"a"] ∧
    (listAfter [js b!"a", js b!"b"] (urlRepos (js b!"a")) [.answered]).value = [] := by decide

/-- If the user selects `b` before the first answer comes, `a` and `b` are shown as selected, but only `b` is searched. -/
theorem shown_more :
    shownIn (listAfter [js b!"a", js b!"b", js b!"c"] (urlRepos (js b!"a")) [.changed fun n => n == js b!"b", .answered]) =
      [js b!"a", js b!"b"] ∧
    (listAfter [js b!"a", js b!"b", js b!"c"] (urlRepos (js b!"a")) [.changed fun n => n == js b!"b", .answered]).value =
      [js b!"b"] := by decide

theorem not_searchesShownFull : ¬ SearchesShownFull := by
  intro h
  obtain ⟨query, hq, hs⟩ := h [name b!"a", name b!"b"] [name b!"a"] (js b!"a") [.answered]
    ⟨js b!"x", [], [], false, false, []⟩ Nat
    [(b!"a", 1), (b!"b", 2)] (by unfold Names; decide) (by unfold Choosable; decide) (by decide) (by decide)
    (ascii_text b!"x" (by decide)) (ascii_text b!"" (by decide)) (ascii_text b!"" (by decide)) (by decide) (by decide)
  obtain ⟨query', hq', hf⟩ := repos_arrive (f := getParams ⟨js b!"x", [], [], false, false, []⟩)
    (ascii_text b!"x" (by decide)) (ascii_text b!"" (by decide)) (ascii_text b!"" (by decide)) (boolParam_text false)
    (boolParam_text false) (rs := [42]) (by decide) (by decide)
  obtain rfl : query = query' := Option.some.inj (hq.symm.trans hq')
  rw [hf] at hs
  obtain ⟨n, hn, e, h2⟩ := (hs.2 b!"b").1 (by decide +kernel)
  simp only [List.mem_cons, List.not_mem_nil, or_false] at hn
  rcases h2 with h2 | h2
  · simp at h2
  · simp only [List.mem_cons, List.not_mem_nil, or_false] at h2
    subst h2
    revert e
    decide

end Hound.Ui
