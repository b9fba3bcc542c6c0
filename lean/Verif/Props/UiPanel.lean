import Verif.Spec.Panel
import Verif.Props.UiRepoList

/-!
# C87: filters that are set are shown
-/

namespace Hound.Ui
open Spec

/-- C87 at full strength: as long as the user does not hide the panel, it is shown whenever a filter is set. (Names are not
empty and not among those every object has, see C63.) -/
def PanelFull : Prop :=
  ∀ (all : List JsStr) (f : Form) (p : Panel), (∀ n ∈ all, n ∉ protoNames ∧ n ≠ []) →
    PanelRun all f [.ordinary, .back] p → Filtering p → p.shown = true

theorem dropWhile_nil {p : UInt16 → Bool} : ∀ {s : JsStr}, s.dropWhile p = [] ↔ ∀ c ∈ s, p c = true
  | [] => by simp
  | a :: s => by
    rw [List.dropWhile_cons]
    cases h : p a <;> simp [h, dropWhile_nil (s := s)]

theorem trim_blank (s : JsStr) : trim s ≠ [] ↔ NotBlank s := by
  unfold trim NotBlank
  constructor
  · intro h
    refine Classical.byContradiction fun hn => h ?_
    have hall : ∀ c ∈ s, jsSpace c = true := fun c hc => by
      cases e : jsSpace c with
      | true => rfl
      | false => exact absurd ⟨c, hc, e⟩ hn
    have : s.dropWhile jsSpace = [] := dropWhile_nil.2 hall
    rw [this]; rfl
  · rintro ⟨c, hc, hs⟩ h
    rw [List.reverse_eq_nil_iff, dropWhile_nil] at h
    have key : ∀ (s : JsStr), c ∈ s → c ∈ s.dropWhile jsSpace := by
      intro s
      induction s with
      | nil => simp
      | cons a t ih =>
        intro hm
        rw [List.dropWhile_cons]
        split
        · rename_i ha
          rcases List.mem_cons.1 hm with rfl | hm
          · rw [hs] at ha; cases ha
          · exact ih hm
        · exact hm
    have := h c (by simpa using key s hc)
    rw [hs] at this
    cases this

theorem domValue_shown {l : RepoList} (h : ∀ o ∈ l.options, o.1 ≠ []) : l.domValue ≠ [] ↔ shownIn l ≠ [] := by
  unfold RepoList.domValue shownIn
  cases e : l.options.find? (·.2) with
  | none =>
    simp only [ne_eq, not_true_eq_false, false_iff, Classical.not_not, List.map_eq_nil_iff]
    rw [List.filter_eq_nil_iff]
    exact List.find?_eq_none.1 e
  | some o =>
    have ho := List.mem_of_find?_eq_some e
    have ht := List.find?_some e
    refine ⟨fun _ hn => ?_, fun _ => h o ho⟩
    rw [List.map_eq_nil_iff, List.filter_eq_nil_iff] at hn
    exact hn o ho ht

theorem hasValues_iff {p : Panel} (h : ∀ o ∈ p.list.options, o.1 ≠ []) : p.hasValues = true ↔ Filtering p := by
  unfold Panel.hasValues Filtering
  simp only [Bool.or_eq_true, decide_eq_true_eq, trim_blank, domValue_shown h, or_assoc]

theorem focusQuery_list (p : Panel) : p.focusQuery.list = p.list := by
  unfold Panel.focusQuery
  split
  · rfl
  · split <;> rfl

theorem focusQuery_bar (p : Panel) : p.focusQuery.bar = p.bar := by
  unfold Panel.focusQuery
  split
  · rfl
  · split <;> rfl

theorem up_list (p : Panel) : p.up.list = p.list := by
  unfold Panel.up Panel.hide
  rw [focusQuery_list]
  split <;> simp [focusQuery_list]

/-- The names of the options stay the same. -/
theorem options_names {url : List JsStr} {k : StepKind} {p p' : Panel} (h : PanelStep url k p p') :
    p'.list.options.map (·.1) = p.list.options.map (·.1) := by
  cases h with
  | query => rw [focusQuery_list]
  | files => unfold Panel.focusText; split <;> rfl
  | excludeFiles => unfold Panel.focusText; split <;> rfl
  | elsewhere => rfl
  | typed => rfl
  | filtered => rfl
  | chosen => simp [RepoList.changed, Function.comp_def]
  | offer => rfl
  | up => rw [up_list]
  | hide => unfold Panel.hide; rw [focusQuery_list]
  | answered =>
    simp only [RepoList.answered, List.map_map]
    apply List.map_congr_left
    intro o ho
    simp only [Function.comp]
    split <;> rfl
  | back => rfl

/-- Focusing the query hides the panel only if no filter is set. -/
theorem focusQuery_keeps {p : Panel} (ho : ∀ o ∈ p.list.options, o.1 ≠ []) (h : Filtering p → p.shown = true)
    (hf : Filtering p.focusQuery) : p.focusQuery.shown = true := by
  have hf' : Filtering p := by
    unfold Filtering at hf ⊢
    rwa [focusQuery_list, focusQuery_bar] at hf
  have hv := (hasValues_iff ho).2 hf'
  unfold Panel.focusQuery
  split
  · exact h hf'
  · simp only [hv]
    exact h hf'

/-- **C87**, partial: true if the address the page was opened with names none of the repositories, and as long as the user
does not go back. Otherwise it is false (`not_panelFull`). -/
theorem panel_partial {all : List JsStr} {f : Form} {p : Panel} (ha : ∀ n ∈ all, n ∉ protoNames ∧ n ≠ [])
    (hu : ∀ n ∈ all, n ∉ urlRepos f.repos) (h : PanelRun all f [.ordinary] p) : Filtering p → p.shown = true := by
  have inv : p.list.options.map (·.1) = all ∧ (∀ n ∈ all, n ∉ p.list.repos) ∧ (Filtering p → p.shown = true) := by
    induction h with
    | opened =>
      refine ⟨by simp [Panel.opened, RepoList.loaded, Function.comp_def], by simp [Panel.opened, RepoList.loaded], ?_⟩
      intro hf
      have hs : shownIn (RepoList.loaded all) = [] := by
        simp only [shownIn, RepoList.loaded, List.map_eq_nil_iff, List.filter_eq_nil_iff, List.mem_map]
        rintro o ⟨n, hn, rfl⟩
        simp [selProp_plain (ha n hn).1, SelProp.truthy]
      have hv : (Panel.hasValues { bar := setParams f ⟨[], [], [], false, false, []⟩, list := ⟨[], [], []⟩ }) = true := by
        rw [hasValues_iff (by simp)]
        have e : (Panel.opened all f).bar = setParams f ⟨[], [], [], false, false, []⟩ := by
          unfold Panel.opened
          dsimp only
          split <;> rfl
        have e' : (Panel.opened all f).list = RepoList.loaded all := rfl
        unfold Filtering at hf ⊢
        rw [e, e', hs] at hf
        rcases hf with h | h | h | h | h
        · exact .inl h
        · exact .inr (.inl h)
        · exact .inr (.inr (.inl h))
        · exact .inr (.inr (.inr (.inl h)))
        · exact absurd rfl h
      unfold Panel.opened
      dsimp only
      rw [if_pos hv]
      rfl
    | step hr hk hs ih =>
      rename_i k p p'
      obtain ⟨i1, i2, i3⟩ := ih
      have ho : ∀ o ∈ p.list.options, o.1 ≠ [] := fun o h =>
        (ha o.1 (by rw [← i1]; exact List.mem_map_of_mem h)).2
      refine ⟨(options_names hs).trans i1, ?_⟩
      cases hs with
      | query => exact ⟨by rw [focusQuery_list]; exact i2, focusQuery_keeps ho i3⟩
      | files =>
        unfold Panel.focusText
        split
        · exact ⟨i2, i3⟩
        · exact ⟨i2, fun _ => rfl⟩
      | excludeFiles =>
        unfold Panel.focusText
        split
        · exact ⟨i2, i3⟩
        · exact ⟨i2, fun _ => rfl⟩
      | elsewhere => exact ⟨i2, i3⟩
      | typed => exact ⟨i2, i3⟩
      | filtered hsh => exact ⟨i2, fun _ => hsh⟩
      | chosen hsh => exact ⟨i2, fun _ => hsh⟩
      | offer => exact ⟨i2, fun _ => rfl⟩
      | up =>
        refine ⟨by rw [up_list]; exact i2, ?_⟩
        cases hn : p.noTexts with
        | true => simp [hn] at hk
        | false =>
          have e : p.up = p.focusQuery := by simp [Panel.up, hn]
          rw [e]
          exact focusQuery_keeps ho i3
      | hide => simp at hk
      | answered =>
        refine ⟨hu, ?_⟩
        have e : (p.list.answered (urlRepos f.repos)).options = p.list.options := by
          refine Eq.trans (List.map_congr_left ?_) (List.map_id _)
          intro o h
          have hm : o.1 ∈ all := by rw [← i1]; exact List.mem_map_of_mem h
          rw [selProp_plain (ha _ hm).1, selProp_plain (ha _ hm).1, if_neg (hu _ hm), if_neg (i2 _ hm), if_pos rfl]
          rfl
        intro hf
        apply i3
        unfold Filtering shownIn at hf ⊢
        rwa [e] at hf
      | back => simp at hk
  exact inv.2.2

/-- The panel of a page that has just been opened, exactly: it is shown if one of the four filters other than the
repositories is set in the address. -/
theorem opened_shown (all : List JsStr) (f : Form) : (Panel.opened all f).shown = true ↔
    NotBlank f.files ∨ NotBlank f.excludeFiles ∨ saysYes f.i = true ∨ saysYes f.literal = true := by
  have h := hasValues_iff (p := { bar := setParams f ⟨[], [], [], false, false, []⟩, list := ⟨[], [], []⟩ }) (by simp)
  have e : Filtering { bar := setParams f ⟨[], [], [], false, false, []⟩, list := ⟨[], [], []⟩ } ↔
      NotBlank f.files ∨ NotBlank f.excludeFiles ∨ saysYes f.i = true ∨ saysYes f.literal = true := by
    simp [Filtering, shownIn, setParams, paramToBool_eq]
  rw [e] at h
  rw [← h]
  unfold Panel.opened
  dsimp only
  split
  · rename_i hv; simp [hv, Panel.reveal]
  · rename_i hv; simp [hv]

/-- Either the panel or the line that offers it is shown, whatever the user does. -/
theorem offer_or_panel {all : List JsStr} {f : Form} {kinds : List StepKind} {p : Panel} (h : PanelRun all f kinds p) :
    p.offer = !p.shown := by
  have hq : ∀ p : Panel, p.offer = !p.shown → p.focusQuery.offer = !p.focusQuery.shown := by
    intro p h
    unfold Panel.focusQuery
    split
    · exact h
    · split
      · exact h
      · rfl
  have ht : ∀ (p : Panel) (x : Focus), p.offer = !p.shown → (p.focusText x).offer = !(p.focusText x).shown := by
    intro p x h
    unfold Panel.focusText
    split
    · exact h
    · rfl
  induction h with
  | opened =>
    unfold Panel.opened
    dsimp only
    split <;> rfl
  | step hr hk hs ih =>
    cases hs with
    | query => exact hq _ ih
    | files => exact ht _ _ ih
    | excludeFiles => exact ht _ _ ih
    | elsewhere => exact ih
    | typed => exact ih
    | filtered => exact ih
    | chosen => exact ih
    | offer => rfl
    | up =>
      unfold Panel.up Panel.hide
      split
      · exact hq _ (hq _ rfl)
      · exact hq _ ih
    | hide => exact hq _ rfl
    | answered => exact ih
    | back => exact ih

/-- **C87**: the key "up" in one of the two texts hides the panel if there is nothing but white space in them, and leaves it as it is otherwise. -/
theorem key_up {p : Panel} (ho : ∀ o ∈ p.list.options, o.1 ≠ []) :
    (NotBlank p.bar.files ∨ NotBlank p.bar.excludeFiles → p.up.shown = p.shown ∧ p.up.offer = p.offer) ∧
    (¬ NotBlank p.bar.files → ¬ NotBlank p.bar.excludeFiles → p.up.shown = false ∧ p.up.offer = true) := by
  constructor
  · intro h
    have hn : ¬ p.noTexts = true := by
      unfold Panel.noTexts
      simp only [Bool.and_eq_true, decide_eq_true_eq]
      rintro ⟨h1, h2⟩
      rcases h with h | h
      · exact (trim_blank _).2 h h1
      · exact (trim_blank _).2 h h2
    have hv := (hasValues_iff ho).2 (h.elim .inl fun h => .inr (.inl h))
    unfold Panel.up
    rw [if_neg hn]
    unfold Panel.focusQuery
    rw [if_pos hv]
    split <;> exact ⟨rfl, rfl⟩
  · intro h1 h2
    have hn : p.noTexts = true := by
      unfold Panel.noTexts
      simp only [Bool.and_eq_true, decide_eq_true_eq]
      exact ⟨Classical.byContradiction fun k => h1 ((trim_blank _).1 k), Classical.byContradiction fun k => h2 ((trim_blank _).1 k)⟩
    unfold Panel.up Panel.hide
    rw [if_pos hn]
    have key : ∀ q : Panel, q.shown = false ∧ q.offer = true → q.focusQuery.shown = false ∧ q.focusQuery.offer = true := by
      intro q hq
      unfold Panel.focusQuery
      split
      · exact hq
      · split
        · exact hq
        · exact ⟨rfl, rfl⟩
    exact key _ (key _ ⟨rfl, rfl⟩)

/-- The form of an address with these repositories and this pattern for files. -/
def panelForm (repos files : JsStr) : Form := ⟨js b!"x", js b!"nope", js b!"nope", files, [], repos⟩

/-- A page opened with a pattern for files shows the panel, also after the user has focused the query and an answer has
come. -/
example : ∃ p, PanelRun [js b!"a"] (panelForm [] (js b!"go")) [.ordinary] p ∧ Filtering p ∧ p.shown = true := by
  have r : PanelRun [js b!"a"] (panelForm [] (js b!"go")) [.ordinary] _ :=
    .step (.step (.step .opened (by simp) .elsewhere) (by simp) .query) (by simp) .answered
  refine ⟨_, r, ?_, panel_partial (by decide) (by decide) r ?_⟩ <;> exact .inl ⟨103, by decide, by decide⟩

/-- A page opened with a repository only: after the first answer the repository is shown as selected in a panel that is
not shown. -/
theorem repo_hidden : ∃ p, PanelRun [js b!"a"] (panelForm (js b!"a") []) [.ordinary, .back] p ∧ Filtering p ∧
    p.shown = false :=
  ⟨_, .step .opened (by simp) .answered, by unfold Filtering; right; right; right; right; decide, by decide⟩

/-- With a pattern for files, the panel stays. -/
example : (Panel.opened [js b!"a"] (panelForm [] (js b!"go"))).up.shown = true :=
  ((key_up (p := Panel.opened [js b!"a"] (panelForm [] (js b!"go"))) (by decide)).1 (.inl ⟨103, by decide, by decide⟩)).1.trans (by decide)

/-- The user goes back to a search in some files only. -/
theorem back_hidden : ∃ p, PanelRun [js b!"a"] (panelForm [] []) [.ordinary, .back] p ∧ Filtering p ∧ p.shown = false :=
  ⟨_, .step .opened (by simp) (.back (f := panelForm [] (js b!"go"))), .inl ⟨103, by decide, by decide⟩, by decide⟩

theorem not_panelFull : ¬ PanelFull := by
  intro h
  obtain ⟨p, r, hf, hs⟩ := repo_hidden
  rw [h _ _ p (by decide) r hf] at hs
  cases hs

end Hound.Ui
