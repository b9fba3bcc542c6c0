import Verif.Spec.Boxes

/-!
# C86: the boxes of the result page open and close as the user asks
-/

namespace Hound.Ui
open Spec

theorem keepFiles_get : ∀ (os autos : List Bool) (j : Nat), (keepFiles os autos)[j]? =
    (autos[j]?).map fun a => (os[j]?).getD (!a)
  | os, [], j => by simp [keepFiles]
  | [], a :: autos, 0 => by simp [keepFiles]
  | [], a :: autos, j + 1 => by simp [keepFiles, keepFiles_get [] autos j]
  | o :: os, a :: autos, 0 => by simp [keepFiles]
  | o :: os, a :: autos, j + 1 => by simp [keepFiles, keepFiles_get os autos j]

theorem keepRepos_get : ∀ (bs : List RepoBox) (ms : List (List Bool)) (i : Nat), (keepRepos bs ms)[i]? =
    (ms[i]?).map fun m => ⟨((bs[i]?).map (·.isOpen)).getD true, keepFiles (((bs[i]?).map (·.files)).getD []) m⟩
  | bs, [], i => by simp [keepRepos]
  | [], m :: ms, 0 => by simp [keepRepos]
  | [], m :: ms, i + 1 => by simp [keepRepos, keepRepos_get [] ms i]
  | b :: bs, m :: ms, 0 => by simp [keepRepos]
  | b :: bs, m :: ms, i + 1 => by simp [keepRepos, keepRepos_get bs ms i]

/-- The boxes have the shape of the results. -/
def Shaped (s : Boxes) : Prop := s.repos.map (·.files.length) = s.marks.map List.length

theorem keepFiles_length (os autos : List Bool) : (keepFiles os autos).length = autos.length := by
  induction autos generalizing os with
  | nil => simp [keepFiles]
  | cons a autos ih => cases os <;> simp [keepFiles, ih]

theorem keepRepos_shape (bs : List RepoBox) (ms : List (List Bool)) :
    (keepRepos bs ms).map (·.files.length) = ms.map List.length := by
  induction ms generalizing bs with
  | nil => simp [keepRepos]
  | cons m ms ih => cases bs <;> simp [keepRepos, ih, keepFiles_length]

theorem toggleRepo_length (a b : RepoBox) : (toggleRepo a b).files.length = b.files.length := by
  unfold toggleRepo; split <;> simp [setRepo]

theorem map_modify {α β : Type} {f : α → β} {g : α → α} (h : ∀ a, f (g a) = f a) (l : List α) (i : Nat) :
    (l.modify i g).map f = l.map f := by
  apply List.ext_getElem?
  intro k
  simp only [List.getElem?_map, List.getElem?_modify]
  cases l[k]? with
  | none => rfl
  | some a => by_cases e : i = k <;> simp [e, h]

theorem Shaped.step {s : Boxes} (h : Shaped s) (e : BoxEvent) : Shaped (s.step e) := by
  unfold Shaped at *
  cases e with
  | asked => rfl
  | answered marks => exact keepRepos_shape _ _
  | more i extra => exact keepRepos_shape _ _
  | clickFile i j => exact (map_modify (by simp) _ _).trans h
  | clickRepo i => exact (map_modify (by simp [toggleRepo_length]) _ _).trans h
  | clickSign i => exact (map_modify (by simp [toggleRepo_length]) _ _).trans h
  | expandAll => refine Eq.trans ?_ h; simp [Boxes.step, Function.comp_def, setRepo]
  | collapseAll => refine Eq.trans ?_ h; simp [Boxes.step, Function.comp_def, setRepo]

theorem shaped (es : List BoxEvent) : Shaped (boxesAfter es) := by
  have : ∀ (es : List BoxEvent) (s : Boxes), Shaped s → Shaped (es.foldl Boxes.step s) := by
    intro es
    induction es with
    | nil => exact fun s h => h
    | cons e es ih => exact fun s h => ih _ (h.step e)
  exact this es _ rfl

/-! ### What every event does -/

/-- **C86**, "Expand all": every file is open, and no file goes or comes. -/
theorem expand_all (s : Boxes) : (∀ i j, fileOpen (s.step .expandAll) i j = (fileOpen s i j).map fun _ => true) ∧
    ∀ i, repoOpen (s.step .expandAll) i = (repoOpen s i).map fun _ => true := by
  constructor
  · intro i j
    simp only [fileOpen, Boxes.step, List.getElem?_map]
    cases s.repos[i]? <;> simp [setRepo]
  · intro i
    simp only [repoOpen, Boxes.step, List.getElem?_map]
    cases s.repos[i]? <;> simp [setRepo]

/-- **C86**, "Collapse all": every file is closed, and no file goes or comes. -/
theorem collapse_all (s : Boxes) : (∀ i j, fileOpen (s.step .collapseAll) i j = (fileOpen s i j).map fun _ => false) ∧
    ∀ i, repoOpen (s.step .collapseAll) i = (repoOpen s i).map fun _ => false := by
  constructor
  · intro i j
    simp only [fileOpen, Boxes.step, List.getElem?_map]
    cases s.repos[i]? <;> simp [setRepo]
  · intro i
    simp only [repoOpen, Boxes.step, List.getElem?_map]
    cases s.repos[i]? <;> simp [setRepo]

/-- **C86**, a click on the title of a file: it is opened if it was closed and closed if it was open, and nothing else
changes. -/
theorem click_file (s : Boxes) (i j : Nat) :
    (∀ k l, fileOpen (s.step (.clickFile i j)) k l = if k = i ∧ l = j then (fileOpen s k l).map not else fileOpen s k l) ∧
    ∀ k, repoOpen (s.step (.clickFile i j)) k = repoOpen s k := by
  constructor
  · intro k l
    simp only [fileOpen, Boxes.step, List.getElem?_modify]
    cases h : s.repos[k]? with
    | none => simp
    | some b =>
      by_cases e : k = i
      · subst e
        simp only [Option.map_eq_map, Option.map_some, if_true, Option.bind_some, List.getElem?_modify, true_and]
        by_cases e' : l = j
        · subst e'
          simp only [if_true]
          cases b.files[l]? with
          | none => rfl
          | some o => cases o <;> rfl
        · rw [if_neg e']
          cases b.files[l]? <;> simp [Ne.symm e']
      · simp [e, Ne.symm e]
  · intro k
    simp only [repoOpen, Boxes.step, List.getElem?_modify]
    cases s.repos[k]? with
    | none => rfl
    | some b => by_cases e : i = k <;> simp [e]

/-- **C86**, a click on the title of a repository: it is opened if it was closed and closed if it was open, its files
with it, and nothing else changes. -/
theorem click_repo (s : Boxes) (i : Nat) :
    (∀ k l, fileOpen (s.step (.clickRepo i)) k l =
      if k = i then (fileOpen s k l).bind fun _ => (repoOpen s k).map not else fileOpen s k l) ∧
    ∀ k, repoOpen (s.step (.clickRepo i)) k = if k = i then (repoOpen s k).map not else repoOpen s k := by
  constructor
  · intro k l
    simp only [fileOpen, repoOpen, Boxes.step, List.getElem?_modify]
    cases h : s.repos[k]? with
    | none => simp
    | some b =>
      by_cases e : k = i
      · subst e
        obtain ⟨o, fs⟩ := b
        cases o <;> cases h : fs[l]? <;> simp [toggleRepo, setRepo, h]
      · simp [e, Ne.symm e]
  · intro k
    simp only [repoOpen, Boxes.step, List.getElem?_modify]
    cases s.repos[k]? with
    | none => simp
    | some b =>
      by_cases e : k = i
      · subst e
        obtain ⟨o, fs⟩ := b
        cases o <;> simp [toggleRepo, setRepo]
      · simp [e, Ne.symm e]

/-- **C86**: the sign in the title of a repository does what the title does. -/
theorem click_sign (s : Boxes) (i : Nat) : s.step (.clickSign i) = s.step (.clickRepo i) := by
  simp only [Boxes.step]
  congr 1
  congr 1
  funext b
  unfold toggleRepo
  split <;> simp [setRepo]

/-- **C86**, more files of a repository: the files that were there stay as they are, the new ones follow them, open if
they are not generated. -/
theorem more_files (es : List BoxEvent) (i : Nat) (extra : List Bool) :
    let s := boxesAfter es
    let s' := s.step (.more i extra)
    (∀ k l, fileOpen s k l ≠ none → fileOpen s' k l = fileOpen s k l) ∧
    (∀ k l, k ≠ i → fileOpen s' k l = fileOpen s k l) ∧ (∀ k, repoOpen s' k = repoOpen s k) ∧
    (∀ m, s.marks[i]? = some m → ∀ n, fileOpen s' i (m.length + n) = (extra[n]?).map not) := by
  intro s s'
  have hs : Shaped s := shaped es
  have get : ∀ k : Nat, (s.repos[k]?).map (fun b : RepoBox => b.files.length) = (s.marks[k]?).map List.length := by
    intro k
    rw [← List.getElem?_map, ← List.getElem?_map, hs]
  have key : ∀ k l, fileOpen s' k l = ((s.marks[k]?).map fun m => if i = k then m ++ extra else m).bind fun m =>
      (m[l]?).map fun a => (((s.repos[k]?).bind fun b => b.files[l]?)).getD (!a) := by
    intro k l
    simp only [s', fileOpen, Boxes.step, keepRepos_get, List.getElem?_modify]
    cases s.marks[k]? with
    | none => rfl
    | some m =>
      simp only [Option.map_eq_map, Option.map_some, Option.bind_some, keepFiles_get]
      cases s.repos[k]? <;> simp
  have old : ∀ k l, fileOpen s k l ≠ none → fileOpen s' k l = fileOpen s k l := by
    intro k l h
    rw [key]
    have g := get k
    unfold fileOpen at h ⊢
    cases hb : s.repos[k]? with
    | none => simp [hb] at h
    | some b =>
      rw [hb] at g h
      cases hm : s.marks[k]? with
      | none => simp [hm] at g
      | some m =>
        rw [hm] at g
        simp only [Option.map_some, Option.some.injEq] at g
        simp only [Option.bind_some] at h ⊢
        have hl : l < b.files.length := by
          rcases Nat.lt_or_ge l b.files.length with h' | h'
          · exact h'
          · exact absurd (List.getElem?_eq_none h') h
        rw [List.getElem?_eq_getElem hl]
        by_cases e : i = k
        · simp [e, List.getElem?_append_left (g ▸ hl), List.getElem?_eq_getElem (g ▸ hl)]
        · simp [e, List.getElem?_eq_getElem (g ▸ hl)]
  refine ⟨old, ?_, ?_, ?_⟩
  · intro k l hk
    by_cases hn : fileOpen s k l = none
    · rw [hn, key]
      have g := get k
      unfold fileOpen at hn
      cases hm : s.marks[k]? with
      | none => rfl
      | some m =>
        rw [hm] at g
        cases hb : s.repos[k]? with
        | none => simp [hb] at g
        | some b =>
          rw [hb] at g hn
          simp only [Option.map_some, Option.some.injEq] at g
          simp only [Option.bind_some] at hn
          have hl : m.length ≤ l := by rw [← g]; exact List.getElem?_eq_none_iff.1 hn
          simp [Ne.symm hk, List.getElem?_eq_none hl]
    · exact old k l hn
  · intro k
    have g := get k
    simp only [s', repoOpen, Boxes.step, keepRepos_get, List.getElem?_modify]
    cases hm : s.marks[k]? with
    | none =>
      rw [hm] at g
      cases hb : s.repos[k]? with
      | none => rfl
      | some b => simp [hb] at g
    | some m =>
      rw [hm] at g
      cases hb : s.repos[k]? with
      | none => simp [hb] at g
      | some b => simp
  · intro m hm n
    rw [key, hm]
    have g := get i
    rw [hm] at g
    cases hb : s.repos[i]? with
    | none => simp [hb] at g
    | some b =>
      rw [hb] at g
      simp only [Option.map_some, Option.some.injEq] at g
      have hl : b.files[m.length + n]? = none := List.getElem?_eq_none (by omega)
      have hx : (m ++ extra)[m.length + n]? = extra[n]? := by
        rw [List.getElem?_append_right (by omega)]; congr 1; omega
      simp only [if_true, Option.map_some, Option.bind_some, hx, hl, Option.getD_none]

/-! ### What is seen after all that happened -/

theorem boxesAfter_append (es es' : List BoxEvent) : boxesAfter (es ++ es') = es'.foldl Boxes.step (boxesAfter es) := by
  simp [boxesAfter]

/-- C86 for the results of a search at full strength: whatever happened before, they are shown as fresh results are. -/
def FreshFull : Prop := ∀ (es : List BoxEvent) (marks : List (List Bool)), Fresh marks (boxesAfter (es ++ [.answered marks]))

/-- **C86**, partial: results of a search are shown fresh if nothing was shown after the search began. -/
theorem fresh_partial (es : List BoxEvent) (marks : List (List Bool)) :
    Fresh marks (boxesAfter (es ++ [.asked, .answered marks])) := by
  rw [boxesAfter_append]
  simp only [List.foldl_cons, List.foldl_nil, Boxes.step, Fresh, fileOpen, repoOpen, keepRepos_get]
  constructor
  · intro i j
    cases marks[i]? with
    | none => rfl
    | some m => simp [keepFiles_get]
  · intro i
    cases marks[i]? <;> simp

/-- Two repositories, one with a generated file. -/
example : Fresh [[false, true], [false]] ⟨[[false, true], [false]], [⟨true, [true, false]⟩, ⟨true, [true]⟩]⟩ :=
  fresh_partial [.answered [[true]], .collapseAll] [[false, true], [false]]

/-- Two searches one after the other; the first answer comes, the user closes the results, and the second answer comes: the
files of the second search are closed. -/
theorem second_answer : ¬ Fresh [[false]] (boxesAfter ([.asked, .asked, .answered [[false]], .collapseAll] ++
    [.answered [[false]]])) := by
  intro h
  exact absurd (h.1 0 0) (by decide)

theorem not_freshFull : ¬ FreshFull := fun h => second_answer (h _ _)

/-- C86 for closed boxes at full strength: after "Collapse all" no file is open until the user opens something or searches. -/
def CollapsedFull : Prop :=
  ∀ es es' : List BoxEvent, (∀ e ∈ es', ¬ BoxEvent.Opens e) → AllClosed (boxesAfter (es ++ .collapseAll :: es'))

/-- **C86**, partial: true for the files that were there when the user closed all, and for generated files. -/
theorem collapsed_partial (es es' : List BoxEvent) (h : ∀ e ∈ es', ¬ BoxEvent.Opens e) :
    (∀ i j, fileOpen (boxesAfter es) i j ≠ none → fileOpen (boxesAfter (es ++ .collapseAll :: es')) i j = some false) ∧
    ((∀ i extra, .more i extra ∈ es' → ∀ a ∈ extra, a = true) → AllClosed (boxesAfter (es ++ .collapseAll :: es'))) := by
  have hc := collapse_all (boxesAfter es)
  have hstep : (boxesAfter es).step .collapseAll = boxesAfter (es ++ [.collapseAll]) := by simp [boxesAfter]
  have gen : ∀ (es' : List BoxEvent) (es : List BoxEvent), (∀ e ∈ es', ¬ BoxEvent.Opens e) →
      (∀ i j, fileOpen (boxesAfter es) i j = some false → fileOpen (boxesAfter (es ++ es')) i j = some false) ∧
      ((∀ i extra, .more i extra ∈ es' → ∀ a ∈ extra, a = true) → AllClosed (boxesAfter es) →
        AllClosed (boxesAfter (es ++ es'))) := by
    intro es'
    induction es' with
    | nil => intro es _; simp
    | cons e es' ih =>
      intro es hne
      have he := hne e (by simp)
      have hi := ih (es ++ [e]) fun e' h' => hne e' (by simp [h'])
      have hs : boxesAfter (es ++ [e]) = (boxesAfter es).step e := by simp [boxesAfter]
      rw [hs] at hi
      simp only [List.append_assoc, List.singleton_append] at hi
      have hone : (∀ i j, fileOpen (boxesAfter es) i j = some false → fileOpen ((boxesAfter es).step e) i j = some false) ∧
          ((∀ i extra, .more i extra = e → ∀ a ∈ extra, a = true) → AllClosed (boxesAfter es) →
            AllClosed ((boxesAfter es).step e)) := by
        cases e with
        | more i extra =>
          obtain ⟨m1, m2, -, m4⟩ := more_files es i extra
          refine ⟨fun k l hk => (m1 k l (by rw [hk]; simp)).trans hk, fun ha hcl k l hk => ?_⟩
          by_cases hn : fileOpen (boxesAfter es) k l = none
          · by_cases hki : k = i
            · subst hki
              cases hm : (boxesAfter es).marks[k]? with
              | none =>
                simp [fileOpen, Boxes.step, keepRepos_get, hm] at hk
              | some m =>
                have hsh := shaped es
                have g : ((boxesAfter es).repos[k]?).map (fun b : RepoBox => b.files.length) = ((boxesAfter es).marks[k]?).map List.length := by
                  rw [← List.getElem?_map, ← List.getElem?_map, hsh]
                rw [hm] at g
                cases hb : (boxesAfter es).repos[k]? with
                | none => simp [hb] at g
                | some b =>
                  rw [hb] at g
                  simp only [Option.map_some, Option.some.injEq] at g
                  have hl : m.length ≤ l := by
                    rw [← g]
                    unfold fileOpen at hn
                    rw [hb] at hn
                    exact List.getElem?_eq_none_iff.1 hn
                  have := m4 m hm (l - m.length)
                  rw [show m.length + (l - m.length) = l by omega, hk] at this
                  cases hx : extra[l - m.length]? with
                  | none => simp [hx] at this
                  | some a =>
                    rw [ha k extra rfl a (List.mem_of_getElem? hx)] at hx
                    simp [hx] at this
            · rw [m2 k l hki] at hk
              exact hcl k l hk
          · rw [m1 k l hn] at hk
            exact hcl k l hk
        | collapseAll =>
          refine ⟨fun i j hij => by rw [(collapse_all _).1, hij]; rfl, fun _ _ i j => ?_⟩
          rw [(collapse_all _).1]
          cases fileOpen (boxesAfter es) i j <;> simp
        | asked => exact absurd trivial he
        | answered marks => exact absurd trivial he
        | clickFile i j => exact absurd trivial he
        | clickRepo i => exact absurd trivial he
        | clickSign i => exact absurd trivial he
        | expandAll => exact absurd trivial he
      refine ⟨fun i j hij => hi.1 i j (hone.1 i j hij), fun ha hcl => ?_⟩
      refine hi.2 (fun i extra hx => ha i extra (by simp [hx])) (hone.2 (fun i extra hx => ha i extra (by simp [hx])) hcl)
  have hg := gen es' (es ++ [.collapseAll]) h
  rw [← hstep] at hg
  simp only [List.append_assoc, List.singleton_append] at hg
  refine ⟨fun i j hij => hg.1 i j ?_, fun ha => hg.2 ha ?_⟩
  · rw [hc.1]
    cases hf : fileOpen (boxesAfter es) i j with
    | none => exact absurd hf hij
    | some b => rfl
  · intro i j
    rw [hc.1]
    cases fileOpen (boxesAfter es) i j <;> simp

/-- One file of two is shown and closed; the other one is loaded and is open. -/
theorem loaded_open : fileOpen (boxesAfter ([.asked, .answered [[false]]] ++ .collapseAll :: [.more 0 [false]])) 0 1 =
    some true := by decide

theorem not_collapsedFull : ¬ CollapsedFull := fun h =>
  h [.asked, .answered [[false]]] [.more 0 [false]] (by simp [BoxEvent.Opens]) 0 1 loaded_open

/-- The events of a small visit. -/
example : boxesAfter [.asked, .answered [[false, true], [false]], .clickFile 0 1, .clickSign 1, .more 1 [false, true]] =
    ⟨[[false, true], [false, false, true]], [⟨true, [true, true]⟩, ⟨false, [false, true, false]⟩]⟩ := by decide

end Hound.Ui
