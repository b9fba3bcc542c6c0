import Verif.Proofs.Restart
import Verif.Props.Startup

/-!
# C91: after a start, the repository is served as it is and as it is configured
-/

namespace Hound.Again
open Up Spec

variable {F O : Type}

/-- **C91**, the full claim: when the program begins to serve, every repository it serves is searched in the files just fetched, with
its present settings. -/
def StartFull (F O : Type) : Prop :=
  ∀ (l : Life O) (ls : List (Life O)) (s t : St) (g g' : Made F O) (i d : Nat), (∀ l' ∈ l :: ls, ∀ u ∈ l'.urls, u ≠ []) →
    Hist (l :: ls) s g → MStep l s g .serve t g' → t.ws[i]? = some (.ok d) → ServedFrom t g' i (g'.got i).2 (l.opts i)

/-- **C91, what is served.** Always files and settings with which the revision just fetched was fetched before, perhaps in another run. -/
theorem start_serves {l : Life O} {ls : List (Life O)} {s t : St} {g g' : Made F O} {i d : Nat}
    (hu : ∀ l' ∈ l :: ls, ∀ u ∈ l'.urls, u ≠ []) (h0 : Hist (l :: ls) s g) (h1 : MStep l s g .serve t g')
    (hw : t.ws[i]? = some (.ok d)) : ∃ url f o, l.urls[i]? = some url ∧ ServedFrom t g' i f o ∧
      (url, (g'.got i).1, f, o) ∈ g'.seen ∧ (url, (g'.got i).1, (g'.got i).2, l.opts i) ∈ g'.seen := by
  have hg : g' = g := by
    generalize he : Ev.serve = e at h1
    cases h1 <;> first | rfl | cases he
  subst hg
  obtain ⟨_, _, _, hd⟩ := h0.all rfl hu
  have hst := h1.step
  generalize he : Ev.serve = e at hst
  cases hst <;> cases he
  case serve a =>
    obtain ⟨url, c, b1, b2, b3⟩ := hd.ok (by simp [a]) i d hw
    obtain ⟨f, o, c1, c2⟩ := hd.disk d _ url _ b2 rfl
    exact ⟨url, f, o, b1, ⟨d, hw, c1⟩, c2, b3⟩

/-- C91 if the revisions are true, and if this revision was never fetched with other settings. Missing: the rest, see
`not_startFull_settings` and `not_startFull_files`. -/
theorem start_serves_partial {l : Life O} {ls : List (Life O)} {s t : St} {g g' : Made F O} {i d : Nat} {url : Bytes}
    (hu : ∀ l' ∈ l :: ls, ∀ u ∈ l'.urls, u ≠ []) (h0 : Hist (l :: ls) s g) (h1 : MStep l s g .serve t g')
    (hw : t.ws[i]? = some (.ok d)) (hurl : l.urls[i]? = some url) (hr : RevisionsTrue g')
    (hk : SettingsKept g' url (g'.got i).1 (l.opts i)) : ServedFrom t g' i (g'.got i).2 (l.opts i) := by
  obtain ⟨u, f, o, a1, a2, a3, a4⟩ := start_serves hu h0 h1 hw
  rw [hurl] at a1; cases a1
  rw [← hr _ _ _ _ _ _ a3 a4, ← hk _ _ a3]
  exact a2

/-- C91 for the files alone: with true revisions they are always the files just fetched. -/
theorem start_files_partial {l : Life O} {ls : List (Life O)} {s t : St} {g g' : Made F O} {i d : Nat}
    (hu : ∀ l' ∈ l :: ls, ∀ u ∈ l'.urls, u ≠ []) (h0 : Hist (l :: ls) s g) (h1 : MStep l s g .serve t g')
    (hw : t.ws[i]? = some (.ok d)) (hr : RevisionsTrue g') : ∃ o, ServedFrom t g' i (g'.got i).2 o := by
  obtain ⟨u, f, o, a1, a2, a3, a4⟩ := start_serves hu h0 h1 hw
  exact ⟨o, by rw [← hr _ _ _ _ _ _ a3 a4]; exact a2⟩

/-- **C91, after an update.** Once an update has replaced the index, the repository is served from the files fetched for it, with its
present settings, without any condition. -/
theorem update_serves {l : Life O} {ls : List (Life O)} {s t : St} {g g' : Made F O} {e : Ev} {i d n : Nat}
    (hu : ∀ l' ∈ l :: ls, ∀ u ∈ l'.urls, u ≠ []) (h0 : Hist (l :: ls) s g) (h1 : MStep l s g e t g')
    (hs : s.ws[i]? = some (.swapping d n)) (hw : t.ws[i]? = some (.ok n)) : ServedFrom t g' i (g'.got i).2 (l.opts i) := by
  obtain ⟨hi, _, hk, _⟩ := h0.all rfl hu
  refine ⟨n, hw, ?_⟩
  have hm := hk.filled i _ n hs rfl
  rw [h1.got hw]
  rcases h1.made n with h | ⟨j, w, a, b, _⟩
  · rw [h]; exact hm
  · by_cases hij : i = j
    · subst hij; rw [hs] at a; cases a; cases b
    · exact absurd (by simp [WPC.dirs]) (hi.alone j i w n _ a b hs hij)

/-! ## Histories -/

/-- A step of the only worker that neither fetches nor fills. -/
theorem plain {l : Life O} {s t : St} (g : Made F O) {e : Ev} {w w' : WPC} (h : Step l.urls s e t) (he : e ≠ .crash) (hs : s.ws = [w])
    (ht : t.ws = [w']) (hn : (∀ rev, ¬ Fetches w w' rev) ∧ ∀ d, ¬ Writes w w' d) : MStep l s g e t g := by
  refine .other s t g e h he fun i v v' hv hv' => ?_
  rw [hs] at hv; rw [ht] at hv'
  cases i with
  | zero => cases hv; cases hv'; exact hn
  | succ n => simp at hv

/-- One repository, `u`. -/
def one (o : O) : Life O := ⟨[[117]], fun _ => o⟩

/-- Two runs: in the first the repository has the files `f` and the settings `o`, in the second `f'` and `o'`, and each time it is at
revision `1`. -/
theorem two_runs (f f' : F) (o o' : O) : ∃ s t g, Hist [one o', one o] s g ∧ MStep (one o') s g .serve t g ∧
    t.ws[0]? = some (.ok 0) ∧ g.got 0 = ([49], f') ∧ g.made 0 = some (f, o) ∧
    g.seen = [([117], [49], f', o'), ([117], [49], f, o)] := by
  let g0 : Made F O := ⟨fun _ => ([], f), fun _ => none, []⟩
  let g1 : Made F O := { g0 with got := fun j => if j = 0 then ([49], f) else g0.got j, seen := ([117], [49], f, o) :: g0.seen }
  let g2 : Made F O := { g1 with made := fun e => if e = 0 then some ((g1.got 0).2, (one o).opts 0) else g1.made e }
  let g3 : Made F O := { g2 with got := fun j => if j = 0 then ([49], f') else g2.got j, seen := ([117], [49], f', o') :: g2.seen }
  have a0 : Hist [one o] (fresh0 [[117]]) g0 := .first _ _ _ (fresh0_start _) rfl
  have a1 : Hist [one o] _ g1 := .step _ _ _ _ _ _ _ a0
    (.fetch _ _ g0 0 .todo (.pulled [49]) [117] [49] f (.pull _ 0 [49] rfl (by decide)) rfl rfl (.inl ⟨rfl, rfl⟩) rfl)
  have a2 : Hist [one o] _ g1 := .step _ _ _ _ _ _ _ a1
    (plain g1 (.fresh _ 0 [117] [49] 0 rfl (by decide) rfl rfl ⟨rfl, by decide⟩) (by simp) rfl rfl (by simp [Fetches, Writes]))
  have a3 : Hist [one o] building0 g1 := .step _ _ _ _ _ _ _ a2
    (plain g1 (.mkdir _ 0 [49] 0 rfl (by decide) rfl) (by simp) rfl rfl (by simp [Fetches, Writes]))
  have a4 : Hist [one o] _ g2 := .step _ _ _ _ _ _ _ a3
    (.write _ _ g1 0 (.building [49] 0 .started) (.building [49] 0 .flushed) 0 (.flush _ 0 [49] 0 ⟨none, false⟩ rfl (by decide) rfl)
      rfl rfl (.inl ⟨_, rfl, rfl⟩))
  have a5 : Hist [one o] ⟨fs1, [], [], [.ok 0], .collecting⟩ g2 := .step _ _ _ _ _ _ _ a4
    (plain g2 (.manifest _ 0 [117] [49] 0 ⟨none, true⟩ rfl (by decide) rfl rfl) (by simp) rfl rfl (by simp [Fetches, Writes]))
  have b0 : Hist [one o', one o] ⟨fs1, [⟨0, [117], [49]⟩], [], [.todo], .collecting⟩ g2 := .again _ _ _ _ _ _ a5
    ⟨rfl, fs1_found, rfl, rfl, rfl⟩
  have b1 : Hist [one o', one o] _ g3 := .step _ _ _ _ _ _ _ b0
    (.fetch _ _ g2 0 .todo (.pulled [49]) [117] [49] f' (.pull _ 0 [49] rfl (by decide)) rfl rfl (.inl ⟨rfl, rfl⟩) rfl)
  have b2 : Hist [one o', one o] _ g3 := .step _ _ _ _ _ _ _ b1
    (plain g3 (.claim _ 0 [117] [49] ⟨0, [117], [49]⟩ rfl (by decide) rfl rfl) (by simp) rfl rfl (by simp [Fetches, Writes]))
  have b3 : Hist [one o', one o] _ g3 := .step _ _ _ _ _ _ _ b2
    (plain g3 (.openOk _ 0 [49] 0 ⟨some ([117], [49]), true⟩ rfl (by decide) rfl (by simp) rfl) (by simp) rfl rfl
      (by simp [Fetches, Writes]))
  have b4 : Hist [one o', one o] _ g3 := .step _ _ _ _ _ _ _ b3
    (plain g3 (.collected _ rfl (by simp [St.put])) (by simp) rfl rfl (by simp [Fetches, Writes]))
  have b5 : Hist [one o', one o] _ g3 := .step _ _ _ _ _ _ _ b4
    (plain g3 (.keep _ ⟨0, [117], [49]⟩ [] rfl (by simp [St.put])) (by simp) rfl rfl (by simp [Fetches, Writes]))
  exact ⟨_, _, g3, b5, plain g3 (.serve _ rfl) (by simp) rfl rfl (by simp [Fetches, Writes]), rfl, rfl, rfl, rfl⟩

/-- One run, in which the repository is served with the files `f` and then updated to revision `2` with the files `f'`. -/
theorem one_update (f f' : F) (o : O) : ∃ s t g, Hist [one o] s g ∧ MStep (one o) s g (.removed 0) t g ∧
    s.ws[0]? = some (.swapping 0 1) ∧ t.ws[0]? = some (.ok 1) ∧ g.got 0 = ([50], f') := by
  let g0 : Made F O := ⟨fun _ => ([], f), fun _ => none, []⟩
  let g1 : Made F O := { g0 with got := fun j => if j = 0 then ([49], f) else g0.got j, seen := ([117], [49], f, o) :: g0.seen }
  let g2 : Made F O := { g1 with made := fun e => if e = 0 then some ((g1.got 0).2, (one o).opts 0) else g1.made e }
  let g3 : Made F O := { g2 with got := fun j => if j = 0 then ([50], f') else g2.got j, seen := ([117], [50], f', o) :: g2.seen }
  let g4 : Made F O := { g3 with made := fun e => if e = 1 then some ((g3.got 0).2, (one o).opts 0) else g3.made e }
  have a0 : Hist [one o] (fresh0 [[117]]) g0 := .first _ _ _ (fresh0_start _) rfl
  have a1 : Hist [one o] _ g1 := .step _ _ _ _ _ _ _ a0
    (.fetch _ _ g0 0 .todo (.pulled [49]) [117] [49] f (.pull _ 0 [49] rfl (by decide)) rfl rfl (.inl ⟨rfl, rfl⟩) rfl)
  have a2 : Hist [one o] _ g1 := .step _ _ _ _ _ _ _ a1
    (plain g1 (.fresh _ 0 [117] [49] 0 rfl (by decide) rfl rfl ⟨rfl, by decide⟩) (by simp) rfl rfl (by simp [Fetches, Writes]))
  have a3 : Hist [one o] building0 g1 := .step _ _ _ _ _ _ _ a2
    (plain g1 (.mkdir _ 0 [49] 0 rfl (by decide) rfl) (by simp) rfl rfl (by simp [Fetches, Writes]))
  have a4 : Hist [one o] _ g2 := .step _ _ _ _ _ _ _ a3
    (.write _ _ g1 0 (.building [49] 0 .started) (.building [49] 0 .flushed) 0 (.flush _ 0 [49] 0 ⟨none, false⟩ rfl (by decide) rfl)
      rfl rfl (.inl ⟨_, rfl, rfl⟩))
  have a5 : Hist [one o] ⟨fs1, [], [], [.ok 0], .collecting⟩ g2 := .step _ _ _ _ _ _ _ a4
    (plain g2 (.manifest _ 0 [117] [49] 0 ⟨none, true⟩ rfl (by decide) rfl rfl) (by simp) rfl rfl (by simp [Fetches, Writes]))
  have a6 : Hist [one o] ⟨fs1, [], [], [.ok 0], .removing []⟩ g2 := .step _ _ _ _ _ _ _ a5
    (plain g2 (.collected _ rfl (by simp)) (by simp) rfl rfl (by simp [Fetches, Writes]))
  have a7 : Hist [one o] serving0 g2 := .step _ _ _ _ _ _ _ a6
    (plain g2 (.serve _ rfl) (by simp) rfl rfl (by simp [Fetches, Writes]))
  have a8 : Hist [one o] _ g3 := .step _ _ _ _ _ _ _ a7
    (.fetch _ _ g2 0 (.ok 0) (.updating 0 [50] 1 .started) [117] [50] f'
      (.update _ 0 0 1 [50] rfl rfl ⟨by simp [serving0, fs1, FS.set], by decide⟩) rfl rfl (.inr ⟨_, _, rfl, rfl⟩) rfl)
  have a9 : Hist [one o] _ g4 := .step _ _ _ _ _ _ _ a8
    (.write _ _ g3 0 (.updating 0 [50] 1 .started) (.updating 0 [50] 1 .flushed) 1
      (.updateFlush _ 0 0 1 [50] ⟨none, false⟩ rfl rfl rfl) rfl rfl (.inr ⟨_, _, rfl, rfl⟩))
  have a10 : Hist [one o] _ g4 := .step _ _ _ _ _ _ _ a9
    (plain g4 (.updateManifest _ 0 [117] 0 1 [50] ⟨none, true⟩ rfl rfl rfl rfl) (by simp) rfl rfl (by simp [Fetches, Writes]))
  exact ⟨_, _, g4, a10, plain g4 (.destroy _ 0 0 1 rfl rfl) (by simp) rfl rfl (by simp [Fetches, Writes]), rfl, rfl, rfl⟩

/-- `update_serves` applies: after the update the new files are served. -/
example : ∃ t g, ServedFrom t g 0 "new" true ∧ Hist [one true] t g := by
  obtain ⟨s, t, g, h1, h2, h3, h4, h5⟩ := one_update "old" "new" true
  refine ⟨t, g, ?_, .step _ _ _ _ _ _ _ h1 h2⟩
  have := update_serves (by simp [one]) h1 h2 h3 h4
  rw [h5] at this
  exact this

/-- The hypotheses of `start_serves_partial` are met when the program is started twice with the same configuration. -/
example : ∃ s t g, Hist [one true, one true] s g ∧ MStep (one true) s g .serve t g ∧ t.ws[0]? = some (.ok 0) ∧
    RevisionsTrue g ∧ SettingsKept g [117] (g.got 0).1 true ∧ ServedFrom t g 0 "files" true := by
  obtain ⟨s, t, g, h1, h2, h3, h4, h5, h6⟩ := two_runs "files" "files" true true
  refine ⟨s, t, g, h1, h2, h3, ?_, ?_, 0, h3, h5⟩
  · intro url rev f f' o o' a b
    rw [h6] at a b
    simp at a b
    rw [a.2.2.1, b.2.2.1]
  · intro f o' a
    rw [h6] at a
    simp at a
    exact a.2.2

/-- C91 fails for settings, although the revisions are true: an index of the same revision made with other settings is used. -/
theorem not_startFull_settings : ¬ ∀ (l : Life Bool) (ls : List (Life Bool)) (s t : St) (g g' : Made String Bool) (i d : Nat),
    (∀ l' ∈ l :: ls, ∀ u ∈ l'.urls, u ≠ []) → Hist (l :: ls) s g → MStep l s g .serve t g' → t.ws[i]? = some (.ok d) →
    RevisionsTrue g' → ServedFrom t g' i (g'.got i).2 (l.opts i) := by
  intro hf
  obtain ⟨s, t, g, h1, h2, h3, h4, h5, h6⟩ := two_runs "files" "files" true false
  obtain ⟨d, a, b⟩ := hf _ _ s t g g 0 0 (by simp [one]) h1 h2 h3 (by
    intro url rev f f' o o' a b
    rw [h6] at a b
    simp at a b
    rcases a with a | a <;> rcases b with b | b <;> rw [a.2.2.1, b.2.2.1])
  rw [h3] at a; cases a
  rw [h5] at b
  simp [one] at b

/-- C91 fails for files, although the settings were always the same: a directory that is not watched is always at the same revision
(vcs/local.go:64-71), and after a start it is served as it was when it was first indexed. -/
theorem not_startFull_files : ¬ ∀ (l : Life Bool) (ls : List (Life Bool)) (s t : St) (g g' : Made String Bool) (i d : Nat) (url : Bytes),
    (∀ l' ∈ l :: ls, ∀ u ∈ l'.urls, u ≠ []) → Hist (l :: ls) s g → MStep l s g .serve t g' → t.ws[i]? = some (.ok d) →
    l.urls[i]? = some url → SettingsKept g' url (g'.got i).1 (l.opts i) → ServedFrom t g' i (g'.got i).2 (l.opts i) := by
  intro hf
  obtain ⟨s, t, g, h1, h2, h3, h4, h5, h6⟩ := two_runs "old" "new" true true
  obtain ⟨d, a, b⟩ := hf _ _ s t g g 0 0 [117] (by simp [one]) h1 h2 h3 rfl (by
    intro f o' a
    rw [h6] at a
    simp at a
    rcases a with a | a <;> exact a.2.2)
  rw [h3] at a; cases a
  rw [h5, h4] at b
  simp at b

/-- The full claim is false. -/
theorem not_startFull : ¬ StartFull String Bool := fun hf =>
  not_startFull_settings fun l ls s t g g' i d h1 h2 h3 h4 _ => hf l ls s t g g' i d h1 h2 h3 h4

end Hound.Again
