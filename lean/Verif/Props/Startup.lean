import Verif.Proofs.StartupDirs

/-!
# C26, C27, C28: start-up and crashes

`Run urls es s`: from a first start with an empty data directory, with one repository per url, the events `es` — steps of
the repositories' workers in any interleaving, removals, crashes followed by a new start — lead to `s`.
-/

namespace Hound.Up

/-- C26. A directory in which an index was being built when the process died is not claimed by any repository at the
next start, and is gone when start-up is over. -/
theorem crashed_build_removed {urls : List Bytes} {es es' : List Ev} {s t : St} {d : Nat} (hu : ∀ u ∈ urls, u ≠ [])
    (hr : Run urls es s) (hb : Building s d) (hx : Exec urls s (.crash :: es' ++ [.serve]) t) (hc : Ev.crash ∉ es') :
    (∀ i, Ev.claim i d ∉ es') ∧ t.fs d = none := by
  have hi := hr.inv
  obtain ⟨x, hx1, hx2⟩ : ∃ x, s.fs d = some x ∧ x.manifest = none := by
    obtain ⟨i, ⟨rev, st, h⟩ | ⟨l, rev, st, h⟩⟩ := hb
    · exact hi.own i _ d h rfl
    · exact hi.own i _ d h rfl
  cases hx with
  | @cons _ s1 _ _ _ h1 h2 =>
    obtain ⟨s2, h3, h4⟩ := h2.split
    cases h1 with
    | crash _ hst =>
      have hi1 := hst.inv
      obtain ⟨hd, hcl⟩ := h3.doomed hu hi1 (hst.doomed hx1 hx2) hc
      refine ⟨hcl, ?_⟩
      cases h4.one with
      | serve a =>
        rcases hd.gone _ a with h | h
        · simp at h
        · exact h

/-- C51. Whatever happened before, a directory claimed at a start holds a complete index of that repository. -/
def ClaimedCompleteFull : Prop :=
  ∀ (urls : List Bytes) (es : List Ev) (s t : St) (i d : Nat), (∀ u ∈ urls, u ≠ []) → Run urls es s →
    Step urls s (.claim i d) t → ∃ url rev, urls[i]? = some url ∧ s.fs d = some ⟨some (url, rev), true⟩

/-- C51, for histories in which the process never died in the middle of removing a directory (unless the manifest was
removed first). Missing: histories in which it did. -/
theorem claimed_complete_partial {urls : List Bytes} {es : List Ev} {s t : St} {i d : Nat} (hu : ∀ u ∈ urls, u ≠ [])
    (hr : Run urls es s) (hn : Uninterrupted es) (hs : Step urls s (.claim i d) t) :
    ∃ url rev, urls[i]? = some url ∧ s.fs d = some ⟨some (url, rev), true⟩ := by
  have hi := hr.inv
  have h4 := hr.inv4 hn
  generalize he : Ev.claim i d = e at hs
  cases hs <;> simp at he
  case claim j url rev r a b c f =>
    obtain ⟨rfl, rfl⟩ := he
    have hcol : s.main = .collecting := (hi.early i _ a rfl).resolve_right b
    have hr : r.url = url ∧ r.rev = rev := by simpa using List.find?_some f
    have hm := List.mem_of_find?_eq_some f
    obtain ⟨rd, ru, rr⟩ := r
    obtain ⟨rfl, rfl⟩ := hr
    obtain ⟨cc, hcc⟩ := readRef_eq (hi.refs hcol _ hm).2 (hu ru (List.mem_of_getElem? c))
    have := h4.collecting hcol _ _ hcc (by simp)
    simp only at this
    subst this
    exact ⟨ru, rr, c, hcc⟩

/-- C27, first half. When start-up is over every index directory is the live index of a repository. -/
def DirsLiveFull : Prop :=
  ∀ (urls : List Bytes) (es : List Ev) (s : St), (∀ u ∈ urls, u ≠ []) → Run urls (es ++ [.serve]) s →
    ∀ d, s.fs d ≠ none → ∃ i : Nat, s.ws[i]? = some (.ok d)

/-- C27, first half, for starts in which no build failed. Missing: a failed build leaves its directory behind. -/
theorem dirs_live_partial {urls : List Bytes} {es : List Ev} {s : St} (hu : ∀ u ∈ urls, u ≠ [])
    (hr : Run urls (es ++ [.serve]) s) (hn : NoFailedBuild es) : ∀ d, s.fs d ≠ none → ∃ i : Nat, s.ws[i]? = some (.ok d) := by
  obtain ⟨s0, h0, hx⟩ := hr
  -- the last start
  have key : ∀ {es : List Ev} {s1 s2 : St}, Exec urls s1 es s2 → Inv urls s1 → Inv2 urls s1 →
      (Inv3 s1 ∨ Ev.crash ∈ es) → NoFailedBuild es → Inv3 s2 := by
    intro es s1 s2 hx
    induction hx with
    | nil => intro _ _ h3 _; simpa using h3
    | @cons a b c e es h1 h2 ih =>
      intro hi h2' h3 hn
      have hn' : NoFailedBuild es := fun es1 es2 i he => hn (e :: es1) es2 i (by simp [he])
      refine ih (hi.step h1) (h2'.step hu hi h1) ?_ hn'
      by_cases hc : Ev.crash ∈ es
      · exact .inr hc
      · left
        by_cases he : e = .crash
        · subst he; cases h1 with
          | crash _ hst => exact hst.inv3
        · have h3' : Inv3 a := by
            rcases h3 with h3 | h3
            · exact h3
            · rcases List.mem_cons.1 h3 with h | h
              · exact absurd h.symm he
              · exact absurd h hc
          refine h3'.step hi h2' h1 ?_
          intro i hbi
          subst hbi
          exact hc (hn [] es i rfl)
  obtain ⟨s1, hx1, hx2⟩ := hx.split
  have hi := hx1.inv h0.inv
  have h2 := hx1.inv2 hu h0.inv h0.inv2
  have h3 := key hx1 h0.inv h0.inv2 (.inl h0.inv3) hn
  cases hx2.one with
  | serve a =>
    intro d hd
    rcases h3.removing _ a d hd with ⟨r, hr, _⟩ | ⟨i, w, hw, hd'⟩
    · simp at hr
    · refine ⟨i, ?_⟩
      have he : w.early ≠ true := fun h => by have := hi.early i w hw h; simp [a] at this
      have hl : w.late ≠ true := fun h => by have := hi.late i w hw h; simp [a] at this
      cases w <;> simp [WPC.early, WPC.late] at he hl
      · simp [WPC.dirs] at hd'; subst hd'; exact hw
      · simp [WPC.dirs] at hd'

/-- C27, second half. When start-up is over different repositories use different directories. -/
def DirsDistinctFull : Prop :=
  ∀ (urls : List Bytes) (es : List Ev) (s : St), (∀ u ∈ urls, u ≠ []) → Run urls (es ++ [.serve]) s →
    ∀ i j d : Nat, s.ws[i]? = some (.ok d) → s.ws[j]? = some (.ok d) → i = j

/-- C27, second half, for repositories with different urls. Missing: repositories with the same url. -/
theorem dirs_distinct_partial {urls : List Bytes} {es : List Ev} {s : St} (hu : ∀ u ∈ urls, u ≠ [])
    (hr : Run urls (es ++ [.serve]) s) {i j d d' : Nat} (hij : urls[i]? ≠ urls[j]?) (h1 : s.ws[i]? = some (.ok d))
    (h2 : s.ws[j]? = some (.ok d')) : d ≠ d' := by
  obtain ⟨s0, h0, hx⟩ := hr
  obtain ⟨s1, hx1, hx2⟩ := hx.split
  have g := hx1.inv2 hu h0.inv h0.inv2
  cases hx2.one with
  | serve a =>
    rintro rfl
    obtain ⟨⟨u1, v1, c1, e1, f1⟩, _⟩ := g.okDir (by simp [a]) i d h1
    obtain ⟨⟨u2, v2, c2, e2, f2⟩, _⟩ := g.okDir (by simp [a]) j d h2
    rw [f1] at f2
    simp at f2
    exact hij (by rw [e1, e2, f2.1.1])

/-! ## Histories -/

/-- The first start, for these repositories. -/
def fresh0 (urls : List Bytes) : St := ⟨fun _ => none, [], [], urls.map fun _ => .todo, .collecting⟩

theorem fresh0_start (urls : List Bytes) : Start urls (fun _ => none) (fresh0 urls) :=
  ⟨rfl, ⟨by simp [fresh0], by simp [fresh0]⟩, rfl, rfl, rfl⟩

/-- The index of the only repository is being built in directory 0. -/
def building0 : St :=
  ⟨FS.set (fun _ => none) 0 (some ⟨none, false⟩), [], [], [.building [49] 0 .started], .collecting⟩

theorem building0_run : Run [[117]] [.work 0, .work 0, .work 0] building0 := by
  refine ⟨_, fresh0_start _, ?_⟩
  refine .cons (.pull _ 0 [49] rfl (by decide)) ?_
  refine .cons (.fresh _ 0 [117] [49] 0 rfl (by decide) rfl rfl ⟨rfl, by decide⟩) ?_
  refine .cons (.mkdir _ 0 [49] 0 rfl (by decide) rfl) ?_
  exact .nil _

/-- The process dies while building; at the next start the repository cannot be fetched; start-up ends. -/
example : Building building0 0 ∧ ∃ t, Exec [[117]] building0 (.crash :: [.work 0, .collected, .removed 0] ++ [.serve]) t := by
  refine ⟨⟨0, .inl ⟨_, _, rfl⟩⟩, ?_⟩
  have hf : Found building0.fs [⟨0, [], []⟩] := by
    refine ⟨by simp, fun r => ?_⟩
    simp only [List.mem_singleton]
    constructor
    · rintro rfl; exact ⟨by simp [building0, FS.set], rfl⟩
    · rintro ⟨h1, h2⟩
      by_cases h : r.dir = 0
      · rw [h2, h]; rfl
      · simp [building0, FS.set, h] at h1
  refine ⟨⟨building0.fs.set 0 none, [⟨0, [], []⟩], [], [.failed], .serving⟩, ?_⟩
  refine .cons (t := ⟨building0.fs, [⟨0, [], []⟩], [], [.todo], .collecting⟩) (.crash _ _ ⟨rfl, hf, rfl, rfl, rfl⟩) ?_
  refine .cons (.pullFails _ 0 rfl (by decide)) ?_
  refine .cons (.collected _ rfl (by simp [St.put, building0])) ?_
  refine .cons (.remove _ ⟨0, [], []⟩ [] rfl (by simp [St.put])) ?_
  exact .cons (.serve _ rfl) (.nil _)

/-- Revision `1` of the repository `u` is indexed in directory 0. -/
def fs1 : FS := ((FS.set (fun _ => none) 0 (some ⟨none, false⟩)).set 0 (some ⟨none, true⟩)).set 0
  (some ⟨some ([117], [49]), true⟩)

theorem fs1_found : Found fs1 [⟨0, [117], [49]⟩] := by
  refine ⟨by simp, fun r => ?_⟩
  simp only [List.mem_singleton]
  constructor
  · rintro rfl; exact ⟨by simp [fs1, FS.set], rfl⟩
  · rintro ⟨h1, h2⟩
    by_cases h : r.dir = 0
    · rw [h2, h]; rfl
    · simp [fs1, FS.set, h] at h1

/-- One repository, one start. -/
def serving0 : St := ⟨fs1, [], [], [.ok 0], .serving⟩

theorem serving0_run : Run [[117]] [.work 0, .work 0, .work 0, .work 0, .work 0, .collected, .serve] serving0 := by
  obtain ⟨s0, h0, hx⟩ := building0_run
  refine ⟨s0, h0, hx.append ?_⟩
  refine .cons (.flush _ 0 [49] 0 ⟨none, false⟩ rfl (by decide) rfl) ?_
  refine .cons (.manifest _ 0 [117] [49] 0 ⟨none, true⟩ rfl (by decide) rfl rfl) ?_
  refine .cons (.collected _ rfl (by simp [St.put, building0])) ?_
  exact .cons (.serve _ rfl) (.nil _)

/-- `dirs_live_partial` has something to talk about here: directory 0 exists, no build failed. -/
example : Run [[117]] ([.work 0, .work 0, .work 0, .work 0, .work 0, .collected] ++ [.serve]) serving0 ∧
    NoFailedBuild [.work 0, .work 0, .work 0, .work 0, .work 0, .collected] ∧ serving0.fs 0 ≠ none := by
  refine ⟨serving0_run, ?_, by simp [serving0, fs1, FS.set]⟩
  intro es1 es2 i h
  have : Ev.buildFails i ∈ [Ev.work 0, .work 0, .work 0, .work 0, .work 0, .collected] := by rw [h]; simp
  simp at this

/-- After that the repository is updated to revision `2` in directory 1, the removal of directory 0 begins, the process
dies. -/
def restart1 : St :=
  ⟨((((fs1.set 1 (some ⟨none, false⟩)).set 1 (some ⟨none, true⟩)).set 1 (some ⟨some ([117], [50]), true⟩)).set 0
    (some ⟨some ([117], [49]), false⟩)), [⟨0, [117], [49]⟩, ⟨1, [117], [50]⟩], [], [.todo], .collecting⟩

theorem restart1_run : ∃ es, Run [[117]] es restart1 := by
  obtain ⟨s0, h0, hx⟩ := serving0_run
  refine ⟨_, s0, h0, hx.append (es' := [.work 0, .work 0, .work 0, .removePart 0 true, .crash]) ?_⟩
  refine .cons (.update _ 0 0 1 [50] rfl rfl ⟨by simp [serving0, fs1, FS.set], by decide⟩) ?_
  refine .cons (.updateFlush _ 0 0 1 [50] ⟨none, false⟩ rfl rfl rfl) ?_
  refine .cons (.updateManifest _ 0 [117] 0 1 [50] ⟨none, true⟩ rfl rfl rfl rfl) ?_
  refine .cons (.destroyPart _ 0 0 1 ⟨some ([117], [49]), true⟩ (some ([117], [49])) rfl rfl rfl (.inl rfl)) ?_
  refine .cons (.crash _ restart1 ⟨rfl, ?_, rfl, rfl, rfl⟩) (.nil _)
  refine ⟨by simp [restart1], fun r => ?_⟩
  constructor
  · intro h
    simp [restart1] at h
    rcases h with rfl | rfl
    · exact ⟨by simp [FS.set], rfl⟩
    · exact ⟨by simp [FS.set], rfl⟩
  · rintro ⟨h1, h2⟩
    by_cases h : r.dir = 0
    · rw [h2, h]; exact List.mem_cons_self
    · by_cases h' : r.dir = 1
      · rw [h2, h']; exact List.mem_cons_of_mem _ List.mem_cons_self
      · simp [serving0, fs1, FS.set, h, h'] at h1

/-- C51 fails: the head is back at revision `1`, and directory 0, half removed, is claimed. -/
theorem not_claimedCompleteFull : ¬ ClaimedCompleteFull := by
  intro hf
  obtain ⟨es, s0, h0, hx⟩ := restart1_run
  have hx' : Exec [[117]] restart1 [.work 0] (restart1.put 0 (.pulled [49])) :=
    .cons (.pull _ 0 [49] rfl (by decide)) (.nil _)
  obtain ⟨url, rev, _, h⟩ := hf [[117]] _ _ _ 0 0 (by simp) ⟨s0, h0, hx.append hx'⟩
    (.claim _ 0 [117] [49] ⟨0, [117], [49]⟩ rfl (by decide) rfl rfl)
  simp [restart1, St.put, FS.set] at h

/-- C51's hypothesis, met: the process dies while serving revision `1`, and directory 0 is claimed again. -/
example : ∃ s t, Run [[117]] [.work 0, .work 0, .work 0, .work 0, .work 0, .collected, .serve, .crash, .work 0] s ∧
    Uninterrupted [.work 0, .work 0, .work 0, .work 0, .work 0, .collected, .serve, .crash, .work 0] ∧
    Step [[117]] s (.claim 0 0) t := by
  obtain ⟨s0, h0, hx⟩ := serving0_run
  refine ⟨⟨fs1, [⟨0, [117], [49]⟩], [], [.pulled [49]], .collecting⟩,
    ⟨fs1, [⟨0, [117], [49]⟩], [0], [.chosen [49] 0], .collecting⟩, ⟨s0, h0, hx.append (es' := [.crash, .work 0]) ?_⟩, ?_,
    .claim _ 0 [117] [49] ⟨0, [117], [49]⟩ rfl (by decide) rfl rfl⟩
  · refine .cons (.crash _ ⟨fs1, [⟨0, [117], [49]⟩], [], [.todo], .collecting⟩ ⟨rfl, fs1_found, rfl, rfl, rfl⟩) ?_
    exact .cons (.pull _ 0 [49] rfl (by decide)) (.nil _)
  · intro es1 es2 es3 d h
    have : Ev.removePart d true ∈
        [Ev.work 0, .work 0, .work 0, .work 0, .work 0, .collected, .serve, .crash, .work 0] := by rw [h]; simp
    simp at this

/-- C27 fails, first half: a build fails, and its directory stays. -/
theorem not_dirsLiveFull : ¬ DirsLiveFull := by
  intro hf
  obtain ⟨s0, h0, hx⟩ := building0_run
  have hx' : Exec [[117]] building0 [.buildFails 0, .collected, .serve]
      ⟨building0.fs, [], [], [.failed], .serving⟩ := by
    refine .cons (.buildFails _ 0 [49] 0 .started rfl (by decide)) ?_
    refine .cons (.collected _ rfl (by simp [St.put, building0])) ?_
    exact .cons (.serve _ rfl) (.nil _)
  obtain ⟨i, hi⟩ := hf [[117]] [.work 0, .work 0, .work 0, .buildFails 0, .collected] _ (by simp) ⟨s0, h0, hx.append hx'⟩ 0
    (by simp [building0, FS.set])
  rcases i with _ | i <;> simp at hi

/-- Two repositories with the same url; both use directory 0. -/
def shared : St := ⟨fs1, [⟨0, [117], [49]⟩], [0, 0], [.ok 0, .ok 0], .serving⟩

theorem shared_run : Run [[117], [117]] ([.work 0, .work 0, .work 0, .work 0, .work 0, .work 1, .collected, .serve,
    .crash, .work 0, .work 1, .claim 0 0, .claim 1 0, .work 0, .work 1, .collected, .keep 0] ++ [.serve]) shared := by
  refine ⟨_, fresh0_start _, ?_⟩
  refine .cons (.pull _ 0 [49] rfl (by decide)) ?_
  refine .cons (.fresh _ 0 [117] [49] 0 rfl (by decide) rfl rfl ⟨rfl, by decide⟩) ?_
  refine .cons (.mkdir _ 0 [49] 0 rfl (by decide) rfl) ?_
  refine .cons (.flush _ 0 [49] 0 ⟨none, false⟩ rfl (by decide) rfl) ?_
  refine .cons (.manifest _ 0 [117] [49] 0 ⟨none, true⟩ rfl (by decide) rfl rfl) ?_
  refine .cons (.pullFails _ 1 rfl (by decide)) ?_
  refine .cons (.collected _ rfl (by simp [St.put, fresh0])) ?_
  refine .cons (.serve _ rfl) ?_
  refine .cons (.crash _ ⟨fs1, [⟨0, [117], [49]⟩], [], [.todo, .todo], .collecting⟩ ⟨rfl, fs1_found, rfl, rfl, rfl⟩) ?_
  refine .cons (.pull _ 0 [49] rfl (by decide)) ?_
  refine .cons (.pull _ 1 [49] rfl (by decide)) ?_
  refine .cons (.claim _ 0 [117] [49] ⟨0, [117], [49]⟩ rfl (by decide) rfl rfl) ?_
  refine .cons (.claim _ 1 [117] [49] ⟨0, [117], [49]⟩ rfl (by decide) rfl rfl) ?_
  refine .cons (.openOk _ 0 [49] 0 ⟨some ([117], [49]), true⟩ rfl (by decide) rfl (by decide) rfl) ?_
  refine .cons (.openOk _ 1 [49] 0 ⟨some ([117], [49]), true⟩ rfl (by decide) rfl (by decide) rfl) ?_
  refine .cons (.collected _ rfl (by simp [St.put])) ?_
  refine .cons (.keep _ ⟨0, [117], [49]⟩ [] rfl (by simp [St.put])) ?_
  exact .cons (.serve _ rfl) (.nil _)

/-- C27 fails, second half: two repositories with the same url, at the same revision, get the same directory. -/
theorem not_dirsDistinctFull : ¬ DirsDistinctFull := by
  intro hf
  have := hf _ _ _ (by simp) shared_run 0 1 0 rfl rfl
  cases this

/-- `dirs_distinct_partial` has something to talk about: two repositories with different urls. -/
example : ∃ es s, Run [[117], [118]] (es ++ [.serve]) s ∧ s.ws[0]? = some (.ok 0) ∧ s.ws[1]? = some (.ok 1) := by
  refine ⟨[.work 0, .work 0, .work 0, .work 1, .work 1, .work 1, .work 0, .work 0, .work 1, .work 1, .collected],
    ⟨((((FS.set (FS.set (fun _ => none) 0 (some ⟨none, false⟩)) 1 (some ⟨none, false⟩)).set 0 (some ⟨none, true⟩)).set 0
      (some ⟨some ([117], [49]), true⟩)).set 1 (some ⟨none, true⟩)).set 1 (some ⟨some ([118], [49]), true⟩),
      [], [], [.ok 0, .ok 1], .serving⟩, ⟨_, fresh0_start _, ?_⟩, rfl, rfl⟩
  refine .cons (.pull _ 0 [49] rfl (by decide)) ?_
  refine .cons (.fresh _ 0 [117] [49] 0 rfl (by decide) rfl rfl ⟨rfl, by decide⟩) ?_
  refine .cons (.mkdir _ 0 [49] 0 rfl (by decide) rfl) ?_
  refine .cons (.pull _ 1 [49] rfl (by decide)) ?_
  refine .cons (.fresh _ 1 [118] [49] 1 rfl (by decide) rfl rfl ⟨rfl, by decide⟩) ?_
  refine .cons (.mkdir _ 1 [49] 1 rfl (by decide) rfl) ?_
  refine .cons (.flush _ 0 [49] 0 ⟨none, false⟩ rfl (by decide) rfl) ?_
  refine .cons (.manifest _ 0 [117] [49] 0 ⟨none, true⟩ rfl (by decide) rfl rfl) ?_
  refine .cons (.flush _ 1 [49] 1 ⟨none, false⟩ rfl (by decide) rfl) ?_
  refine .cons (.manifest _ 1 [118] [49] 1 ⟨none, true⟩ rfl (by decide) rfl rfl) ?_
  refine .cons (.collected _ rfl (by simp [St.put, fresh0])) ?_
  exact .cons (.serve _ rfl) (.nil _)

/-- And then an update of the one removes the live index of the other. -/
theorem shared_index_destroyed : ∃ es s, Run [[117], [117]] es s ∧ s.main = .serving ∧ s.ws[1]? = some (.ok 0) ∧
    s.fs 0 = none := by
  obtain ⟨s0, h0, hx⟩ := shared_run
  refine ⟨_, ⟨(((fs1.set 1 (some ⟨none, false⟩)).set 1 (some ⟨none, true⟩)).set 1
    (some ⟨some ([117], [50]), true⟩)).set 0 none, [⟨0, [117], [49]⟩], [0, 0], [.ok 1, .ok 0], .serving⟩,
    ⟨s0, h0, hx.append (es' := [.work 0, .work 0, .work 0, .removed 0]) ?_⟩, ?_⟩
  · refine .cons (.update _ 0 0 1 [50] rfl rfl ⟨by simp [shared, fs1, FS.set], by decide⟩) ?_
    refine .cons (.updateFlush _ 0 0 1 [50] ⟨none, false⟩ rfl rfl rfl) ?_
    refine .cons (.updateManifest _ 0 [117] 0 1 [50] ⟨none, true⟩ rfl rfl rfl rfl) ?_
    exact .cons (.destroy _ 0 0 1 rfl rfl) (.nil _)
  · exact ⟨rfl, rfl, rfl⟩

/-! ## C28 -/

theorem foldl_collect (rs : List (Bytes × Except Bytes Nat)) (hn : (rs.map (·.1)).Nodup)
    (m : (Bytes → Option Nat) × (Bytes → Option Bytes)) (n : Bytes) :
    let m' := rs.foldl (fun m r =>
      match r.2 with
      | .error e => (m.1, fun n => if n = r.1 then some e else m.2 n)
      | .ok s => (fun n => if n = r.1 then some s else m.1 n, m.2)) m
    (∀ s, (n, .ok s) ∈ rs → m'.1 n = some s ∧ m'.2 n = m.2 n) ∧
    (∀ e, (n, .error e) ∈ rs → m'.1 n = m.1 n ∧ m'.2 n = some e) ∧
    (n ∉ rs.map (·.1) → m'.1 n = m.1 n ∧ m'.2 n = m.2 n) := by
  induction rs generalizing m with
  | nil => simp
  | cons r rs ih =>
    obtain ⟨rn, rv⟩ := r
    simp only [List.map_cons, List.nodup_cons] at hn
    simp only [List.foldl_cons]
    by_cases hnr : n = rn
    · subst hnr
      have hno : ∀ v, (n, v) ∉ rs := fun v hv => hn.1 (List.mem_map.2 ⟨_, hv, rfl⟩)
      cases rv with
      | ok s =>
        have := (ih hn.2 (fun k => if k = n then some s else m.1 k, m.2)).2.2 hn.1
        simp only [List.mem_cons, Prod.mk.injEq, true_and, List.map_cons, true_or, not_true, false_imp_iff, and_true]
        refine ⟨?_, ?_⟩
        · intro s' h
          rcases h with h | h
          · cases h; simpa using this
          · exact absurd h (hno _)
        · intro e h
          rcases h with h | h
          · cases h
          · exact absurd h (hno _)
      | error e =>
        have := (ih hn.2 (m.1, fun k => if k = n then some e else m.2 k)).2.2 hn.1
        simp only [List.mem_cons, Prod.mk.injEq, true_and, List.map_cons, true_or, not_true, false_imp_iff, and_true]
        refine ⟨?_, ?_⟩
        · intro s' h
          rcases h with h | h
          · cases h
          · exact absurd h (hno _)
        · intro e' h
          rcases h with h | h
          · cases h; simpa using this
          · exact absurd h (hno _)
    · cases rv with
      | ok s =>
        have := ih hn.2 (fun k => if k = rn then some s else m.1 k, m.2)
        simpa [hnr] using this
      | error e =>
        have := ih hn.2 (m.1, fun k => if k = rn then some e else m.2 k)
        simpa [hnr] using this

/-- C28. The results of the repositories (`outcome`), received in any order: each configured repository has its searcher
or its error, not both; and nothing else has either. -/
theorem one_outcome_each {names : List Bytes} (hn : names.Nodup) (outcome : Bytes → Except Bytes Nat)
    {order : List Bytes} (ho : order.Perm names) (n : Bytes) :
    let m := collect (order.map fun n => (n, outcome n))
    (n ∈ names → (∃ s, outcome n = .ok s ∧ m.1 n = some s ∧ m.2 n = none) ∨
      ∃ e, outcome n = .error e ∧ m.1 n = none ∧ m.2 n = some e) ∧
    (n ∉ names → m.1 n = none ∧ m.2 n = none) := by
  have hnd : ((order.map fun n => (n, outcome n)).map (·.1)).Nodup := by
    rw [List.map_map]
    have : ((fun x : Bytes × Except Bytes Nat => x.1) ∘ fun n => (n, outcome n)) = id := rfl
    rw [this, List.map_id]
    exact ho.nodup_iff.2 hn
  have h := foldl_collect _ hnd (fun _ => none, fun _ => none) n
  simp only at h
  refine ⟨fun hm => ?_, fun hm => ?_⟩
  · have hm' : n ∈ order := ho.mem_iff.2 hm
    cases ho' : outcome n with
    | ok s => exact .inl ⟨s, rfl, h.1 s (List.mem_map.2 ⟨n, hm', by rw [ho']⟩)⟩
    | error e => exact .inr ⟨e, rfl, h.2.1 e (List.mem_map.2 ⟨n, hm', by rw [ho']⟩)⟩
  · refine h.2.2 ?_
    simp only [List.map_map, List.mem_map, Function.comp]
    rintro ⟨x, hx, rfl⟩
    exact hm (ho.mem_iff.1 hx)

example : (collect [([98], .error [101]), ([97], .ok 7)]).1 [97] = some 7 ∧
    (collect [([98], .error [101]), ([97], .ok 7)]).2 [98] = some [101] := by decide

/-- C28, in every execution: once the server answers searches, every configured repository has its outcome, an error
or a searcher with a live index directory; none is still on its way. -/
theorem outcome_when_serving {urls : List Bytes} {es : List Ev} {s : St} (h : Run urls es s) (hm : s.main = .serving)
    {i : Nat} (hi : i < urls.length) : s.ws[i]? = some .failed ∨ ∃ d, (s.ws[i]? = some (.ok d) ∨
      (∃ rev n st, s.ws[i]? = some (.updating d rev n st)) ∨ (∃ old, s.ws[i]? = some (.swapping old d)) ∨
      s.ws[i]? = some (.dropping d)) := by
  have inv := h.inv
  have hl : i < s.ws.length := by rw [inv.len]; exact hi
  have he := List.getElem?_eq_getElem hl
  generalize s.ws[i] = w at he
  have hearly := inv.early i w he
  rw [hm] at hearly
  cases w with
  | todo => rcases hearly rfl with h | h <;> cases h
  | pulled rev => rcases hearly rfl with h | h <;> cases h
  | chosen rev d => rcases hearly rfl with h | h <;> cases h
  | building rev d st => rcases hearly rfl with h | h <;> cases h
  | ok d => exact .inr ⟨d, .inl he⟩
  | failed => exact .inl he
  | updating d rev n st => exact .inr ⟨d, .inr (.inl ⟨rev, n, st, he⟩)⟩
  | swapping d n => exact .inr ⟨n, .inr (.inr (.inl ⟨d, he⟩))⟩
  | dropping n => exact .inr ⟨n, .inr (.inr (.inr he))⟩

/-- The execution of the first start meets the hypotheses. -/
example : serving0.main = .serving ∧ 0 < [[(117 : UInt8)]].length := ⟨rfl, by decide⟩

end Hound.Up
