import Verif.Proofs.ConfigRefuse
import Verif.Proofs.Paths
import Verif.Props.Config

/-!
# C74: the configuration file is taken at its word
-/

namespace Hound.Config

open Spec
open JsonText (Value)

theorem rawMembers_eq : ∀ ms : List (Bytes × Value Bytes), rawMembers ms = ms.map fun m => (m.1, rawMessage m.2)
  | [] => by rw [rawMembers]; rfl
  | m :: ms => by rw [rawMembers, rawMembers_eq ms]; rfl

theorem memberValue_raw (k : Bytes) (v : Value Bytes) :
    memberValue k (rawMessage v) = (valueOf k (objectMembers v)).map rawMessage := by
  cases v with
  | obj ms =>
    rw [rawMessage, rawMembers_eq]
    simp only [memberValue, valueOf, objectMembers, List.filter_map, List.getLast?_map, Option.map_map]
    rfl
  | _ => simp [rawMessage, memberValue, valueOf, objectMembers]

theorem rawMessage_null {v : Value Bytes} : rawMessage v = .null ↔ v = .null := by
  cases v <;> simp [rawMessage]

theorem rawMessage_obj {v : Value Bytes} : (∃ ms, rawMessage v = .obj ms) ↔ ∃ o, v = .obj o := by
  cases v <;> simp [rawMessage]

theorem readMessage_bind (k : Bytes) (o : Option (Value Bytes)) :
    (((o.map readMessage).getD none).bind (memberValue k)) = (o.bind fun v => valueOf k (objectMembers v)).map rawMessage := by
  cases o with
  | none => rfl
  | some v =>
    cases v with
    | null => rfl
    | _ => simp only [Option.map_some, Option.getD_some, readMessage, Option.bind_some, memberValue_raw]

theorem valueSaid_says {vs : List (Value Bytes)} {v : Value Bytes} (h : valueSaid vs = some v) : v ≠ .null := by
  intro e
  subst e
  rw [valueSaid] at h
  have := (Option.filter_eq_some_iff.1 h).2
  cases this

theorem readRepo_obj {v : Value Bytes} {r : Repo} (h : readRepo v = some (some r)) :
    ∃ rms, v = .obj rms ∧ readMembers readRepoMember rms {} = some r := by
  cases v with
  | obj rms =>
    simp only [readRepo] at h
    obtain ⟨x, hx, hs⟩ := Option.map_eq_some_iff.1 h
    cases hs
    exact ⟨rms, rfl, hx⟩
  | null => cases h
  | _ => simp [readRepo, readObject] at h

/-- What was read, from the text. -/
theorem loadFromFile_ok {cwd filename text dir : Bytes} {L : Loaded} (h : loadFromFile cwd filename (some text) = .ok (dir, L)) :
    ∃ v c, JsonText.goRead text = some v ∧ readMembers readConfigMember (objectMembers v) {} = some c ∧ ObjectOk ConfigOk v ∧
      load c.conf = .ok L ∧ dir = dataDir cwd filename c.dbPath := by
  rw [loadFromFile] at h
  split at h
  · cases h
  · rename_i c hc
    split at h
    · cases h
    · rename_i L' hL
      cases h
      obtain ⟨v, hv, hr⟩ := Option.bind_eq_some_iff.1 (show (JsonText.goRead text).bind _ = some c from hc)
      refine ⟨v, c, hv, ?_, (readConfig_ok v).1 ⟨c, hr⟩, hL, rfl⟩
      cases v with
      | null => exact hr
      | obj ms => exact hr
      | _ => cases hr

/-- A repository after loading, from its members. -/
theorem repo_as_said {ms rms : List (Bytes × Value Bytes)} {c : FileConfig} (hc : ConfigRead ms c) {r r' : Repo}
    (hr : RepoRead rms r) (hm : MergedFrom c.conf.vcsConfigMessages (initRepo r) r') : RepoAsSaid ms rms r' := by
  obtain ⟨⟨m, rfl⟩, hsame, hmerge⟩ := hm
  have hvcs : (initRepo r).vcs = vcsOf rms := by rw [vcsOf, ← hr.vcs]; rfl
  refine ⟨hr.url, hr.displayName, hvcs, ?_, ?_, ?_, hr.excludeDotFiles, ?_, ?_, hr.autoGenerated, ?_⟩
  · rw [← hr.msBetweenPolls]
    rfl
  · rw [← hr.baseUrl]
    show some (initUrlPattern r.urlPattern).baseUrl = _
    cases r.urlPattern <;> rfl
  · rw [← hr.anchor]
    show some (initUrlPattern r.urlPattern).anchor = _
    cases r.urlPattern <;> rfl
  · rw [← hr.poll]
    show optionToBool r.enablePollUpdates _ = _
    cases r.enablePollUpdates <;> rfl
  · rw [← hr.push]
    show optionToBool r.enablePushUpdates _ = _
    cases r.enablePushUpdates <;> rfl
  · intro k
    have own : ownSetting k r = ((valueSaid (said b!"vcs-config" rms)).bind fun v => valueOf k (objectMembers v)).map rawMessage := by
      rw [ownSetting, hr.message]
      cases valueSaid (said b!"vcs-config" rms) with
      | none => rfl
      | some v => exact memberValue_raw k v
    have hglob := hc.vcsConfig (vcsOf rms)
    have glob : (((c.conf.vcsConfigMessages.lookup (vcsOf rms)).getD none).bind (memberValue k)) =
        ((vcsSaid ms (vcsOf rms)).bind fun v => valueOf k (objectMembers v)).map rawMessage := by
      rw [hglob]
      exact readMessage_bind k _
    rw [Option.map_or, ← own, ← glob]
    cases hl : c.conf.vcsConfigMessages.lookup (initRepo r).vcs with
    | none =>
      have e := hsame (.inr hl)
      rw [e, ← hvcs, hl]
      simp [ownSetting, initRepo]
    | some msg =>
      obtain ⟨g, gm, j, hg, rfl, hk, -, hj, hm⟩ := hmerge msg hl
      simp only at hm
      have e := mergeMessage_setting hg hj k
      rw [← hvcs, hl]
      simp only [ownSetting, hm, Option.bind_some, Option.getD_some]
      rw [e, hk]
      rfl

/-- **C74**, the settings. A configuration that was loaded has the settings of the file, and where the file says nothing the
defaults; it has exactly the repositories of the file, each with the settings given for it. -/
theorem config_exact {cwd filename text dir : Bytes} {L : Loaded} (h : loadFromFile cwd filename (some text) = .ok (dir, L)) :
    ∃ v, JsonText.goRead text = some v ∧
      L.title = orText (textSaid (said b!"title" (objectMembers v))) b!"Hound" ∧
      L.healthCheckURI = orText (textSaid (said b!"health-check-uri" (objectMembers v))) b!"/healthz" ∧
      L.maxConcurrentIndexers = orNumber (numberSaid (said b!"max-concurrent-indexers" (objectMembers v))) 2 ∧
      L.resultLimit = orNumber (numberSaid (said b!"result-limit" (objectMembers v))) 5000 ∧
      (L.repos.map (·.1)).Nodup ∧
      (∀ n, n ∈ L.repos.map (·.1) ↔ (reposSaid (objectMembers v) n).isSome) ∧
      ∀ n r, (n, r) ∈ L.repos → ∃ rms, reposSaid (objectMembers v) n = some (.obj rms) ∧ RepoAsSaid (objectMembers v) rms r := by
  obtain ⟨v, c, hv, hr, -, hL, -⟩ := loadFromFile_ok h
  have hc := config_read hr
  obtain ⟨g1, g2, g3, g4⟩ := load_globals hL
  obtain ⟨l1, -, l3⟩ := load_repos hL
  refine ⟨v, hv, ?_, ?_, ?_, ?_, l1 ▸ hc.repoNames, ?_, ?_⟩
  · rw [g1, ← hc.title]
    rfl
  · rw [g3, ← hc.healthCheckURI]
    rfl
  · rw [g2, ← hc.maxConcurrentIndexers]
    rfl
  · rw [g4, ← hc.resultLimit]
    rfl
  · intro n
    rw [l1, ← (hc.repos n).2]
    constructor
    · intro hn
      obtain ⟨e, he, rfl⟩ := List.mem_map.1 hn
      rw [(mem_iff_lookup hc.repoNames).1 (show (e.1, e.2) ∈ _ from he)]
      rfl
    · intro hn
      obtain ⟨r, hr⟩ := Option.isSome_iff_exists.1 hn
      exact List.mem_map.2 ⟨_, (mem_iff_lookup hc.repoNames).2 hr, rfl⟩
  · intro n r' hr'
    obtain ⟨r, hmem, hmerged⟩ := l3 n r' hr'
    have hlook := (mem_iff_lookup hc.repoNames).1 hmem
    rw [(hc.repos n).1] at hlook
    obtain ⟨w, hw, hrd⟩ := Option.bind_eq_some_iff.1 hlook
    obtain ⟨rms, rfl, hrms⟩ := readRepo_obj hrd
    exact ⟨rms, hw, repo_as_said hc (repo_read hrms) hmerged⟩

/-! ## Which files are refused -/

theorem initRepos_ok : ∀ (rs : List (Bytes × Option Repo)), (∃ rs', initRepos rs = .ok rs') ↔ ∀ e ∈ rs, e.2 ≠ none
  | [] => by simp [initRepos]
  | (n, none) :: rest => by simp [initRepos]
  | (n, some r) :: rest => by
    have ih := initRepos_ok rest
    rw [initRepos]
    cases h : initRepos rest with
    | error e =>
      rw [h] at ih
      have := mt ih.2 (by simp)
      simp only [List.mem_cons, forall_eq_or_imp, ne_eq, reduceCtorEq, not_false_eq_true, true_and, exists_false, false_iff]
      exact this
    | ok rs =>
      rw [h] at ih
      have := ih.1 ⟨rs, rfl⟩
      simp only [List.mem_cons, forall_eq_or_imp, ne_eq, reduceCtorEq, not_false_eq_true, true_and]
      exact ⟨fun _ => this, fun _ => ⟨_, rfl⟩⟩

theorem unmarshalMap_ok (j : Json) : (∃ m, unmarshalMap j = .ok m) ↔ j = .null ∨ ∃ ms, j = .obj ms := by
  cases j <;> simp [unmarshalMap]

theorem decodeGlobals_ok : ∀ (ms : List (Bytes × Option Json)), (∃ gs, decodeGlobals ms = .ok gs) ↔
    ∀ e ∈ ms, ∃ j, e.2 = some j ∧ (j = .null ∨ ∃ o, j = .obj o)
  | [] => by simp [decodeGlobals]
  | (n, none) :: rest => by simp [decodeGlobals]
  | (n, some j) :: rest => by
    have ih := decodeGlobals_ok rest
    have hj := unmarshalMap_ok j
    rw [decodeGlobals]
    simp only [List.mem_cons, forall_eq_or_imp, Option.some.injEq, exists_eq_left']
    cases hu : unmarshalMap j with
    | error e =>
      rw [hu] at hj
      have := mt hj.2 (by simp)
      simp only [reduceCtorEq, exists_false, false_iff]
      exact fun h => this h.1
    | ok vals =>
      rw [hu] at hj
      have hj := hj.1 ⟨_, rfl⟩
      cases hd : decodeGlobals rest with
      | error e =>
        rw [hd] at ih
        have := mt ih.2 (by simp)
        simp only [reduceCtorEq, exists_false, false_iff]
        exact fun h => this h.2
      | ok r =>
        rw [hd] at ih
        exact ⟨fun _ => ⟨hj, ih.1 ⟨_, rfl⟩⟩, fun _ => ⟨_, rfl⟩⟩

theorem mergeRepos_ok (gs : List (Bytes × List (Bytes × Json))) : ∀ (rs : List (Bytes × Repo)),
    (∃ rs', mergeRepos gs rs = .ok rs') ↔ ∀ e ∈ rs, ∃ r', mergeRepo gs e.2 = .ok r'
  | [] => by simp [mergeRepos]
  | (n, r) :: rest => by
    have ih := mergeRepos_ok gs rest
    rw [mergeRepos]
    simp only [List.mem_cons, forall_eq_or_imp]
    cases hu : mergeRepo gs r with
    | error e => simp
    | ok r' =>
      cases hd : mergeRepos gs rest with
      | error e =>
        rw [hd] at ih
        have := mt ih.2 (by simp)
        simp only [reduceCtorEq, exists_false, false_iff]
        exact fun h => this h.2
      | ok rs =>
        rw [hd] at ih
        exact ⟨fun _ => ⟨⟨_, rfl⟩, ih.1 ⟨_, rfl⟩⟩, fun _ => ⟨_, rfl⟩⟩

theorem mergeMessage_ok (g : List (Bytes × Json)) (o : Option (Value Bytes)) (hn : ∀ v, o = some v → v ≠ .null) :
    (∃ j, mergeMessage g (o.map rawMessage) = .ok j) ↔ ∀ v, o = some v → ∃ ms, v = .obj ms := by
  cases o with
  | none => simp [mergeMessage]
  | some v =>
    cases v with
    | null => exact absurd rfl (hn _ rfl)
    | obj ms => simp [mergeMessage, rawMessage, unmarshalMap]
    | _ => simp [mergeMessage, rawMessage, unmarshalMap]

/-- The repositories can be loaded. -/
theorem load_ok_iff {ms : List (Bytes × Value Bytes)} {c : FileConfig} (hc : ConfigRead ms c) :
    (∃ L, load c.conf = .ok L) ↔ Usable ms := by
  have h0 := initRepos_ok c.conf.repos
  have repoNone : (∀ e ∈ c.conf.repos, e.2 ≠ none) ↔ ∀ n, reposSaid ms n ≠ some .null := by
    constructor
    · intro h n hn
      have hl := (hc.repos n).1
      rw [hn] at hl
      exact h (n, none) ((mem_iff_lookup hc.repoNames).2 hl) rfl
    · rintro h ⟨n, m⟩ he rfl
      have hl := (mem_iff_lookup hc.repoNames).1 he
      rw [(hc.repos n).1] at hl
      obtain ⟨w, hw, hr⟩ := Option.bind_eq_some_iff.1 hl
      refine h n ?_
      cases w with
      | null => exact hw
      | _ => simp [readRepo, readObject] at hr
  have msgOk : (∀ e ∈ c.conf.vcsConfigMessages, ∃ j, e.2 = some j ∧ (j = .null ∨ ∃ o, j = .obj o)) ↔
      ∀ n v, vcsSaid ms n = some v → ∃ o, v = .obj o := by
    constructor
    · intro h n v hv
      have hl := hc.vcsConfig n
      rw [hv] at hl
      obtain ⟨j, hj, hs⟩ := h (n, readMessage v) ((mem_iff_lookup hc.vcsNames).2 hl)
      simp only at hj
      cases v with
      | null => cases hj
      | obj o => exact ⟨o, rfl⟩
      | _ =>
        cases hj
        simp [rawMessage] at hs
    · rintro h ⟨n, m⟩ he
      have hl := (mem_iff_lookup hc.vcsNames).1 he
      rw [hc.vcsConfig n] at hl
      obtain ⟨v, hv, rfl⟩ := Option.map_eq_some_iff.1 hl
      obtain ⟨o, rfl⟩ := h n v hv
      exact ⟨.obj (rawMembers o), by simp [readMessage, rawMessage], .inr ⟨_, rfl⟩⟩
  have hne : c.conf.vcsConfigMessages = [] ↔ ∀ n, vcsSaid ms n = none := by
    constructor
    · intro h n
      have := hc.vcsConfig n
      rw [h] at this
      exact Option.map_eq_none_iff.1 this.symm
    · intro h
      cases hm : c.conf.vcsConfigMessages with
      | nil => rfl
      | cons e r =>
        have := hc.vcsConfig e.1
        rw [h, hm, List.lookup_cons] at this
        simp at this
  rw [load]
  by_cases hr : ∀ n, reposSaid ms n ≠ some .null
  · obtain ⟨rs, hrs⟩ := h0.2 (repoNone.2 hr)
    obtain ⟨a1, a2, a3⟩ := initRepos_mem hrs
    rw [hrs]
    simp only [mergeVCSConfigs]
    by_cases he : c.conf.vcsConfigMessages = []
    · rw [if_pos he]
      refine ⟨fun _ => ⟨hr, ?_, ?_⟩, fun _ => ⟨_, rfl⟩⟩
      · intro n v hv
        rw [hne.1 he n] at hv
        cases hv
      · intro n rms _ hs
        rw [hne.1 he] at hs
        cases hs
    · rw [if_neg he]
      by_cases hv : ∀ n v, vcsSaid ms n = some v → ∃ o, v = .obj o
      · obtain ⟨gs, hgs⟩ := (decodeGlobals_ok _).2 (msgOk.2 hv)
        rw [hgs]
        simp only []
        have key : (∃ rs', mergeRepos gs rs = .ok rs') ↔ ∀ n rms, reposSaid ms n = some (.obj rms) →
            (vcsSaid ms (vcsOf rms)).isSome → ∀ v, valueSaid (said b!"vcs-config" rms) = some v → ∃ o, v = .obj o := by
          rw [mergeRepos_ok]
          have one : ∀ (r : Repo) (rms : List (Bytes × Value Bytes)), RepoRead rms r →
              ((∃ r', mergeRepo gs (initRepo r) = .ok r') ↔ ((vcsSaid ms (vcsOf rms)).isSome →
                ∀ v, valueSaid (said b!"vcs-config" rms) = some v → ∃ o, v = .obj o)) := by
            intro r rms hrr
            have hvcs : (initRepo r).vcs = vcsOf rms := by rw [vcsOf, ← hrr.vcs]; rfl
            have hmsg : (initRepo r).vcsConfigMessage = (valueSaid (said b!"vcs-config" rms)).map rawMessage := hrr.message
            obtain ⟨d1, -⟩ := decodeGlobals_lookup hgs (vcsOf rms)
            rw [mergeRepo, hvcs, hmsg]
            cases hl : gs.lookup (vcsOf rms) with
            | none =>
              have := d1.1 hl
              rw [hc.vcsConfig, Option.map_eq_none_iff] at this
              rw [this]
              exact ⟨fun _ h => by simp at h, fun _ => ⟨_, rfl⟩⟩
            | some g =>
              have hsome : (vcsSaid ms (vcsOf rms)).isSome := by
                cases hs : vcsSaid ms (vcsOf rms) with
                | some w => rfl
                | none =>
                  have := d1.2 (by rw [hc.vcsConfig, hs]; rfl)
                  rw [hl] at this
                  cases this
              have hmm := mergeMessage_ok g (valueSaid (said b!"vcs-config" rms)) (fun v hv => valueSaid_says hv)
              simp only [hsome, true_implies]
              rw [← hmm]
              cases mergeMessage g ((valueSaid (said b!"vcs-config" rms)).map rawMessage) with
              | error e => simp
              | ok j => simp
          constructor
          · intro h n rms hn
            have hl := (hc.repos n)
            rw [hn] at hl
            obtain ⟨x, hx⟩ := Option.isSome_iff_exists.1 (show (c.conf.repos.lookup n).isSome = true from hl.2)
            have hl1 := hl.1
            rw [hx] at hl1
            have hl1 : readRepo (.obj rms) = some x := hl1.symm
            obtain ⟨r, hr1, rfl⟩ := Option.map_eq_some_iff.1 hl1
            have hmem := (mem_iff_lookup hc.repoNames).2 hx
            obtain ⟨r0, h0, hm0⟩ := a2 n _ hmem
            cases h0
            exact (one r rms (repo_read hr1)).1 (h _ hm0)
          · rintro h ⟨n, r'⟩ hm
            obtain ⟨r, hmem, rfl⟩ := a3 n r' hm
            have hl := (mem_iff_lookup hc.repoNames).1 hmem
            rw [(hc.repos n).1] at hl
            obtain ⟨w, hw, hr1⟩ := Option.bind_eq_some_iff.1 hl
            obtain ⟨rms, rfl, hrms⟩ := readRepo_obj hr1
            exact (one r rms (repo_read hrms)).2 (h n rms hw)
        cases hmg : mergeRepos gs rs with
        | error e =>
          rw [hmg] at key
          have := mt key.2 (by simp)
          simp only [reduceCtorEq, exists_false, false_iff]
          exact fun h => this h.own
        | ok rs' =>
          rw [hmg] at key
          exact ⟨fun _ => ⟨hr, hv, key.1 ⟨_, rfl⟩⟩, fun _ => ⟨_, rfl⟩⟩
      · cases hd : decodeGlobals c.conf.vcsConfigMessages with
        | ok gs => exact absurd (msgOk.1 ((decodeGlobals_ok _).1 ⟨gs, hd⟩)) hv
        | error e =>
          simp only [reduceCtorEq, exists_false, false_iff]
          exact fun h => hv h.vcsConfig
  · cases hi : initRepos c.conf.repos with
    | ok rs => exact absurd (repoNone.1 (h0.1 ⟨rs, hi⟩)) hr
    | error e =>
      simp only [reduceCtorEq, exists_false, false_iff]
      exact fun h => hr h.repos

/-- **C74**, which files are accepted: the first JSON value of the text is an object (or `null`, which says nothing), every value has
the type of its setting, and settings that have to be put together are objects. -/
theorem config_accepted_iff (cwd filename text : Bytes) :
    (∃ dir L, loadFromFile cwd filename (some text) = .ok (dir, L)) ↔
      ∃ v, JsonText.goRead text = some v ∧ ObjectOk ConfigOk v ∧ Usable (objectMembers v) := by
  constructor
  · rintro ⟨dir, L, h⟩
    obtain ⟨v, c, hv, hr, hok, hL, -⟩ := loadFromFile_ok h
    exact ⟨v, hv, hok, (load_ok_iff (config_read hr)).1 ⟨L, hL⟩⟩
  · rintro ⟨v, hv, hok, hu⟩
    obtain ⟨c, hc⟩ := (readConfig_ok v).2 hok
    have hr : readMembers readConfigMember (objectMembers v) {} = some c := by
      cases v with
      | null => exact hc
      | obj ms => exact hc
      | _ => cases hc
    obtain ⟨L, hL⟩ := (load_ok_iff (config_read hr)).2 hu
    refine ⟨dataDir cwd filename c.dbPath, L, ?_⟩
    rw [loadFromFile]
    have : (some text).bind readConfig = some c := by
      show (JsonText.goRead text).bind _ = _
      rw [hv]
      exact hc
    rw [this]
    simp only [hL]

/-- **C74**, the data directory: as the file says if that is an absolute path; else it is found by following the path from the
directory of the configuration file, which for its part is followed from the directory the server was started in. It is an absolute path
without detours. -/
theorem data_dir_exact {cwd filename text dir : Bytes} {L : Loaded} (hcwd : FromRoot cwd)
    (h : loadFromFile cwd filename (some text) = .ok (dir, L)) :
    ∃ v, JsonText.goRead text = some v ∧
      (FromRoot (textSaid (said b!"dbpath" (objectMembers v))) → dir = textSaid (said b!"dbpath" (objectMembers v))) ∧
      (¬ FromRoot (textSaid (said b!"dbpath" (objectMembers v))) → ∃ start place,
        (FromRoot filename → start = []) ∧ (¬ FromRoot filename → start = follow [] (pathNames cwd)) ∧
        place = follow start ((pathNames filename).dropLast ++ pathNames (textSaid (said b!"dbpath" (objectMembers v)))) ∧
        dir = absolutePath place ∧ ∀ n ∈ place, n ≠ [] ∧ n ≠ b!"." ∧ n ≠ b!".." ∧ 47 ∉ n) := by
  obtain ⟨v, c, hv, hr, -, -, rfl⟩ := loadFromFile_ok h
  refine ⟨v, hv, ?_⟩
  rw [← (config_read hr).dbPath]
  refine ⟨fun hp => ?_, fun hp => ?_⟩
  · rw [dataDir, if_pos ((Path.isAbs_iff _).2 hp)]
  · have e : dataDir cwd filename c.dbPath = Path.abs cwd (Path.join (Path.dir filename) c.dbPath) := by
      rw [dataDir, if_neg fun hh => hp ((Path.isAbs_iff _).1 hh)]
    have hno : ∀ n ∈ (pathNames filename).dropLast ++ pathNames c.dbPath, Path.SL ∉ n := by
      intro n hn
      rcases List.mem_append.1 hn with hn | hn
      · exact Path.pathNames_noSL _ n (List.dropLast_subset _ hn)
      · exact Path.pathNames_noSL _ n hn
    obtain ⟨j1, j2⟩ := Path.abs_join_dir hcwd filename c.dbPath
    by_cases hf : FromRoot filename
    · refine ⟨[], _, fun _ => rfl, fun hn => absurd hf hn, rfl, e.trans (j1 hf), ?_⟩
      exact Path.follow_proper _ _ hno (by simp)
    · refine ⟨follow [] (pathNames cwd), _, fun hn => absurd hn hf, fun _ => rfl, rfl, e.trans (j2 hf), ?_⟩
      exact Path.follow_proper _ _ hno (Path.follow_proper _ _ (Path.pathNames_noSL _) (by simp))

/-! ## A file -/

/-- A configuration file with two repositories. -/
def sampleText : Bytes := b!"{ \"Title\": \"Code\", \"title\": null, \"dbpath\": \"../data\", \"result-limit\": 100,
  \"vcs-config\": { \"git\": { \"detect-ref\": true } },
  \"repos\": { \"A\": { \"url\": \"u\", \"ms-between-poll\": 5, \"vcs-config\": { \"ref\": \"dev\" } },
             \"B\": { \"url\": \"v\", \"vcs\": \"hg\", \"enable-poll-updates\": false, \"url-pattern\": { \"anchor\": \"#{line}\" } } } }"

/-- A repository, as far as it can be compared. -/
structure RepoGlance where
  name : Bytes
  url : Bytes
  vcs : Bytes
  ms : Int
  poll : Bool
  dots : Bool
deriving DecidableEq

/-- What was loaded, as far as it can be compared. -/
structure Glance where
  dir : Bytes
  title : Bytes
  uri : Bytes
  limit : Int
  indexers : Int
  repos : List RepoGlance
deriving DecidableEq

def glanceOf (d : Bytes) (L : Loaded) : Glance :=
  ⟨d, L.title, L.healthCheckURI, L.resultLimit, L.maxConcurrentIndexers,
    L.repos.map fun e => ⟨e.1, e.2.url, e.2.vcs, e.2.msBetweenPolls, e.2.pollUpdatesEnabled, e.2.excludeDotFiles⟩⟩

def glance : Except LoadErr (Bytes × Loaded) → Option Glance
  | .ok (d, L) => some (glanceOf d L)
  | .error _ => none

theorem glance_ok {x : Except LoadErr (Bytes × Loaded)} {g : Glance} (h : glance x = some g) :
    ∃ L, x = .ok (g.dir, L) ∧ glanceOf g.dir L = g := by
  match x, h with
  | .ok (d', L), h =>
    obtain rfl := Option.some.inj h
    exact ⟨L, rfl, rfl⟩

theorem sample_loads : ∃ L : Loaded, loadFromFile b!"/srv/x" b!"conf/config.json" (some sampleText) = .ok (b!"/srv/x/data", L) ∧
    glanceOf b!"/srv/x/data" L = ⟨b!"/srv/x/data", b!"Code", b!"/healthz", 100, 2,
      [⟨b!"A", b!"u", b!"git", 5, true, false⟩, ⟨b!"B", b!"v", b!"hg", 30000, false, false⟩]⟩ :=
  glance_ok (g := ⟨b!"/srv/x/data", b!"Code", b!"/healthz", 100, 2,
      [⟨b!"A", b!"u", b!"git", 5, true, false⟩, ⟨b!"B", b!"v", b!"hg", 30000, false, false⟩]⟩) (by decide +kernel)

example : ∃ (L : Loaded) (v : Value Bytes), JsonText.goRead sampleText = some v ∧ L.title = orText (textSaid (said b!"title" (objectMembers v))) b!"Hound" ∧
    ObjectOk ConfigOk v ∧ Usable (objectMembers v) ∧ L.repos.length = 2 := by
  obtain ⟨L, hL, hr⟩ := sample_loads
  obtain ⟨v, hv, h1, -⟩ := config_exact hL
  obtain ⟨w, hw, h2, h3⟩ := (config_accepted_iff _ _ _).1 ⟨_, L, hL⟩
  rw [hv] at hw
  cases hw
  exact ⟨L, v, hv, h1, h2, h3, by have := congrArg (fun g => g.repos.length) hr; simpa [glanceOf] using this⟩

example : FromRoot b!"/srv/x" ∧ ¬ FromRoot b!"conf/config.json" ∧ ¬ FromRoot b!"../data" ∧
    absolutePath (follow (follow [] (pathNames b!"/srv/x")) ((pathNames b!"conf/config.json").dropLast ++ pathNames b!"../data")) =
      b!"/srv/x/data" := by
  refine ⟨⟨_, rfl⟩, ?_, ?_, by decide⟩ <;> rintro ⟨t, ht⟩ <;> cases ht

/-- A repository that is `null` stops the program. -/
example : loadFromFile b!"/" b!"c" (some b!"{\"repos\": {\"A\": null}}") = .error .panic := rfl

/-- A value of the wrong type is refused. -/
example : loadFromFile b!"/" b!"c" (some b!"{\"result-limit\": \"10\"}") = .error .badJson := rfl

/-! ## The documented defaults (docs/config-options.md) -/

/-- **C74**, full statement: a repository whose configuration does not mention dot files leaves them out
(docs/config-options.md:57), and a file that does not mention the data directory has it in `data`, beside the file (docs/config-options.md:18). -/
def DocumentedDefaultsFull : Prop :=
  ∀ cwd filename text dir L v, FromRoot cwd → FromRoot filename → loadFromFile cwd filename (some text) = .ok (dir, L) →
    JsonText.goRead text = some v →
      (∀ n rms r, reposSaid (objectMembers v) n = some (.obj rms) → said b!"exclude-dot-files" rms = [] → (n, r) ∈ L.repos →
        r.excludeDotFiles = true) ∧
      (said b!"dbpath" (objectMembers v) = [] →
        dir = absolutePath (follow [] ((pathNames filename).dropLast ++ [b!"data"])))

/-- Dot files are searched unless they are excluded. -/
theorem dot_files_by_default {cwd filename text dir : Bytes} {L : Loaded} (h : loadFromFile cwd filename (some text) = .ok (dir, L)) :
    ∃ v, JsonText.goRead text = some v ∧ ∀ n rms r, reposSaid (objectMembers v) n = some (.obj rms) →
      said b!"exclude-dot-files" rms = [] → (n, r) ∈ L.repos → r.excludeDotFiles = false := by
  obtain ⟨v, hv, -, -, -, -, -, -, hr⟩ := config_exact h
  refine ⟨v, hv, fun n rms r hn hs hm => ?_⟩
  obtain ⟨rms', hn', hr'⟩ := hr n r hm
  rw [hn] at hn'
  cases hn'
  rw [hr'.excludeDotFiles, hs]
  rfl

/-- Without `dbpath` the data directory is the directory of the configuration file. -/
theorem data_dir_by_default {cwd filename text dir : Bytes} {L : Loaded} (hcwd : FromRoot cwd) (hf : FromRoot filename)
    (h : loadFromFile cwd filename (some text) = .ok (dir, L)) :
    ∃ v, JsonText.goRead text = some v ∧ (said b!"dbpath" (objectMembers v) = [] →
      dir = absolutePath (follow [] (pathNames filename).dropLast)) := by
  obtain ⟨v, hv, -, h2⟩ := data_dir_exact hcwd h
  refine ⟨v, hv, fun hs => ?_⟩
  rw [hs] at h2
  obtain ⟨start, place, h3, -, rfl, h4, -⟩ := h2 (by rintro ⟨t, ht⟩; cases ht)
  rw [h4, h3 hf, Path.follow_append]
  rfl

theorem not_documentedDefaultsFull : ¬ DocumentedDefaultsFull := by
  intro H
  have e : glance (loadFromFile b!"/" b!"/etc/c" (some b!"{\"repos\": {\"A\": {}}}")) =
      some ⟨b!"/etc", b!"Hound", b!"/healthz", 5000, 2, [⟨b!"A", [], b!"git", 30000, true, false⟩]⟩ := by decide +kernel
  obtain ⟨L, hL, -⟩ := glance_ok e
  obtain ⟨-, h2⟩ := H _ _ _ _ L (.obj [(b!"repos", .obj [(b!"A", .obj [])])]) ⟨_, rfl⟩ ⟨_, rfl⟩ hL rfl
  exact absurd (h2 rfl) (by decide)

end Hound.Config
