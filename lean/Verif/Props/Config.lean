import Verif.Proofs.Config

/-!
# C33, C34: what loading a configuration yields and what of it is served
-/

namespace Hound.Config
open Spec

/-! ## C34 -/

/-- **C34**, defaults. After loading, the repositories are those of the file, and each has the settings
given in the file, with defaults where they are missing: a vcs, a poll interval, an url pattern with both
parts, and flags for polling and push updates. -/
theorem load_defaults {c : Config} {L : Loaded} (h : load c = .ok L) :
    L.repos.map (·.1) = c.repos.map (·.1) ∧
    ∀ n r', (n, r') ∈ L.repos → ∃ r, (n, some r) ∈ c.repos ∧
      r'.vcs = (if r.vcs = [] then b!"git" else r.vcs) ∧ r'.vcs ≠ [] ∧
      r'.msBetweenPolls = (if r.msBetweenPolls = 0 then 30000 else r.msBetweenPolls) ∧
      r'.msBetweenPolls ≠ 0 ∧
      (∃ p, r'.urlPattern = some p ∧ p.baseUrl ≠ [] ∧ p.anchor ≠ [] ∧
        (∀ q, r.urlPattern = some q → (q.baseUrl ≠ [] → p.baseUrl = q.baseUrl) ∧
          (q.anchor ≠ [] → p.anchor = q.anchor)) ∧
        ((∀ q, r.urlPattern = some q → q.baseUrl = []) → p.baseUrl = b!"{url}/blob/{rev}/{path}{anchor}") ∧
        ((∀ q, r.urlPattern = some q → q.anchor = []) → p.anchor = b!"#L{line}")) ∧
      (∀ b, r.enablePollUpdates = some b → r'.pollUpdatesEnabled = b) ∧
      (r.enablePollUpdates = none → r'.pollUpdatesEnabled = true) ∧
      (∀ b, r.enablePushUpdates = some b → r'.pushUpdatesEnabled = b) ∧
      (r.enablePushUpdates = none → r'.pushUpdatesEnabled = false) ∧
      r'.url = r.url ∧ r'.displayName = r.displayName ∧ r'.excludeDotFiles = r.excludeDotFiles ∧
      r'.autoGeneratedFiles = r.autoGeneratedFiles := by
  obtain ⟨h1, -, h3⟩ := load_repos h
  refine ⟨h1, ?_⟩
  intro n r' hr'
  obtain ⟨r, hr, ⟨⟨m, rfl⟩, -⟩⟩ := h3 n r' hr'
  refine ⟨r, hr, rfl, ?_, rfl, ?_, ⟨initUrlPattern r.urlPattern, rfl, ?_⟩, ?_⟩
  · simp only [initRepo]
    split
    · decide
    · assumption
  · simp only [initRepo]
    split
    · decide
    · assumption
  · cases hp : r.urlPattern with
    | none => simp [initUrlPattern, defaultBaseUrl, defaultAnchor]
    | some q =>
      simp only [initUrlPattern]
      refine ⟨?_, ?_, ?_, ?_, ?_⟩
      · split
        · decide
        · assumption
      · split
        · decide
        · assumption
      · rintro q' ⟨⟩
        exact ⟨fun hq => if_neg hq, fun hq => if_neg hq⟩
      · intro hq; exact if_pos (hq q rfl)
      · intro hq; exact if_pos (hq q rfl)
  · refine ⟨?_, ?_, ?_, ?_, rfl, rfl, rfl, rfl⟩
    · intro b hb; simp [Repo.pollUpdatesEnabled, initRepo, hb, optionToBool]
    · intro hb; simp [Repo.pollUpdatesEnabled, initRepo, hb, optionToBool, defaultPollEnabled]
    · intro b hb; simp [Repo.pushUpdatesEnabled, initRepo, hb, optionToBool]
    · intro hb; simp [Repo.pushUpdatesEnabled, initRepo, hb, optionToBool, defaultPushEnabled]

/-- **C34**, the other settings. -/
theorem load_globals {c : Config} {L : Loaded} (h : load c = .ok L) :
    L.title = (if c.title = [] then b!"Hound" else c.title) ∧
    L.maxConcurrentIndexers = (if c.maxConcurrentIndexers = 0 then 2 else c.maxConcurrentIndexers) ∧
    L.healthCheckURI = (if c.healthCheckURI = [] then b!"/healthz" else c.healthCheckURI) ∧
    L.resultLimit = (if c.resultLimit = 0 then 5000 else c.resultLimit) := by
  unfold load at h
  split at h
  · simp at h
  · split at h
    · simp at h
    · obtain rfl := Except.ok.inj h
      exact ⟨rfl, rfl, rfl, rfl⟩

/-- **C34**, vcs settings by name. After loading, each setting in a repository's `vcs-config` is the one
the repository gives under that name, or else the global one for its vcs. -/
theorem load_vcs_settings {c : Config} {L : Loaded} (h : load c = .ok L) :
    ∀ n r, (n, some r) ∈ c.repos → ∃ r', (n, r') ∈ L.repos ∧
      ∀ k, ownSetting k r' = (ownSetting k r).or (globalSetting k r'.vcs c) := by
  obtain ⟨-, h2, -⟩ := load_repos h
  intro n r hr
  obtain ⟨r0, r', hs, hr', ⟨⟨m, rfl⟩, hsame, hmerge⟩⟩ := h2 n _ hr
  obtain rfl := Option.some.inj hs
  refine ⟨_, hr', ?_⟩
  intro k
  cases hl : c.vcsConfigMessages.lookup (initRepo r).vcs with
  | none =>
    have e := hsame (.inr hl)
    rw [e]
    simp only [globalSetting, hl]
    simp [ownSetting, initRepo]
  | some msg =>
    obtain ⟨g, gm, j, hg, rfl, hk, -, hj, hm⟩ := hmerge msg hl
    simp only at hm
    have e := mergeMessage_setting hg hj k
    simp only [ownSetting, hm, globalSetting, hl, Option.bind_some]
    rw [e, hk]
    rfl

/-- **C34**, full statement for what the vcs driver reads: a field the repository mentions has the value
the repository's own settings give it; a field it does not mention has the value of the global settings
for its vcs. (`encoding/json` accepts the name of a field in any case.) -/
def OverrideFull : Prop :=
  ∀ (c : Config) (L : Loaded), load c = .ok L → ∀ n r, (n, some r) ∈ c.repos →
    ∃ r', (n, r') ∈ L.repos ∧ ∀ field,
      driverField field r'.vcsConfigMessage =
        if mentions field r.vcsConfigMessage then driverField field r.vcsConfigMessage
        else driverField field (c.vcsConfigMessages.lookup r'.vcs).join

theorem hits_merge {P : Bytes → Bool} {key : Bytes} {rm gm : List (Bytes × Json)}
    (hr : (rm.filter fun e => P e.1).length ≤ 1) (hrk : ∀ e ∈ rm, P e.1 = true → e.1 = key)
    (hg : (gm.filter fun e => P e.1).length ≤ 1) (hgk : ∀ e ∈ gm, P e.1 = true → e.1 = key) :
    ((mergeVals (toMap gm) (toMap rm)).foldr insertMember []).filter (fun e => P e.1) =
      if rm.any (fun e => P e.1) then rm.filter (fun e => P e.1) else gm.filter fun e => P e.1 := by
  have hfr := filter_toMap P rm hr
  have hfg := filter_toMap P gm hg
  have hm : (mergeVals (toMap gm) (toMap rm)).filter (fun e => P e.1) =
      if rm.any (fun e => P e.1) then rm.filter (fun e => P e.1) else gm.filter fun e => P e.1 := by
    unfold mergeVals
    rw [List.filter_append, hfr]
    have hcomm : (((toMap gm).filter fun e => (List.lookup e.1 (toMap rm)).isNone).filter fun e => P e.1) =
        (gm.filter fun e => P e.1).filter fun e => (List.lookup e.1 (toMap rm)).isNone := by
      rw [← hfg, List.filter_filter, List.filter_filter]
      exact List.filter_congr fun e _ => Bool.and_comm _ _
    rw [hcomm]
    split
    · rename_i hany
      obtain ⟨x, hx, hxP⟩ := List.any_eq_true.1 hany
      have hxk := hrk x hx hxP
      have hx' : x ∈ (toMap rm).filter (fun e => P e.1) := by
        rw [hfr]; exact List.mem_filter.2 ⟨hx, hxP⟩
      have hin : x ∈ toMap rm := (List.mem_filter.1 hx').1
      have hsome : (List.lookup key (toMap rm)).isNone = false := by
        rw [lookup_eq_filter]
        have : x ∈ (toMap rm).filter (fun e => e.1 == key) :=
          List.mem_filter.2 ⟨hin, by simp [hxk]⟩
        cases hf : (toMap rm).filter (fun e => e.1 == key) with
        | nil => rw [hf] at this; simp at this
        | cons a b => simp
      have : (gm.filter fun e => P e.1).filter (fun e => (List.lookup e.1 (toMap rm)).isNone) = [] := by
        refine List.filter_eq_nil_iff.2 fun e he => ?_
        obtain ⟨he1, he2⟩ := List.mem_filter.1 he
        rw [hgk e he1 he2, hsome]
        simp
      rw [this, List.append_nil]
    · rename_i hany
      have h0 : rm.filter (fun e => P e.1) = [] := by
        refine List.filter_eq_nil_iff.2 fun e he hP => hany (List.any_eq_true.2 ⟨e, he, hP⟩)
      rw [h0, List.nil_append]
      refine List.filter_eq_self.2 fun e he => ?_
      obtain ⟨he1, he2⟩ := List.mem_filter.1 he
      rw [lookup_eq_filter]
      cases hf : (toMap rm).filter (fun x => x.1 == e.1) with
      | nil => simp
      | cons a b =>
        have ha : a ∈ (toMap rm).filter (fun x => x.1 == e.1) := by rw [hf]; simp
        obtain ⟨a1, a2⟩ := List.mem_filter.1 ha
        have : a ∈ (toMap rm).filter (fun x => P x.1) :=
          List.mem_filter.2 ⟨a1, by rw [beq_iff_eq.1 a2]; exact he2⟩
        rw [hfr, h0] at this
        simp at this
  rw [← hm]
  refine perm_small ((sortMembers_perm _).filter _) ?_
  rw [hm]
  split <;> assumption

/-- The driver compares names as the specification does. -/
theorem inSmall_eq : inSmall = foldKey := rfl

/-- **C34**, partial: the full statement for every field that both settings mention at most once and in
the same spelling. Missing: settings that spell a field in different cases; for these the full statement
is false (`not_overrideFull`). -/
theorem override_partial {c : Config} {L : Loaded} (h : load c = .ok L) {n : Bytes} {r : Repo}
    (hr : (n, some r) ∈ c.repos) :
    ∃ r', (n, r') ∈ L.repos ∧ ∀ key field,
      MentionsOnceAs key field r.vcsConfigMessage →
      MentionsOnceAs key field (c.vcsConfigMessages.lookup r'.vcs).join →
      driverField field r'.vcsConfigMessage =
        if mentions field r.vcsConfigMessage then driverField field r.vcsConfigMessage
        else driverField field (c.vcsConfigMessages.lookup r'.vcs).join := by
  obtain ⟨-, h2, -⟩ := load_repos h
  obtain ⟨r0, r', hs, hr', ⟨⟨m, rfl⟩, hsame, hmerge⟩⟩ := h2 n _ hr
  obtain rfl := Option.some.inj hs
  refine ⟨_, hr', ?_⟩
  intro key field hown hglob
  have hmsg : (initRepo r).vcsConfigMessage = r.vcsConfigMessage := rfl
  cases hl : c.vcsConfigMessages.lookup (initRepo r).vcs with
  | none =>
    have e := hsame (.inr hl)
    rw [e, hmsg]
    split
    · rfl
    · rename_i hm
      cases hv : r.vcsConfigMessage with
      | none => simp [driverField]
      | some j =>
        cases j with
        | obj members =>
          rw [hv] at hm
          simp only [mentions, inSmall_eq, Bool.not_eq_true, List.any_eq_false] at hm
          have : (members.filter fun e => foldKey e.1 == foldKey field && !e.2.isNull) = [] := by
            refine List.filter_eq_nil_iff.2 fun e he => ?_
            have := hm e he
            simp [this]
          simp [driverField, this]
        | _ => simp [driverField]
  | some msg =>
    obtain ⟨g, gm, j, hg, rfl, hk, hshape, hj, hm⟩ := hmerge msg hl
    simp only at hm hglob
    rw [hl] at hglob
    simp only [Option.join_some] at hglob
    simp only [hm, Option.join_some]
    rw [hmsg] at hj
    -- the members of the global settings
    obtain ⟨gms, hgeq, hgone, hgkey, hgdrv⟩ : ∃ gms, g = toMap gms ∧
        (gms.filter fun e => foldKey e.1 == foldKey field).length ≤ 1 ∧
        (∀ e ∈ gms, (foldKey e.1 == foldKey field) = true → e.1 = key) ∧
        driverField field (some gm) = driverField field (some (.obj gms)) := by
      rcases hshape with ⟨members, rfl, rfl⟩ | ⟨rfl, rfl⟩
      · simp only [MentionsOnceAs, inSmall_eq] at hglob
        exact ⟨members, rfl, hglob.1, fun e he hf => hglob.2 e he (beq_iff_eq.1 hf), rfl⟩
      · exact ⟨[], rfl, by simp, by simp, by simp [driverField]⟩
    rw [hgdrv]
    subst hgeq
    cases hv : r.vcsConfigMessage with
    | none =>
      rw [hv] at hj
      simp only [mergeMessage, Except.ok.injEq] at hj
      subst hj
      have hh := hits_merge (P := fun k => foldKey k == foldKey field) (key := key) (rm := [])
        (by simp) (by simp) hgone hgkey
      simp only [List.any_nil, Bool.false_eq_true, if_false, toMap] at hh
      simp only [mentions, Bool.false_eq_true, if_false, marshalMap]
      exact driverField_hits hh
    | some own =>
      rw [hv] at hj
      cases own with
      | obj rms =>
        simp only [mergeMessage, unmarshalMap, Except.ok.injEq] at hj
        subst hj
        rw [hv] at hown
        simp only [MentionsOnceAs, inSmall_eq] at hown
        have hh := hits_merge (P := fun k => foldKey k == foldKey field) (key := key) (rm := rms)
          hown.1 (fun e he hf => hown.2 e he (beq_iff_eq.1 hf)) hgone hgkey
        by_cases hany : (rms.any fun e => foldKey e.1 == foldKey field) = true
        · rw [if_pos hany] at hh
          rw [if_pos (show mentions field (some (.obj rms)) = true from hany)]
          exact driverField_hits hh
        · rw [if_neg hany] at hh
          rw [if_neg (show ¬ mentions field (some (.obj rms)) = true from hany)]
          exact driverField_hits hh
      | null =>
        simp only [mergeMessage, unmarshalMap] at hj
        split at hj
        · rename_i hgn
          obtain rfl := Except.ok.inj hj
          have : gms = [] := by
            cases gms with
            | nil => rfl
            | cons e es =>
              have := lookup_toMap e.1 (e :: es)
              rw [hgn] at this
              simp only [memberValue, List.filter_cons, beq_self_eq_true, if_true, List.lookup_nil] at this
              rw [List.getLast?_eq_some_getLast (by simp)] at this
              simp at this
          subst this
          simp [driverField, mentions]
        · simp at hj
      | bool b => simp [mergeMessage, unmarshalMap] at hj
      | num b => simp [mergeMessage, unmarshalMap] at hj
      | str b => simp [mergeMessage, unmarshalMap] at hj
      | arr b => simp [mergeMessage, unmarshalMap] at hj

/-- The configuration `{"vcs-config": {"git": {"ref": "main"}}, "repos": {"a": {"vcs-config": {"Ref": "dev"}}}}`. -/
def caseConfig : Config where
  repos := [(b!"a", some { vcsConfigMessage := some (.obj [(b!"Ref", .str b!"dev")]) })]
  vcsConfigMessages := [(b!"git", some (.obj [(b!"ref", .str b!"main")]))]

theorem caseConfig_driver : ∃ L r', load caseConfig = .ok L ∧ L.repos = [(b!"a", r')] ∧
    driverField b!"ref" r'.vcsConfigMessage = some (.str b!"main") := by
  refine ⟨_, _, rfl, rfl, ?_⟩
  rfl

/-- The full statement is false: a setting spelled in another case than the global one does not win. -/
theorem not_overrideFull : ¬ OverrideFull := by
  intro h
  obtain ⟨L, r', hL, hrepos, hd⟩ := caseConfig_driver
  obtain ⟨r'', hin, hf⟩ := h caseConfig L hL b!"a"
    { vcsConfigMessage := some (.obj [(b!"Ref", .str b!"dev")]) } (by simp [caseConfig])
  rw [hrepos] at hin
  simp only [List.mem_singleton, Prod.mk.injEq, true_and] at hin
  subst hin
  have := hf b!"ref"
  rw [hd] at this
  have hm : mentions b!"ref" (some (.obj [(b!"Ref", .str b!"dev")])) = true := rfl
  rw [hm, if_pos rfl] at this
  have hv : driverField b!"ref" (some (.obj [(b!"Ref", .str b!"dev")])) = some (.str b!"dev") := rfl
  rw [hv] at this
  simp at this

/-- A configuration with a global git setting, a repository that overrides it and one that does not. -/
def sampleConfig : Config where
  repos := [(b!"a", some { url := b!"u1", vcsConfigMessage := some (.obj [(b!"ref", .str b!"dev")]) }),
    (b!"b", some { url := b!"u2", vcs := b!"git", msBetweenPolls := 5 })]
  vcsConfigMessages := [(b!"git", some (.obj [(b!"detect-ref", .bool true), (b!"ref", .str b!"main")]))]

/-- It loads, and the settings are as expected. -/
example : ∃ L a b, load sampleConfig = .ok L ∧ L.repos = [(b!"a", a), (b!"b", b)] ∧
    driverField b!"ref" a.vcsConfigMessage = some (.str b!"dev") ∧
    driverField b!"detect-ref" a.vcsConfigMessage = some (.bool true) ∧
    driverField b!"ref" b.vcsConfigMessage = some (.str b!"main") ∧
    a.msBetweenPolls = 30000 ∧ b.msBetweenPolls = 5 ∧ a.vcs = b!"git" ∧ L.resultLimit = 5000 := by
  refine ⟨_, _, _, rfl, rfl, ?_, ?_, ?_, ?_, ?_, ?_, ?_⟩
  all_goals rfl

/-- The hypotheses of `override_partial` hold for it. -/
example : MentionsOnceAs b!"ref" b!"ref" (some (.obj [(b!"ref", .str b!"dev")])) ∧
    MentionsOnceAs b!"ref" b!"ref" (sampleConfig.vcsConfigMessages.lookup b!"git").join := by
  constructor
  · simp [MentionsOnceAs]
  · simp [MentionsOnceAs, sampleConfig, inSmall]

/-- A global setting of `null` stops the program. -/
example : load { vcsConfigMessages := [(b!"git", none)] } = .error .panic := rfl

/-! ## C33 -/

theorem repoJson_public {a b : Repo} (h : SamePublic a b) : repoJson a = repoJson b := by
  obtain ⟨m, hp, rfl⟩ := h
  have : secretJson a.vcsConfigMessage = secretJson m := by
    unfold SamePresence at hp
    cases ha : a.vcsConfigMessage <;> cases m <;> simp_all [secretJson]
  simp only [repoJson, this]

theorem mergeMessage_some {r r' : Repo} {gs : List (Bytes × List (Bytes × Json))} (h : mergeRepo gs r = .ok r') :
    (gs.lookup r.vcs = none ∧ r' = r) ∨
    ((gs.lookup r.vcs).isSome ∧ ∃ m, r' = { r with vcsConfigMessage := some m }) := by
  unfold mergeRepo at h
  split at h
  · rename_i hl
    exact .inl ⟨hl, (Except.ok.inj h).symm⟩
  · rename_i g hl
    split at h
    · simp at h
    · obtain rfl := Except.ok.inj h
      exact .inr ⟨by simp [hl], _, rfl⟩

theorem merge_public {gs gs' : List (Bytes × List (Bytes × Json))}
    (hg : ∀ v, (gs.lookup v).isSome = (gs'.lookup v).isSome) {a b a' b' : Repo} (h : SamePublic a b)
    (ha : mergeRepo gs a = .ok a') (hb : mergeRepo gs' b = .ok b') : SamePublic a' b' := by
  obtain ⟨m, hp, rfl⟩ := h
  rcases mergeMessage_some ha with ⟨h1, rfl⟩ | ⟨h1, m1, rfl⟩
  · rcases mergeMessage_some hb with ⟨h2, rfl⟩ | ⟨h2, m2, rfl⟩
    · exact ⟨m, hp, rfl⟩
    · have := hg a'.vcs
      rw [h1] at this
      simp only at h2
      rw [← this] at h2
      simp at h2
  · rcases mergeMessage_some hb with ⟨h2, rfl⟩ | ⟨h2, m2, rfl⟩
    · have := hg a.vcs
      simp only at h2
      rw [h2] at this
      rw [this] at h1
      simp at h1
    · exact ⟨some m2, rfl, rfl⟩

/-- **C33**. Two configuration files that differ only in the content of vcs settings (global ones and
those of repositories) produce the same JSON for the repository list, on the web page and in the API. -/
theorem secrets_not_served {c c' : Config} {L L' : Loaded}
    (hrepos : SamePublicRepos c.repos c'.repos)
    (hglobal : c.vcsConfigMessages.map (fun e => (e.1, e.2.isSome)) =
      c'.vcsConfigMessages.map fun e => (e.1, e.2.isSome))
    (h : load c = .ok L) (h' : load c' = .ok L') : reposJson L.repos = reposJson L'.repos := by
  unfold load at h h'
  split at h
  · simp at h
  · rename_i rs hrs
    split at h'
    · simp at h'
    · rename_i rs' hrs'
      split at h
      · simp at h
      · rename_i ms hms
        split at h'
        · simp at h'
        · rename_i ms' hms'
          obtain rfl := Except.ok.inj h
          obtain rfl := Except.ok.inj h'
          simp only
          -- public parts after the defaults
          have step1 : rs.map (fun e => e.1) = rs'.map (fun e => e.1) ∧
              ∀ (i : Nat) (a b : Bytes × Repo), rs[i]? = some a → rs'[i]? = some b → SamePublic a.2 b.2 := by
            clear hms hms'
            generalize c.repos = cr at *
            generalize c'.repos = cr' at *
            induction hrepos generalizing rs rs' with
            | nil =>
              simp only [initRepos, Except.ok.injEq] at hrs hrs'
              subst hrs; subst hrs'
              simp
            | cons hab _ ih =>
              simp only [initRepos] at hrs hrs'
              split at hrs
              · simp at hrs
              · rename_i t ht
                split at hrs'
                · simp at hrs'
                · rename_i t' ht'
                  obtain rfl := Except.ok.inj hrs
                  obtain rfl := Except.ok.inj hrs'
                  obtain ⟨i1, i2⟩ := ih t t' ht ht'
                  refine ⟨by simp [i1], ?_⟩
                  intro i a b ha hb
                  cases i with
                  | zero =>
                    simp only [List.getElem?_cons_zero, Option.some.injEq] at ha hb
                    subst ha; subst hb
                    obtain ⟨m, hp, rfl⟩ := hab
                    exact ⟨m, hp, rfl⟩
                  | succ j =>
                    simp only [List.getElem?_cons_succ] at ha hb
                    exact i2 j a b ha hb
          have fin : ∀ {xs ys : List (Bytes × Repo)}, xs.map (fun e => e.1) = ys.map (fun e => e.1) →
              (∀ (i : Nat) (a b : Bytes × Repo), xs[i]? = some a → ys[i]? = some b → SamePublic a.2 b.2) →
              reposJson xs = reposJson ys := by
            intro xs ys hk hv
            unfold reposJson
            congr 1
            have hlen : xs.length = ys.length := by simpa using congrArg List.length hk
            apply List.ext_getElem?
            intro i
            simp only [List.getElem?_map]
            have hki := congrArg (·[i]?) hk
            simp only [List.getElem?_map] at hki
            cases hx : xs[i]? with
            | none =>
              cases hy : ys[i]? with
              | none => rfl
              | some b => rw [hx, hy] at hki; simp at hki
            | some a =>
              cases hy : ys[i]? with
              | none => rw [hx, hy] at hki; simp at hki
              | some b =>
                rw [hx, hy] at hki
                simp only [Option.map_some, Option.some.injEq] at hki ⊢
                rw [hki, repoJson_public (hv i a b hx hy)]
          unfold mergeVCSConfigs at hms hms'
          split at hms
          · rename_i h0
            have h0' : c'.vcsConfigMessages = [] := by
              rw [h0] at hglobal
              simpa using hglobal.symm
            rw [if_pos h0'] at hms'
            obtain rfl := Except.ok.inj hms
            obtain rfl := Except.ok.inj hms'
            exact fin step1.1 step1.2
          · rename_i h0
            have h0' : ¬ c'.vcsConfigMessages = [] := by
              intro hn
              rw [hn] at hglobal
              exact h0 (by simpa using hglobal)
            rw [if_neg h0'] at hms'
            split at hms
            · simp at hms
            · rename_i gs hgs
              split at hms'
              · simp at hms'
              · rename_i gs' hgs'
                have hg : ∀ v, (gs.lookup v).isSome = (gs'.lookup v).isSome := by
                  intro v
                  have e1 := (decodeGlobals_lookup hgs v).1
                  have e2 := (decodeGlobals_lookup hgs' v).1
                  have e3 : c.vcsConfigMessages.lookup v = none ↔ c'.vcsConfigMessages.lookup v = none := by
                    have key : ∀ l : List (Bytes × Option Json), l.lookup v = none ↔
                        v ∉ (l.map (fun e => (e.1, e.2.isSome))).map (·.1) := by
                      intro l
                      rw [List.map_map, List.lookup_eq_none_iff]
                      simp only [List.mem_map, Function.comp, not_exists, not_and]
                      constructor
                      · intro h x hx hv
                        have := h x hx
                        simp [hv] at this
                      · intro h x hx
                        have := h x hx
                        simp only [bne_iff_ne, ne_eq]
                        exact fun hh => this hh.symm
                    rw [key, key, hglobal]
                  have e4 := e1.trans (e3.trans e2.symm)
                  cases ha : gs.lookup v <;> cases hb : gs'.lookup v
                  · rfl
                  · rw [ha, hb] at e4; simp at e4
                  · rw [ha, hb] at e4; simp at e4
                  · rfl
                have pointwise : ∀ {gs : List (Bytes × List (Bytes × Json))} {xs xs' : List (Bytes × Repo)},
                    mergeRepos gs xs = .ok xs' → ∀ (i : Nat) (a' : Bytes × Repo), xs'[i]? = some a' →
                    ∃ a, xs[i]? = some a ∧ mergeRepo gs a.2 = .ok a'.2 := by
                  intro gs xs
                  induction xs with
                  | nil => intro xs' hx i a' ha'; simp [mergeRepos] at hx; subst hx; simp at ha'
                  | cons e es ih =>
                    intro xs' hx i a' ha'
                    obtain ⟨n0, r0⟩ := e
                    simp only [mergeRepos] at hx
                    split at hx
                    · simp at hx
                    · rename_i r1 hr1
                      split at hx
                      · simp at hx
                      · rename_i t ht
                        obtain rfl := Except.ok.inj hx
                        cases i with
                        | zero =>
                          simp only [List.getElem?_cons_zero, Option.some.injEq] at ha'
                          subst ha'
                          exact ⟨_, rfl, hr1⟩
                        | succ j =>
                          simp only [List.getElem?_cons_succ] at ha' ⊢
                          exact ih ht j a' ha'
                refine fin ?_ ?_
                · exact ((mergeRepos_mem hms).1.trans step1.1).trans (mergeRepos_mem hms').1.symm
                · intro i a' b' ha' hb'
                  obtain ⟨a, ha, hma⟩ := pointwise hms i a' ha'
                  obtain ⟨b, hb, hmb⟩ := pointwise hms' i b' hb'
                  exact merge_public hg (step1.2 i a b ha hb) hma hmb

/-- Two configurations with different svn passwords, one of them global. -/
example :
    let conf (p q : Bytes) : Config :=
      { repos := [(b!"a", some { vcs := b!"svn", vcsConfigMessage := some (.obj [(b!"password", .str p)]) }),
          (b!"b", some { vcs := b!"svn" })]
        vcsConfigMessages := [(b!"svn", some (.obj [(b!"password", .str q)]))] }
    ∀ p q p' q', SamePublicRepos (conf p q).repos (conf p' q').repos ∧
      (∃ L, load (conf p q) = .ok L) ∧
      ((conf p q).vcsConfigMessages.map (fun e => (e.1, e.2.isSome)) =
        (conf p' q').vcsConfigMessages.map fun e => (e.1, e.2.isSome)) := by
  intro conf p q p' q'
  refine ⟨.cons ⟨some (.obj [(b!"password", .str p')]), rfl, rfl⟩ (.cons ⟨none, rfl, rfl⟩ .nil), ⟨_, rfl⟩, rfl⟩

/-! ## What a driver reads -/

/-- **C34**: a driver reads the last value a setting gives a field, however the name is spelt, if what comes after it is
`null`. -/
theorem driver_reads_last {field k : Bytes} {v : Json} {before rest : List (Bytes × Json)} (hk : inSmall k = inSmall field)
    (hv : v ≠ .null) (hrest : ∀ e ∈ rest, inSmall e.1 = inSmall field → e.2 = .null) :
    driverField field (some (.obj (before ++ (k, v) :: rest))) = some v := by
  have h1 : v.isNull = false := by cases v <;> simp_all [Json.isNull]
  have h2 : rest.filter (fun e => foldKey e.1 == foldKey field && !e.2.isNull) = [] := by
    refine List.filter_eq_nil_iff.2 fun e he h => ?_
    simp only [Bool.and_eq_true, beq_iff_eq, Bool.not_eq_true'] at h
    have := hrest e he h.1
    rw [this] at h
    simp [Json.isNull] at h
  rw [inSmall_eq] at hk
  simp [driverField, List.filter_append, hk, h1, h2]

/-- **C34**: a field for which no settings give a value other than `null` keeps its default. -/
theorem driver_reads_none {field : Bytes} {ms : List (Bytes × Json)}
    (h : ∀ e ∈ ms, inSmall e.1 = inSmall field → e.2 = .null) : driverField field (some (.obj ms)) = none := by
  have : ms.filter (fun e => foldKey e.1 == foldKey field && !e.2.isNull) = [] := by
    refine List.filter_eq_nil_iff.2 fun e he h' => ?_
    simp only [Bool.and_eq_true, beq_iff_eq, Bool.not_eq_true'] at h'
    have := h e he h'.1
    rw [this] at h'
    simp [Json.isNull] at h'
  simp [driverField, this]

example : driverField b!"ref" (some (.obj [(b!"Ref", .str b!"main"), (b!"ref", .null)])) = some (.str b!"main") :=
  driver_reads_last (before := []) (k := b!"Ref") (by decide) (by simp) (by simp)

end Hound.Config
