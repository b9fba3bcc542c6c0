import Verif.Proofs.ConfigFile

/-!
# The fields of the configuration, from the members of the file
-/

namespace Hound.Config

open Spec
open JsonText (Value)

/-- A member of that name sets the field, no other member changes it. -/
def Sets {α β : Type} (f : Bytes × Value Bytes → α → Option α) (π : α → β) (name : Bytes) (g : Value Bytes → β → Option β) : Prop :=
  ∀ m s s', f m s = some s' → (foldKey m.1 = name → g m.2 (π s) = some (π s')) ∧ (foldKey m.1 ≠ name → π s' = π s)

theorem repoMember_cases {m : Bytes × Value Bytes} {s s' : Repo} (h : readRepoMember m s = some s') :
    (foldKey m.1 = b!"url" ∧ ∃ x, readText m.2 s.url = some x ∧ s' = { s with url := x }) ∨
    (foldKey m.1 = b!"display-name" ∧ ∃ x, readText m.2 s.displayName = some x ∧ s' = { s with displayName := x }) ∨
    (foldKey m.1 = b!"ms-between-poll" ∧ ∃ x, readInt m.2 s.msBetweenPolls = some x ∧ s' = { s with msBetweenPolls := x }) ∨
    (foldKey m.1 = b!"vcs" ∧ ∃ x, readText m.2 s.vcs = some x ∧ s' = { s with vcs := x }) ∨
    (foldKey m.1 = b!"vcs-config" ∧ ∃ x, (fun v _ => some (readMessage v)) m.2 s.vcsConfigMessage = some x ∧ s' = { s with vcsConfigMessage := x }) ∨
    (foldKey m.1 = b!"url-pattern" ∧ ∃ x, readPattern m.2 s.urlPattern = some x ∧ s' = { s with urlPattern := x }) ∨
    (foldKey m.1 = b!"exclude-dot-files" ∧ ∃ x, readFlag m.2 s.excludeDotFiles = some x ∧ s' = { s with excludeDotFiles := x }) ∨
    (foldKey m.1 = b!"enable-poll-updates" ∧ ∃ x, (fun v _ => readOptFlag v) m.2 s.enablePollUpdates = some x ∧ s' = { s with enablePollUpdates := x }) ∨
    (foldKey m.1 = b!"enable-push-updates" ∧ ∃ x, (fun v _ => readOptFlag v) m.2 s.enablePushUpdates = some x ∧ s' = { s with enablePushUpdates := x }) ∨
    (foldKey m.1 = b!"auto-generated-files" ∧ ∃ x, (fun v _ => readTexts v) m.2 s.autoGeneratedFiles = some x ∧ s' = { s with autoGeneratedFiles := x }) ∨
    (foldKey m.1 ≠ b!"url" ∧ foldKey m.1 ≠ b!"display-name" ∧ foldKey m.1 ≠ b!"ms-between-poll" ∧ foldKey m.1 ≠ b!"vcs" ∧ foldKey m.1 ≠ b!"vcs-config" ∧ foldKey m.1 ≠ b!"url-pattern" ∧ foldKey m.1 ≠ b!"exclude-dot-files" ∧ foldKey m.1 ≠ b!"enable-poll-updates" ∧ foldKey m.1 ≠ b!"enable-push-updates" ∧ foldKey m.1 ≠ b!"auto-generated-files" ∧ s' = s) := by
  rw [readRepoMember] at h
  by_cases h0 : foldKey m.1 = b!"url"
  · rw [if_pos h0] at h
    obtain ⟨x, hx, rfl⟩ := Option.map_eq_some_iff.1 h
    exact .inl ⟨h0, x, hx, rfl⟩
  rw [if_neg h0] at h
  by_cases h1 : foldKey m.1 = b!"display-name"
  · rw [if_pos h1] at h
    obtain ⟨x, hx, rfl⟩ := Option.map_eq_some_iff.1 h
    exact .inr (.inl ⟨h1, x, hx, rfl⟩)
  rw [if_neg h1] at h
  by_cases h2 : foldKey m.1 = b!"ms-between-poll"
  · rw [if_pos h2] at h
    obtain ⟨x, hx, rfl⟩ := Option.map_eq_some_iff.1 h
    exact .inr (.inr (.inl ⟨h2, x, hx, rfl⟩))
  rw [if_neg h2] at h
  by_cases h3 : foldKey m.1 = b!"vcs"
  · rw [if_pos h3] at h
    obtain ⟨x, hx, rfl⟩ := Option.map_eq_some_iff.1 h
    exact .inr (.inr (.inr (.inl ⟨h3, x, hx, rfl⟩)))
  rw [if_neg h3] at h
  by_cases h4 : foldKey m.1 = b!"vcs-config"
  · rw [if_pos h4] at h
    cases h
    exact .inr (.inr (.inr (.inr (.inl ⟨h4, _, rfl, rfl⟩))))
  rw [if_neg h4] at h
  by_cases h5 : foldKey m.1 = b!"url-pattern"
  · rw [if_pos h5] at h
    obtain ⟨x, hx, rfl⟩ := Option.map_eq_some_iff.1 h
    exact .inr (.inr (.inr (.inr (.inr (.inl ⟨h5, x, hx, rfl⟩)))))
  rw [if_neg h5] at h
  by_cases h6 : foldKey m.1 = b!"exclude-dot-files"
  · rw [if_pos h6] at h
    obtain ⟨x, hx, rfl⟩ := Option.map_eq_some_iff.1 h
    exact .inr (.inr (.inr (.inr (.inr (.inr (.inl ⟨h6, x, hx, rfl⟩))))))
  rw [if_neg h6] at h
  by_cases h7 : foldKey m.1 = b!"enable-poll-updates"
  · rw [if_pos h7] at h
    obtain ⟨x, hx, rfl⟩ := Option.map_eq_some_iff.1 h
    exact .inr (.inr (.inr (.inr (.inr (.inr (.inr (.inl ⟨h7, x, hx, rfl⟩)))))))
  rw [if_neg h7] at h
  by_cases h8 : foldKey m.1 = b!"enable-push-updates"
  · rw [if_pos h8] at h
    obtain ⟨x, hx, rfl⟩ := Option.map_eq_some_iff.1 h
    exact .inr (.inr (.inr (.inr (.inr (.inr (.inr (.inr (.inl ⟨h8, x, hx, rfl⟩))))))))
  rw [if_neg h8] at h
  by_cases h9 : foldKey m.1 = b!"auto-generated-files"
  · rw [if_pos h9] at h
    obtain ⟨x, hx, rfl⟩ := Option.map_eq_some_iff.1 h
    exact .inr (.inr (.inr (.inr (.inr (.inr (.inr (.inr (.inr (.inl ⟨h9, x, hx, rfl⟩)))))))))
  rw [if_neg h9] at h
  cases h
  exact .inr (.inr (.inr (.inr (.inr (.inr (.inr (.inr (.inr (.inr (⟨h0, h1, h2, h3, h4, h5, h6, h7, h8, h9, rfl⟩))))))))))

theorem repoMember_sets :
    Sets readRepoMember (·.url) b!"url" readText ∧
    Sets readRepoMember (·.displayName) b!"display-name" readText ∧
    Sets readRepoMember (·.msBetweenPolls) b!"ms-between-poll" readInt ∧
    Sets readRepoMember (·.vcs) b!"vcs" readText ∧
    Sets readRepoMember (·.vcsConfigMessage) b!"vcs-config" (fun v _ => some (readMessage v)) ∧
    Sets readRepoMember (·.urlPattern) b!"url-pattern" readPattern ∧
    Sets readRepoMember (·.excludeDotFiles) b!"exclude-dot-files" readFlag ∧
    Sets readRepoMember (·.enablePollUpdates) b!"enable-poll-updates" (fun v _ => readOptFlag v) ∧
    Sets readRepoMember (·.enablePushUpdates) b!"enable-push-updates" (fun v _ => readOptFlag v) ∧
    Sets readRepoMember (·.autoGeneratedFiles) b!"auto-generated-files" (fun v _ => readTexts v) := by
  have key : ∀ (m : Bytes × Value Bytes) (s s' : Repo), readRepoMember m s = some s' →
      ((foldKey m.1 = b!"url" → readText m.2 s.url = some s'.url) ∧ (foldKey m.1 ≠ b!"url" → s'.url = s.url)) ∧
      ((foldKey m.1 = b!"display-name" → readText m.2 s.displayName = some s'.displayName) ∧ (foldKey m.1 ≠ b!"display-name" → s'.displayName = s.displayName)) ∧
      ((foldKey m.1 = b!"ms-between-poll" → readInt m.2 s.msBetweenPolls = some s'.msBetweenPolls) ∧ (foldKey m.1 ≠ b!"ms-between-poll" → s'.msBetweenPolls = s.msBetweenPolls)) ∧
      ((foldKey m.1 = b!"vcs" → readText m.2 s.vcs = some s'.vcs) ∧ (foldKey m.1 ≠ b!"vcs" → s'.vcs = s.vcs)) ∧
      ((foldKey m.1 = b!"vcs-config" → (fun v _ => some (readMessage v)) m.2 s.vcsConfigMessage = some s'.vcsConfigMessage) ∧ (foldKey m.1 ≠ b!"vcs-config" → s'.vcsConfigMessage = s.vcsConfigMessage)) ∧
      ((foldKey m.1 = b!"url-pattern" → readPattern m.2 s.urlPattern = some s'.urlPattern) ∧ (foldKey m.1 ≠ b!"url-pattern" → s'.urlPattern = s.urlPattern)) ∧
      ((foldKey m.1 = b!"exclude-dot-files" → readFlag m.2 s.excludeDotFiles = some s'.excludeDotFiles) ∧ (foldKey m.1 ≠ b!"exclude-dot-files" → s'.excludeDotFiles = s.excludeDotFiles)) ∧
      ((foldKey m.1 = b!"enable-poll-updates" → (fun v _ => readOptFlag v) m.2 s.enablePollUpdates = some s'.enablePollUpdates) ∧ (foldKey m.1 ≠ b!"enable-poll-updates" → s'.enablePollUpdates = s.enablePollUpdates)) ∧
      ((foldKey m.1 = b!"enable-push-updates" → (fun v _ => readOptFlag v) m.2 s.enablePushUpdates = some s'.enablePushUpdates) ∧ (foldKey m.1 ≠ b!"enable-push-updates" → s'.enablePushUpdates = s.enablePushUpdates)) ∧
      ((foldKey m.1 = b!"auto-generated-files" → (fun v _ => readTexts v) m.2 s.autoGeneratedFiles = some s'.autoGeneratedFiles) ∧ (foldKey m.1 ≠ b!"auto-generated-files" → s'.autoGeneratedFiles = s.autoGeneratedFiles)) := by
    intro m s s' h
    rcases repoMember_cases h with ⟨hk, x, hx, rfl⟩ | ⟨hk, x, hx, rfl⟩ | ⟨hk, x, hx, rfl⟩ | ⟨hk, x, hx, rfl⟩ | ⟨hk, x, hx, rfl⟩ | ⟨hk, x, hx, rfl⟩ | ⟨hk, x, hx, rfl⟩ | ⟨hk, x, hx, rfl⟩ | ⟨hk, x, hx, rfl⟩ | ⟨hk, x, hx, rfl⟩ | ⟨h0, h1, h2, h3, h4, h5, h6, h7, h8, h9, rfl⟩
    · rw [hk]
      refine ⟨⟨fun e => ?_, fun e => ?_⟩, ⟨fun e => ?_, fun e => ?_⟩, ⟨fun e => ?_, fun e => ?_⟩, ⟨fun e => ?_, fun e => ?_⟩, ⟨fun e => ?_, fun e => ?_⟩, ⟨fun e => ?_, fun e => ?_⟩, ⟨fun e => ?_, fun e => ?_⟩, ⟨fun e => ?_, fun e => ?_⟩, ⟨fun e => ?_, fun e => ?_⟩, ⟨fun e => ?_, fun e => ?_⟩⟩ <;> first | exact absurd e (by decide) | exact hx | rfl
    · rw [hk]
      refine ⟨⟨fun e => ?_, fun e => ?_⟩, ⟨fun e => ?_, fun e => ?_⟩, ⟨fun e => ?_, fun e => ?_⟩, ⟨fun e => ?_, fun e => ?_⟩, ⟨fun e => ?_, fun e => ?_⟩, ⟨fun e => ?_, fun e => ?_⟩, ⟨fun e => ?_, fun e => ?_⟩, ⟨fun e => ?_, fun e => ?_⟩, ⟨fun e => ?_, fun e => ?_⟩, ⟨fun e => ?_, fun e => ?_⟩⟩ <;> first | exact absurd e (by decide) | exact hx | rfl
    · rw [hk]
      refine ⟨⟨fun e => ?_, fun e => ?_⟩, ⟨fun e => ?_, fun e => ?_⟩, ⟨fun e => ?_, fun e => ?_⟩, ⟨fun e => ?_, fun e => ?_⟩, ⟨fun e => ?_, fun e => ?_⟩, ⟨fun e => ?_, fun e => ?_⟩, ⟨fun e => ?_, fun e => ?_⟩, ⟨fun e => ?_, fun e => ?_⟩, ⟨fun e => ?_, fun e => ?_⟩, ⟨fun e => ?_, fun e => ?_⟩⟩ <;> first | exact absurd e (by decide) | exact hx | rfl
    · rw [hk]
      refine ⟨⟨fun e => ?_, fun e => ?_⟩, ⟨fun e => ?_, fun e => ?_⟩, ⟨fun e => ?_, fun e => ?_⟩, ⟨fun e => ?_, fun e => ?_⟩, ⟨fun e => ?_, fun e => ?_⟩, ⟨fun e => ?_, fun e => ?_⟩, ⟨fun e => ?_, fun e => ?_⟩, ⟨fun e => ?_, fun e => ?_⟩, ⟨fun e => ?_, fun e => ?_⟩, ⟨fun e => ?_, fun e => ?_⟩⟩ <;> first | exact absurd e (by decide) | exact hx | rfl
    · rw [hk]
      refine ⟨⟨fun e => ?_, fun e => ?_⟩, ⟨fun e => ?_, fun e => ?_⟩, ⟨fun e => ?_, fun e => ?_⟩, ⟨fun e => ?_, fun e => ?_⟩, ⟨fun e => ?_, fun e => ?_⟩, ⟨fun e => ?_, fun e => ?_⟩, ⟨fun e => ?_, fun e => ?_⟩, ⟨fun e => ?_, fun e => ?_⟩, ⟨fun e => ?_, fun e => ?_⟩, ⟨fun e => ?_, fun e => ?_⟩⟩ <;> first | exact absurd e (by decide) | exact hx | rfl
    · rw [hk]
      refine ⟨⟨fun e => ?_, fun e => ?_⟩, ⟨fun e => ?_, fun e => ?_⟩, ⟨fun e => ?_, fun e => ?_⟩, ⟨fun e => ?_, fun e => ?_⟩, ⟨fun e => ?_, fun e => ?_⟩, ⟨fun e => ?_, fun e => ?_⟩, ⟨fun e => ?_, fun e => ?_⟩, ⟨fun e => ?_, fun e => ?_⟩, ⟨fun e => ?_, fun e => ?_⟩, ⟨fun e => ?_, fun e => ?_⟩⟩ <;> first | exact absurd e (by decide) | exact hx | rfl
    · rw [hk]
      refine ⟨⟨fun e => ?_, fun e => ?_⟩, ⟨fun e => ?_, fun e => ?_⟩, ⟨fun e => ?_, fun e => ?_⟩, ⟨fun e => ?_, fun e => ?_⟩, ⟨fun e => ?_, fun e => ?_⟩, ⟨fun e => ?_, fun e => ?_⟩, ⟨fun e => ?_, fun e => ?_⟩, ⟨fun e => ?_, fun e => ?_⟩, ⟨fun e => ?_, fun e => ?_⟩, ⟨fun e => ?_, fun e => ?_⟩⟩ <;> first | exact absurd e (by decide) | exact hx | rfl
    · rw [hk]
      refine ⟨⟨fun e => ?_, fun e => ?_⟩, ⟨fun e => ?_, fun e => ?_⟩, ⟨fun e => ?_, fun e => ?_⟩, ⟨fun e => ?_, fun e => ?_⟩, ⟨fun e => ?_, fun e => ?_⟩, ⟨fun e => ?_, fun e => ?_⟩, ⟨fun e => ?_, fun e => ?_⟩, ⟨fun e => ?_, fun e => ?_⟩, ⟨fun e => ?_, fun e => ?_⟩, ⟨fun e => ?_, fun e => ?_⟩⟩ <;> first | exact absurd e (by decide) | exact hx | rfl
    · rw [hk]
      refine ⟨⟨fun e => ?_, fun e => ?_⟩, ⟨fun e => ?_, fun e => ?_⟩, ⟨fun e => ?_, fun e => ?_⟩, ⟨fun e => ?_, fun e => ?_⟩, ⟨fun e => ?_, fun e => ?_⟩, ⟨fun e => ?_, fun e => ?_⟩, ⟨fun e => ?_, fun e => ?_⟩, ⟨fun e => ?_, fun e => ?_⟩, ⟨fun e => ?_, fun e => ?_⟩, ⟨fun e => ?_, fun e => ?_⟩⟩ <;> first | exact absurd e (by decide) | exact hx | rfl
    · rw [hk]
      refine ⟨⟨fun e => ?_, fun e => ?_⟩, ⟨fun e => ?_, fun e => ?_⟩, ⟨fun e => ?_, fun e => ?_⟩, ⟨fun e => ?_, fun e => ?_⟩, ⟨fun e => ?_, fun e => ?_⟩, ⟨fun e => ?_, fun e => ?_⟩, ⟨fun e => ?_, fun e => ?_⟩, ⟨fun e => ?_, fun e => ?_⟩, ⟨fun e => ?_, fun e => ?_⟩, ⟨fun e => ?_, fun e => ?_⟩⟩ <;> first | exact absurd e (by decide) | exact hx | rfl
    · exact ⟨⟨fun e => absurd e h0, fun _ => rfl⟩, ⟨fun e => absurd e h1, fun _ => rfl⟩, ⟨fun e => absurd e h2, fun _ => rfl⟩, ⟨fun e => absurd e h3, fun _ => rfl⟩, ⟨fun e => absurd e h4, fun _ => rfl⟩, ⟨fun e => absurd e h5, fun _ => rfl⟩, ⟨fun e => absurd e h6, fun _ => rfl⟩, ⟨fun e => absurd e h7, fun _ => rfl⟩, ⟨fun e => absurd e h8, fun _ => rfl⟩, ⟨fun e => absurd e h9, fun _ => rfl⟩⟩
  exact ⟨fun m s s' h => (key m s s' h).1, fun m s s' h => (key m s s' h).2.1, fun m s s' h => (key m s s' h).2.2.1, fun m s s' h => (key m s s' h).2.2.2.1, fun m s s' h => (key m s s' h).2.2.2.2.1, fun m s s' h => (key m s s' h).2.2.2.2.2.1, fun m s s' h => (key m s s' h).2.2.2.2.2.2.1, fun m s s' h => (key m s s' h).2.2.2.2.2.2.2.1, fun m s s' h => (key m s s' h).2.2.2.2.2.2.2.2.1, fun m s s' h => (key m s s' h).2.2.2.2.2.2.2.2.2⟩

theorem configMember_cases {m : Bytes × Value Bytes} {s s' : FileConfig} (h : readConfigMember m s = some s') :
    (foldKey m.1 = b!"dbpath" ∧ ∃ x, readText m.2 s.dbPath = some x ∧ s' = { s with dbPath := x }) ∨
    (foldKey m.1 = b!"title" ∧ ∃ x, readText m.2 s.conf.title = some x ∧ s' = { s with conf := { s.conf with title := x } }) ∨
    (foldKey m.1 = b!"repos" ∧ ∃ x, readRepos m.2 s.conf.repos = some x ∧ s' = { s with conf := { s.conf with repos := x } }) ∨
    (foldKey m.1 = b!"max-concurrent-indexers" ∧ ∃ x, readInt m.2 s.conf.maxConcurrentIndexers = some x ∧ s' = { s with conf := { s.conf with maxConcurrentIndexers := x } }) ∨
    (foldKey m.1 = b!"health-check-uri" ∧ ∃ x, readText m.2 s.conf.healthCheckURI = some x ∧ s' = { s with conf := { s.conf with healthCheckURI := x } }) ∨
    (foldKey m.1 = b!"vcs-config" ∧ ∃ x, readMessages m.2 s.conf.vcsConfigMessages = some x ∧ s' = { s with conf := { s.conf with vcsConfigMessages := x } }) ∨
    (foldKey m.1 = b!"result-limit" ∧ ∃ x, readInt m.2 s.conf.resultLimit = some x ∧ s' = { s with conf := { s.conf with resultLimit := x } }) ∨
    (foldKey m.1 ≠ b!"dbpath" ∧ foldKey m.1 ≠ b!"title" ∧ foldKey m.1 ≠ b!"repos" ∧ foldKey m.1 ≠ b!"max-concurrent-indexers" ∧ foldKey m.1 ≠ b!"health-check-uri" ∧ foldKey m.1 ≠ b!"vcs-config" ∧ foldKey m.1 ≠ b!"result-limit" ∧ s' = s) := by
  rw [readConfigMember] at h
  by_cases h0 : foldKey m.1 = b!"dbpath"
  · rw [if_pos h0] at h
    obtain ⟨x, hx, rfl⟩ := Option.map_eq_some_iff.1 h
    exact .inl ⟨h0, x, hx, rfl⟩
  rw [if_neg h0] at h
  by_cases h1 : foldKey m.1 = b!"title"
  · rw [if_pos h1] at h
    obtain ⟨x, hx, rfl⟩ := Option.map_eq_some_iff.1 h
    exact .inr (.inl ⟨h1, x, hx, rfl⟩)
  rw [if_neg h1] at h
  by_cases h2 : foldKey m.1 = b!"repos"
  · rw [if_pos h2] at h
    obtain ⟨x, hx, rfl⟩ := Option.map_eq_some_iff.1 h
    exact .inr (.inr (.inl ⟨h2, x, hx, rfl⟩))
  rw [if_neg h2] at h
  by_cases h3 : foldKey m.1 = b!"max-concurrent-indexers"
  · rw [if_pos h3] at h
    obtain ⟨x, hx, rfl⟩ := Option.map_eq_some_iff.1 h
    exact .inr (.inr (.inr (.inl ⟨h3, x, hx, rfl⟩)))
  rw [if_neg h3] at h
  by_cases h4 : foldKey m.1 = b!"health-check-uri"
  · rw [if_pos h4] at h
    obtain ⟨x, hx, rfl⟩ := Option.map_eq_some_iff.1 h
    exact .inr (.inr (.inr (.inr (.inl ⟨h4, x, hx, rfl⟩))))
  rw [if_neg h4] at h
  by_cases h5 : foldKey m.1 = b!"vcs-config"
  · rw [if_pos h5] at h
    obtain ⟨x, hx, rfl⟩ := Option.map_eq_some_iff.1 h
    exact .inr (.inr (.inr (.inr (.inr (.inl ⟨h5, x, hx, rfl⟩)))))
  rw [if_neg h5] at h
  by_cases h6 : foldKey m.1 = b!"result-limit"
  · rw [if_pos h6] at h
    obtain ⟨x, hx, rfl⟩ := Option.map_eq_some_iff.1 h
    exact .inr (.inr (.inr (.inr (.inr (.inr (.inl ⟨h6, x, hx, rfl⟩))))))
  rw [if_neg h6] at h
  cases h
  exact .inr (.inr (.inr (.inr (.inr (.inr (.inr (⟨h0, h1, h2, h3, h4, h5, h6, rfl⟩)))))))

theorem configMember_sets :
    Sets readConfigMember (·.dbPath) b!"dbpath" readText ∧
    Sets readConfigMember (·.conf.title) b!"title" readText ∧
    Sets readConfigMember (·.conf.repos) b!"repos" readRepos ∧
    Sets readConfigMember (·.conf.maxConcurrentIndexers) b!"max-concurrent-indexers" readInt ∧
    Sets readConfigMember (·.conf.healthCheckURI) b!"health-check-uri" readText ∧
    Sets readConfigMember (·.conf.vcsConfigMessages) b!"vcs-config" readMessages ∧
    Sets readConfigMember (·.conf.resultLimit) b!"result-limit" readInt := by
  have key : ∀ (m : Bytes × Value Bytes) (s s' : FileConfig), readConfigMember m s = some s' →
      ((foldKey m.1 = b!"dbpath" → readText m.2 s.dbPath = some s'.dbPath) ∧ (foldKey m.1 ≠ b!"dbpath" → s'.dbPath = s.dbPath)) ∧
      ((foldKey m.1 = b!"title" → readText m.2 s.conf.title = some s'.conf.title) ∧ (foldKey m.1 ≠ b!"title" → s'.conf.title = s.conf.title)) ∧
      ((foldKey m.1 = b!"repos" → readRepos m.2 s.conf.repos = some s'.conf.repos) ∧ (foldKey m.1 ≠ b!"repos" → s'.conf.repos = s.conf.repos)) ∧
      ((foldKey m.1 = b!"max-concurrent-indexers" → readInt m.2 s.conf.maxConcurrentIndexers = some s'.conf.maxConcurrentIndexers) ∧ (foldKey m.1 ≠ b!"max-concurrent-indexers" → s'.conf.maxConcurrentIndexers = s.conf.maxConcurrentIndexers)) ∧
      ((foldKey m.1 = b!"health-check-uri" → readText m.2 s.conf.healthCheckURI = some s'.conf.healthCheckURI) ∧ (foldKey m.1 ≠ b!"health-check-uri" → s'.conf.healthCheckURI = s.conf.healthCheckURI)) ∧
      ((foldKey m.1 = b!"vcs-config" → readMessages m.2 s.conf.vcsConfigMessages = some s'.conf.vcsConfigMessages) ∧ (foldKey m.1 ≠ b!"vcs-config" → s'.conf.vcsConfigMessages = s.conf.vcsConfigMessages)) ∧
      ((foldKey m.1 = b!"result-limit" → readInt m.2 s.conf.resultLimit = some s'.conf.resultLimit) ∧ (foldKey m.1 ≠ b!"result-limit" → s'.conf.resultLimit = s.conf.resultLimit)) := by
    intro m s s' h
    rcases configMember_cases h with ⟨hk, x, hx, rfl⟩ | ⟨hk, x, hx, rfl⟩ | ⟨hk, x, hx, rfl⟩ | ⟨hk, x, hx, rfl⟩ | ⟨hk, x, hx, rfl⟩ | ⟨hk, x, hx, rfl⟩ | ⟨hk, x, hx, rfl⟩ | ⟨h0, h1, h2, h3, h4, h5, h6, rfl⟩
    · rw [hk]
      refine ⟨⟨fun e => ?_, fun e => ?_⟩, ⟨fun e => ?_, fun e => ?_⟩, ⟨fun e => ?_, fun e => ?_⟩, ⟨fun e => ?_, fun e => ?_⟩, ⟨fun e => ?_, fun e => ?_⟩, ⟨fun e => ?_, fun e => ?_⟩, ⟨fun e => ?_, fun e => ?_⟩⟩ <;> first | exact absurd e (by decide) | exact hx | rfl
    · rw [hk]
      refine ⟨⟨fun e => ?_, fun e => ?_⟩, ⟨fun e => ?_, fun e => ?_⟩, ⟨fun e => ?_, fun e => ?_⟩, ⟨fun e => ?_, fun e => ?_⟩, ⟨fun e => ?_, fun e => ?_⟩, ⟨fun e => ?_, fun e => ?_⟩, ⟨fun e => ?_, fun e => ?_⟩⟩ <;> first | exact absurd e (by decide) | exact hx | rfl
    · rw [hk]
      refine ⟨⟨fun e => ?_, fun e => ?_⟩, ⟨fun e => ?_, fun e => ?_⟩, ⟨fun e => ?_, fun e => ?_⟩, ⟨fun e => ?_, fun e => ?_⟩, ⟨fun e => ?_, fun e => ?_⟩, ⟨fun e => ?_, fun e => ?_⟩, ⟨fun e => ?_, fun e => ?_⟩⟩ <;> first | exact absurd e (by decide) | exact hx | rfl
    · rw [hk]
      refine ⟨⟨fun e => ?_, fun e => ?_⟩, ⟨fun e => ?_, fun e => ?_⟩, ⟨fun e => ?_, fun e => ?_⟩, ⟨fun e => ?_, fun e => ?_⟩, ⟨fun e => ?_, fun e => ?_⟩, ⟨fun e => ?_, fun e => ?_⟩, ⟨fun e => ?_, fun e => ?_⟩⟩ <;> first | exact absurd e (by decide) | exact hx | rfl
    · rw [hk]
      refine ⟨⟨fun e => ?_, fun e => ?_⟩, ⟨fun e => ?_, fun e => ?_⟩, ⟨fun e => ?_, fun e => ?_⟩, ⟨fun e => ?_, fun e => ?_⟩, ⟨fun e => ?_, fun e => ?_⟩, ⟨fun e => ?_, fun e => ?_⟩, ⟨fun e => ?_, fun e => ?_⟩⟩ <;> first | exact absurd e (by decide) | exact hx | rfl
    · rw [hk]
      refine ⟨⟨fun e => ?_, fun e => ?_⟩, ⟨fun e => ?_, fun e => ?_⟩, ⟨fun e => ?_, fun e => ?_⟩, ⟨fun e => ?_, fun e => ?_⟩, ⟨fun e => ?_, fun e => ?_⟩, ⟨fun e => ?_, fun e => ?_⟩, ⟨fun e => ?_, fun e => ?_⟩⟩ <;> first | exact absurd e (by decide) | exact hx | rfl
    · rw [hk]
      refine ⟨⟨fun e => ?_, fun e => ?_⟩, ⟨fun e => ?_, fun e => ?_⟩, ⟨fun e => ?_, fun e => ?_⟩, ⟨fun e => ?_, fun e => ?_⟩, ⟨fun e => ?_, fun e => ?_⟩, ⟨fun e => ?_, fun e => ?_⟩, ⟨fun e => ?_, fun e => ?_⟩⟩ <;> first | exact absurd e (by decide) | exact hx | rfl
    · exact ⟨⟨fun e => absurd e h0, fun _ => rfl⟩, ⟨fun e => absurd e h1, fun _ => rfl⟩, ⟨fun e => absurd e h2, fun _ => rfl⟩, ⟨fun e => absurd e h3, fun _ => rfl⟩, ⟨fun e => absurd e h4, fun _ => rfl⟩, ⟨fun e => absurd e h5, fun _ => rfl⟩, ⟨fun e => absurd e h6, fun _ => rfl⟩⟩
  exact ⟨fun m s s' h => (key m s s' h).1, fun m s s' h => (key m s s' h).2.1, fun m s s' h => (key m s s' h).2.2.1, fun m s s' h => (key m s s' h).2.2.2.1, fun m s s' h => (key m s s' h).2.2.2.2.1, fun m s s' h => (key m s s' h).2.2.2.2.2.1, fun m s s' h => (key m s s' h).2.2.2.2.2.2⟩

theorem patternMember_cases {m : Bytes × Value Bytes} {s s' : UrlPattern} (h : readPatternMember m s = some s') :
    (foldKey m.1 = b!"base-url" ∧ ∃ x, readText m.2 s.baseUrl = some x ∧ s' = { s with baseUrl := x }) ∨
    (foldKey m.1 = b!"anchor" ∧ ∃ x, readText m.2 s.anchor = some x ∧ s' = { s with anchor := x }) ∨
    (foldKey m.1 ≠ b!"base-url" ∧ foldKey m.1 ≠ b!"anchor" ∧ s' = s) := by
  rw [readPatternMember] at h
  by_cases h0 : foldKey m.1 = b!"base-url"
  · rw [if_pos h0] at h
    obtain ⟨x, hx, rfl⟩ := Option.map_eq_some_iff.1 h
    exact .inl ⟨h0, x, hx, rfl⟩
  rw [if_neg h0] at h
  by_cases h1 : foldKey m.1 = b!"anchor"
  · rw [if_pos h1] at h
    obtain ⟨x, hx, rfl⟩ := Option.map_eq_some_iff.1 h
    exact .inr (.inl ⟨h1, x, hx, rfl⟩)
  rw [if_neg h1] at h
  cases h
  exact .inr (.inr (⟨h0, h1, rfl⟩))

theorem patternMember_sets :
    Sets readPatternMember (·.baseUrl) b!"base-url" readText ∧
    Sets readPatternMember (·.anchor) b!"anchor" readText := by
  have key : ∀ (m : Bytes × Value Bytes) (s s' : UrlPattern), readPatternMember m s = some s' →
      ((foldKey m.1 = b!"base-url" → readText m.2 s.baseUrl = some s'.baseUrl) ∧ (foldKey m.1 ≠ b!"base-url" → s'.baseUrl = s.baseUrl)) ∧
      ((foldKey m.1 = b!"anchor" → readText m.2 s.anchor = some s'.anchor) ∧ (foldKey m.1 ≠ b!"anchor" → s'.anchor = s.anchor)) := by
    intro m s s' h
    rcases patternMember_cases h with ⟨hk, x, hx, rfl⟩ | ⟨hk, x, hx, rfl⟩ | ⟨h0, h1, rfl⟩
    · rw [hk]
      refine ⟨⟨fun e => ?_, fun e => ?_⟩, ⟨fun e => ?_, fun e => ?_⟩⟩ <;> first | exact absurd e (by decide) | exact hx | rfl
    · rw [hk]
      refine ⟨⟨fun e => ?_, fun e => ?_⟩, ⟨fun e => ?_, fun e => ?_⟩⟩ <;> first | exact absurd e (by decide) | exact hx | rfl
    · exact ⟨⟨fun e => absurd e h0, fun _ => rfl⟩, ⟨fun e => absurd e h1, fun _ => rfl⟩⟩
  exact ⟨fun m s s' h => (key m s s' h).1, fun m s s' h => (key m s s' h).2⟩

theorem pattern_said {vs : List (Value Bytes)} {p : Option UrlPattern} (h : foldVals readPattern vs none = some p) :
    (p.getD {}).baseUrl = textSaid (said b!"base-url" (membersSaid vs)) ∧
      (p.getD {}).anchor = textSaid (said b!"anchor" (membersSaid vs)) := by
  have key : ∀ vs : List (Value Bytes), ∀ {p}, foldVals readPattern vs none = some p →
      readMembers readPatternMember (membersSaid vs) {} = some (p.getD {}) := by
    intro vs
    induction vs using snocInd with
    | h0 => intro p h; cases h; rfl
    | h1 vs v ih =>
      intro p h
      rw [foldVals_snoc] at h
      obtain ⟨x, e1, e2⟩ := Option.bind_eq_some_iff.1 h
      have ih := ih e1
      rw [membersSaid_snoc]
      cases v with
      | null => cases e2; rfl
      | obj ms =>
        obtain ⟨q, hq, rfl⟩ := Option.map_eq_some_iff.1 e2
        rw [if_pos (show Says (.obj ms) = true from rfl), readMembers_append, ih]
        exact hq
      | _ => cases e2
  have hm := key vs h
  exact ⟨text_said (readMembers_field (f := readPatternMember) (·.baseUrl) b!"base-url" readText patternMember_sets.1 _ hm),
    text_said (readMembers_field (f := readPatternMember) (·.anchor) b!"anchor" readText patternMember_sets.2 _ hm)⟩

/-- The fields of a repository that was read. -/
structure RepoRead (rms : List (Bytes × Value Bytes)) (r : Repo) : Prop where
  url : r.url = textSaid (said b!"url" rms)
  displayName : r.displayName = textSaid (said b!"display-name" rms)
  vcs : r.vcs = textSaid (said b!"vcs" rms)
  msBetweenPolls : r.msBetweenPolls = numberSaid (said b!"ms-between-poll" rms)
  baseUrl : (r.urlPattern.getD {}).baseUrl = textSaid (said b!"base-url" (membersSaid (said b!"url-pattern" rms)))
  anchor : (r.urlPattern.getD {}).anchor = textSaid (said b!"anchor" (membersSaid (said b!"url-pattern" rms)))
  excludeDotFiles : r.excludeDotFiles = flagSaid (said b!"exclude-dot-files" rms)
  poll : r.enablePollUpdates = choiceSaid (said b!"enable-poll-updates" rms)
  push : r.enablePushUpdates = choiceSaid (said b!"enable-push-updates" rms)
  autoGenerated : r.autoGeneratedFiles = textsSaid (said b!"auto-generated-files" rms)
  message : r.vcsConfigMessage = (valueSaid (said b!"vcs-config" rms)).map rawMessage

theorem repo_read {rms : List (Bytes × Value Bytes)} {r : Repo} (h : readMembers readRepoMember rms {} = some r) : RepoRead rms r where
  url := text_said (readMembers_field (f := readRepoMember) (·.url) b!"url" readText repoMember_sets.1 _ h)
  displayName := text_said (readMembers_field (f := readRepoMember) (·.displayName) b!"display-name" readText repoMember_sets.2.1 _ h)
  vcs := text_said (readMembers_field (f := readRepoMember) (·.vcs) b!"vcs" readText repoMember_sets.2.2.2.1 _ h)
  msBetweenPolls := number_said (readMembers_field (f := readRepoMember) (·.msBetweenPolls) b!"ms-between-poll" readInt repoMember_sets.2.2.1 _ h)
  baseUrl := (pattern_said (readMembers_field (f := readRepoMember) (·.urlPattern) b!"url-pattern" readPattern repoMember_sets.2.2.2.2.2.1 _ h)).1
  anchor := (pattern_said (readMembers_field (f := readRepoMember) (·.urlPattern) b!"url-pattern" readPattern repoMember_sets.2.2.2.2.2.1 _ h)).2
  excludeDotFiles := flag_said (readMembers_field (f := readRepoMember) (·.excludeDotFiles) b!"exclude-dot-files" readFlag repoMember_sets.2.2.2.2.2.2.1 _ h)
  poll := choice_said (readMembers_field (f := readRepoMember) (·.enablePollUpdates) b!"enable-poll-updates" (fun v _ => readOptFlag v) repoMember_sets.2.2.2.2.2.2.2.1 _ h)
  push := choice_said (readMembers_field (f := readRepoMember) (·.enablePushUpdates) b!"enable-push-updates" (fun v _ => readOptFlag v) repoMember_sets.2.2.2.2.2.2.2.2.1 _ h)
  autoGenerated := texts_said (readMembers_field (f := readRepoMember) (·.autoGeneratedFiles) b!"auto-generated-files" (fun v _ => readTexts v) repoMember_sets.2.2.2.2.2.2.2.2.2 _ h)
  message := value_said (readMembers_field (f := readRepoMember) (·.vcsConfigMessage) b!"vcs-config" (fun v _ => some (readMessage v)) repoMember_sets.2.2.2.2.1 _ h)

/-- The fields of a configuration that was read. -/
structure ConfigRead (ms : List (Bytes × Value Bytes)) (c : FileConfig) : Prop where
  dbPath : c.dbPath = textSaid (said b!"dbpath" ms)
  title : c.conf.title = textSaid (said b!"title" ms)
  maxConcurrentIndexers : c.conf.maxConcurrentIndexers = numberSaid (said b!"max-concurrent-indexers" ms)
  healthCheckURI : c.conf.healthCheckURI = textSaid (said b!"health-check-uri" ms)
  resultLimit : c.conf.resultLimit = numberSaid (said b!"result-limit" ms)
  repoNames : (c.conf.repos.map (·.1)).Nodup
  repos : ∀ n, c.conf.repos.lookup n = (reposSaid ms n).bind readRepo ∧ (c.conf.repos.lookup n).isSome = (reposSaid ms n).isSome
  vcsNames : (c.conf.vcsConfigMessages.map (·.1)).Nodup
  vcsConfig : ∀ n, c.conf.vcsConfigMessages.lookup n = (vcsSaid ms n).map readMessage

theorem config_read {ms : List (Bytes × Value Bytes)} {c : FileConfig} (h : readMembers readConfigMember ms {} = some c) :
    ConfigRead ms c := by
  have h1 := readMembers_field (f := readConfigMember) (·.conf.repos) b!"repos" readRepos configMember_sets.2.2.1 _ h
  have h2 := readMembers_field (f := readConfigMember) (·.conf.vcsConfigMessages) b!"vcs-config" readMessages configMember_sets.2.2.2.2.2.1 _ h
  have m1 := readMap (rd := readRepo) _ (object_said (f := fun m l => (readRepo m.2).map fun r => mapSet m.1 r l) (g := readRepos) []
    (fun _ => rfl) (fun v old hv => by cases v <;> first | rfl | cases hv) _ h1)
  have m2 := readMap (rd := fun v => some (readMessage v)) _ (object_said (f := fun m l => (some (readMessage m.2)).map fun r => mapSet m.1 r l)
    (g := readMessages) [] (fun _ => rfl) (fun v old hv => by cases v <;> first | rfl | cases hv) _ h2)
  exact {
    dbPath := text_said (readMembers_field (f := readConfigMember) (·.dbPath) b!"dbpath" readText configMember_sets.1 _ h)
    title := text_said (readMembers_field (f := readConfigMember) (·.conf.title) b!"title" readText configMember_sets.2.1 _ h)
    maxConcurrentIndexers := number_said (readMembers_field (f := readConfigMember) (·.conf.maxConcurrentIndexers) b!"max-concurrent-indexers" readInt configMember_sets.2.2.2.1 _ h)
    healthCheckURI := text_said (readMembers_field (f := readConfigMember) (·.conf.healthCheckURI) b!"health-check-uri" readText configMember_sets.2.2.2.2.1 _ h)
    resultLimit := number_said (readMembers_field (f := readConfigMember) (·.conf.resultLimit) b!"result-limit" readInt configMember_sets.2.2.2.2.2.2 _ h)
    repoNames := m1.1
    repos := m1.2
    vcsNames := m2.1
    vcsConfig := fun n => by
      rw [(m2.2 n).1]
      cases h : valueOf n (membersSaid (said b!"vcs-config" ms)) <;> simp [vcsSaid, h] }

end Hound.Config
