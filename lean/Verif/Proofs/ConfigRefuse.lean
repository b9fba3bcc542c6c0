import Verif.Proofs.ConfigFields

/-!
# Which configuration files are refused
-/

namespace Hound.Config

open Spec
open JsonText (Value)

theorem readText_none {v : Value Bytes} {old : Bytes} : readText v old = none ↔ ¬ TextOk v := by
  cases v <;> simp [readText, TextOk]

theorem readInt_none {v : Value Bytes} {old : Int} : readInt v old = none ↔ ¬ NumberOk v := by
  cases v <;> simp [readInt, NumberOk]

theorem readFlag_none {v : Value Bytes} {old : Bool} : readFlag v old = none ↔ ¬ FlagOk v := by
  cases v <;> simp [readFlag, FlagOk]

theorem readOptFlag_none {v : Value Bytes} : readOptFlag v = none ↔ ¬ FlagOk v := by
  cases v <;> simp [readOptFlag, FlagOk]

theorem readElems_none : ∀ {xs : List (Value Bytes)}, readElems xs = none ↔ ¬ ∀ x ∈ xs, TextOk x
  | [] => by simp [readElems]
  | x :: xs => by
    rw [readElems]
    cases h : readText x [] with
    | none =>
      have := readText_none.1 h
      simp only [Option.bind_none, true_iff]
      exact fun hall => this (hall x List.mem_cons_self)
    | some s =>
      have hx : TextOk x := Classical.byContradiction fun hn => by
        rw [readText_none.2 hn] at h
        cases h
      rw [Option.bind_some, Option.map_eq_none_iff, readElems_none]
      simp [hx]

theorem readTexts_none {v : Value Bytes} : readTexts v = none ↔ ¬ TextsOk v := by
  cases v with
  | arr xs => simp [readTexts, TextsOk, readElems_none]
  | _ => simp [readTexts, TextsOk]

theorem readObject_none {α : Type} {f : Bytes × Value Bytes → α → Option α} {P : Bytes × Value Bytes → Prop}
    {Q : List (Bytes × Value Bytes) → Prop} (hf : ∀ m s, f m s = none ↔ ¬ P m) (hQ : ∀ ms, (∀ m ∈ ms, P m) ↔ Q ms)
    (v : Value Bytes) (old : α) : readObject f v old = none ↔ ¬ ObjectOk Q v := by
  cases v with
  | obj ms =>
    rw [readObject, readMembers_none hf, hQ]
    refine not_congr ⟨fun h => .inr ⟨ms, rfl, h⟩, ?_⟩
    rintro (h | ⟨_, h, hq⟩)
    · cases h
    · cases h
      exact hq
  | _ => simp [readObject, ObjectOk]

theorem saidOk_iff {name : Bytes} {P : Value Bytes → Prop} {ms : List (Bytes × Value Bytes)} :
    SaidOk name P ms ↔ ∀ m ∈ ms, foldKey m.1 = name → P m.2 := by
  constructor
  · intro h m hm hk
    refine h m.2 (List.mem_filterMap.2 ⟨m, hm, ?_⟩)
    rw [if_pos (show inSmall m.1 = name from hk)]
  · intro h v hv
    obtain ⟨m, hm, hs⟩ := List.mem_filterMap.1 hv
    by_cases hk : inSmall m.1 = name
    · rw [if_pos hk] at hs
      cases hs
      exact h m hm hk
    · rw [if_neg hk] at hs
      cases hs

/-- A member is usable. -/
def PatternMemberOk (m : Bytes × Value Bytes) : Prop :=
    (foldKey m.1 = b!"base-url" → TextOk m.2) ∧
    (foldKey m.1 = b!"anchor" → TextOk m.2)

theorem readPatternMember_none (m : Bytes × Value Bytes) (s : UrlPattern) : readPatternMember m s = none ↔ ¬ PatternMemberOk m := by
  rw [readPatternMember]
  by_cases h0 : foldKey m.1 = b!"base-url"
  · rw [if_pos h0, Option.map_eq_none_iff, readText_none]
    exact not_congr ⟨fun ho => ⟨fun _ => ho, fun e => absurd (h0.symm.trans e) (by decide)⟩, fun hp => hp.1 h0⟩
  rw [if_neg h0]
  by_cases h1 : foldKey m.1 = b!"anchor"
  · rw [if_pos h1, Option.map_eq_none_iff, readText_none]
    exact not_congr ⟨fun ho => ⟨fun e => absurd (h1.symm.trans e) (by decide), fun _ => ho⟩, fun hp => hp.2 h1⟩
  rw [if_neg h1]
  exact ⟨fun e => (Option.some_ne_none _ e).elim, fun hn => (hn ⟨fun e => absurd e h0, fun e => absurd e h1⟩).elim⟩

theorem patternOk_iff (ms : List (Bytes × Value Bytes)) : (∀ m ∈ ms, PatternMemberOk m) ↔ PatternOk ms := by
  constructor
  · intro h
    exact ⟨saidOk_iff.2 fun m hm => (h m hm).1, saidOk_iff.2 fun m hm => (h m hm).2⟩
  · intro h m hm
    exact ⟨saidOk_iff.1 h.baseUrl m hm, saidOk_iff.1 h.anchor m hm⟩

theorem readPattern_none {v : Value Bytes} {old : Option UrlPattern} : readPattern v old = none ↔ ¬ ObjectOk PatternOk v := by
  have := readObject_none readPatternMember_none patternOk_iff v (old.getD {})
  cases v with
  | null => simp [readPattern, ObjectOk]
  | _ => rw [← this]; simp only [readPattern, Option.map_eq_none_iff]

/-- A member is usable. -/
def RepoMemberOk (m : Bytes × Value Bytes) : Prop :=
    (foldKey m.1 = b!"url" → TextOk m.2) ∧
    (foldKey m.1 = b!"display-name" → TextOk m.2) ∧
    (foldKey m.1 = b!"ms-between-poll" → NumberOk m.2) ∧
    (foldKey m.1 = b!"vcs" → TextOk m.2) ∧
    (foldKey m.1 = b!"url-pattern" → (ObjectOk PatternOk) m.2) ∧
    (foldKey m.1 = b!"exclude-dot-files" → FlagOk m.2) ∧
    (foldKey m.1 = b!"enable-poll-updates" → FlagOk m.2) ∧
    (foldKey m.1 = b!"enable-push-updates" → FlagOk m.2) ∧
    (foldKey m.1 = b!"auto-generated-files" → TextsOk m.2)

theorem readRepoMember_none (m : Bytes × Value Bytes) (s : Repo) : readRepoMember m s = none ↔ ¬ RepoMemberOk m := by
  rw [readRepoMember]
  by_cases h0 : foldKey m.1 = b!"url"
  · rw [if_pos h0, Option.map_eq_none_iff, readText_none]
    exact not_congr ⟨fun ho => ⟨fun _ => ho, fun e => absurd (h0.symm.trans e) (by decide), fun e => absurd (h0.symm.trans e) (by decide), fun e => absurd (h0.symm.trans e) (by decide), fun e => absurd (h0.symm.trans e) (by decide), fun e => absurd (h0.symm.trans e) (by decide), fun e => absurd (h0.symm.trans e) (by decide), fun e => absurd (h0.symm.trans e) (by decide), fun e => absurd (h0.symm.trans e) (by decide)⟩, fun hp => hp.1 h0⟩
  rw [if_neg h0]
  by_cases h1 : foldKey m.1 = b!"display-name"
  · rw [if_pos h1, Option.map_eq_none_iff, readText_none]
    exact not_congr ⟨fun ho => ⟨fun e => absurd (h1.symm.trans e) (by decide), fun _ => ho, fun e => absurd (h1.symm.trans e) (by decide), fun e => absurd (h1.symm.trans e) (by decide), fun e => absurd (h1.symm.trans e) (by decide), fun e => absurd (h1.symm.trans e) (by decide), fun e => absurd (h1.symm.trans e) (by decide), fun e => absurd (h1.symm.trans e) (by decide), fun e => absurd (h1.symm.trans e) (by decide)⟩, fun hp => hp.2.1 h1⟩
  rw [if_neg h1]
  by_cases h2 : foldKey m.1 = b!"ms-between-poll"
  · rw [if_pos h2, Option.map_eq_none_iff, readInt_none]
    exact not_congr ⟨fun ho => ⟨fun e => absurd (h2.symm.trans e) (by decide), fun e => absurd (h2.symm.trans e) (by decide), fun _ => ho, fun e => absurd (h2.symm.trans e) (by decide), fun e => absurd (h2.symm.trans e) (by decide), fun e => absurd (h2.symm.trans e) (by decide), fun e => absurd (h2.symm.trans e) (by decide), fun e => absurd (h2.symm.trans e) (by decide), fun e => absurd (h2.symm.trans e) (by decide)⟩, fun hp => hp.2.2.1 h2⟩
  rw [if_neg h2]
  by_cases h3 : foldKey m.1 = b!"vcs"
  · rw [if_pos h3, Option.map_eq_none_iff, readText_none]
    exact not_congr ⟨fun ho => ⟨fun e => absurd (h3.symm.trans e) (by decide), fun e => absurd (h3.symm.trans e) (by decide), fun e => absurd (h3.symm.trans e) (by decide), fun _ => ho, fun e => absurd (h3.symm.trans e) (by decide), fun e => absurd (h3.symm.trans e) (by decide), fun e => absurd (h3.symm.trans e) (by decide), fun e => absurd (h3.symm.trans e) (by decide), fun e => absurd (h3.symm.trans e) (by decide)⟩, fun hp => hp.2.2.2.1 h3⟩
  rw [if_neg h3]
  by_cases h4 : foldKey m.1 = b!"vcs-config"
  · rw [if_pos h4]
    exact ⟨fun e => (Option.some_ne_none _ e).elim, fun hn => (hn ⟨fun e => absurd (h4.symm.trans e) (by decide), fun e => absurd (h4.symm.trans e) (by decide), fun e => absurd (h4.symm.trans e) (by decide), fun e => absurd (h4.symm.trans e) (by decide), fun e => absurd (h4.symm.trans e) (by decide), fun e => absurd (h4.symm.trans e) (by decide), fun e => absurd (h4.symm.trans e) (by decide), fun e => absurd (h4.symm.trans e) (by decide), fun e => absurd (h4.symm.trans e) (by decide)⟩).elim⟩
  rw [if_neg h4]
  by_cases h5 : foldKey m.1 = b!"url-pattern"
  · rw [if_pos h5, Option.map_eq_none_iff, readPattern_none]
    exact not_congr ⟨fun ho => ⟨fun e => absurd (h5.symm.trans e) (by decide), fun e => absurd (h5.symm.trans e) (by decide), fun e => absurd (h5.symm.trans e) (by decide), fun e => absurd (h5.symm.trans e) (by decide), fun _ => ho, fun e => absurd (h5.symm.trans e) (by decide), fun e => absurd (h5.symm.trans e) (by decide), fun e => absurd (h5.symm.trans e) (by decide), fun e => absurd (h5.symm.trans e) (by decide)⟩, fun hp => hp.2.2.2.2.1 h5⟩
  rw [if_neg h5]
  by_cases h6 : foldKey m.1 = b!"exclude-dot-files"
  · rw [if_pos h6, Option.map_eq_none_iff, readFlag_none]
    exact not_congr ⟨fun ho => ⟨fun e => absurd (h6.symm.trans e) (by decide), fun e => absurd (h6.symm.trans e) (by decide), fun e => absurd (h6.symm.trans e) (by decide), fun e => absurd (h6.symm.trans e) (by decide), fun e => absurd (h6.symm.trans e) (by decide), fun _ => ho, fun e => absurd (h6.symm.trans e) (by decide), fun e => absurd (h6.symm.trans e) (by decide), fun e => absurd (h6.symm.trans e) (by decide)⟩, fun hp => hp.2.2.2.2.2.1 h6⟩
  rw [if_neg h6]
  by_cases h7 : foldKey m.1 = b!"enable-poll-updates"
  · rw [if_pos h7, Option.map_eq_none_iff, readOptFlag_none]
    exact not_congr ⟨fun ho => ⟨fun e => absurd (h7.symm.trans e) (by decide), fun e => absurd (h7.symm.trans e) (by decide), fun e => absurd (h7.symm.trans e) (by decide), fun e => absurd (h7.symm.trans e) (by decide), fun e => absurd (h7.symm.trans e) (by decide), fun e => absurd (h7.symm.trans e) (by decide), fun _ => ho, fun e => absurd (h7.symm.trans e) (by decide), fun e => absurd (h7.symm.trans e) (by decide)⟩, fun hp => hp.2.2.2.2.2.2.1 h7⟩
  rw [if_neg h7]
  by_cases h8 : foldKey m.1 = b!"enable-push-updates"
  · rw [if_pos h8, Option.map_eq_none_iff, readOptFlag_none]
    exact not_congr ⟨fun ho => ⟨fun e => absurd (h8.symm.trans e) (by decide), fun e => absurd (h8.symm.trans e) (by decide), fun e => absurd (h8.symm.trans e) (by decide), fun e => absurd (h8.symm.trans e) (by decide), fun e => absurd (h8.symm.trans e) (by decide), fun e => absurd (h8.symm.trans e) (by decide), fun e => absurd (h8.symm.trans e) (by decide), fun _ => ho, fun e => absurd (h8.symm.trans e) (by decide)⟩, fun hp => hp.2.2.2.2.2.2.2.1 h8⟩
  rw [if_neg h8]
  by_cases h9 : foldKey m.1 = b!"auto-generated-files"
  · rw [if_pos h9, Option.map_eq_none_iff, readTexts_none]
    exact not_congr ⟨fun ho => ⟨fun e => absurd (h9.symm.trans e) (by decide), fun e => absurd (h9.symm.trans e) (by decide), fun e => absurd (h9.symm.trans e) (by decide), fun e => absurd (h9.symm.trans e) (by decide), fun e => absurd (h9.symm.trans e) (by decide), fun e => absurd (h9.symm.trans e) (by decide), fun e => absurd (h9.symm.trans e) (by decide), fun e => absurd (h9.symm.trans e) (by decide), fun _ => ho⟩, fun hp => hp.2.2.2.2.2.2.2.2 h9⟩
  rw [if_neg h9]
  exact ⟨fun e => (Option.some_ne_none _ e).elim, fun hn => (hn ⟨fun e => absurd e h0, fun e => absurd e h1, fun e => absurd e h2, fun e => absurd e h3, fun e => absurd e h5, fun e => absurd e h6, fun e => absurd e h7, fun e => absurd e h8, fun e => absurd e h9⟩).elim⟩

theorem repoOk_iff (ms : List (Bytes × Value Bytes)) : (∀ m ∈ ms, RepoMemberOk m) ↔ RepoOk ms := by
  constructor
  · intro h
    exact ⟨saidOk_iff.2 fun m hm => (h m hm).1, saidOk_iff.2 fun m hm => (h m hm).2.1, saidOk_iff.2 fun m hm => (h m hm).2.2.1, saidOk_iff.2 fun m hm => (h m hm).2.2.2.1, saidOk_iff.2 fun m hm => (h m hm).2.2.2.2.1, saidOk_iff.2 fun m hm => (h m hm).2.2.2.2.2.1, saidOk_iff.2 fun m hm => (h m hm).2.2.2.2.2.2.1, saidOk_iff.2 fun m hm => (h m hm).2.2.2.2.2.2.2.1, saidOk_iff.2 fun m hm => (h m hm).2.2.2.2.2.2.2.2⟩
  · intro h m hm
    exact ⟨saidOk_iff.1 h.url m hm, saidOk_iff.1 h.displayName m hm, saidOk_iff.1 h.msBetweenPolls m hm, saidOk_iff.1 h.vcs m hm, saidOk_iff.1 h.urlPattern m hm, saidOk_iff.1 h.excludeDotFiles m hm, saidOk_iff.1 h.poll m hm, saidOk_iff.1 h.push m hm, saidOk_iff.1 h.autoGenerated m hm⟩

theorem readRepo_none {v : Value Bytes} : readRepo v = none ↔ ¬ ObjectOk RepoOk v := by
  have := readObject_none readRepoMember_none repoOk_iff v {}
  cases v with
  | null => simp [readRepo, ObjectOk]
  | _ => rw [← this]; simp only [readRepo, Option.map_eq_none_iff]

theorem readRepos_none {v : Value Bytes} {old : List (Bytes × Option Repo)} :
    readRepos v old = none ↔ ¬ ObjectOk (fun rs => ∀ e ∈ rs, ObjectOk RepoOk e.2) v := by
  have := readObject_none (f := fun m (l : List (Bytes × Option Repo)) => (readRepo m.2).map fun r => mapSet m.1 r l)
    (P := fun e => ObjectOk RepoOk e.2) (Q := fun rs => ∀ e ∈ rs, ObjectOk RepoOk e.2)
    (fun m s => by rw [Option.map_eq_none_iff, readRepo_none]) (fun _ => Iff.rfl) v old
  cases v with
  | null => simp [readRepos, ObjectOk]
  | _ => exact this

theorem readMessages_none {v : Value Bytes} {old : List (Bytes × Option Json)} :
    readMessages v old = none ↔ ¬ ObjectOk (fun _ => True) v := by
  have := readObject_none (f := fun m (l : List (Bytes × Option Json)) => some (mapSet m.1 (readMessage m.2) l))
    (P := fun _ => True) (Q := fun _ => True) (fun m s => by simp) (fun _ => by simp) v old
  cases v with
  | null => simp [readMessages, ObjectOk]
  | _ => exact this

/-- A member is usable. -/
def ConfigMemberOk (m : Bytes × Value Bytes) : Prop :=
    (foldKey m.1 = b!"dbpath" → TextOk m.2) ∧
    (foldKey m.1 = b!"title" → TextOk m.2) ∧
    (foldKey m.1 = b!"repos" → (ObjectOk fun rs => ∀ e ∈ rs, ObjectOk RepoOk e.2) m.2) ∧
    (foldKey m.1 = b!"max-concurrent-indexers" → NumberOk m.2) ∧
    (foldKey m.1 = b!"health-check-uri" → TextOk m.2) ∧
    (foldKey m.1 = b!"vcs-config" → (ObjectOk fun _ => True) m.2) ∧
    (foldKey m.1 = b!"result-limit" → NumberOk m.2)

theorem readConfigMember_none (m : Bytes × Value Bytes) (s : FileConfig) : readConfigMember m s = none ↔ ¬ ConfigMemberOk m := by
  rw [readConfigMember]
  by_cases h0 : foldKey m.1 = b!"dbpath"
  · rw [if_pos h0, Option.map_eq_none_iff, readText_none]
    exact not_congr ⟨fun ho => ⟨fun _ => ho, fun e => absurd (h0.symm.trans e) (by decide), fun e => absurd (h0.symm.trans e) (by decide), fun e => absurd (h0.symm.trans e) (by decide), fun e => absurd (h0.symm.trans e) (by decide), fun e => absurd (h0.symm.trans e) (by decide), fun e => absurd (h0.symm.trans e) (by decide)⟩, fun hp => hp.1 h0⟩
  rw [if_neg h0]
  by_cases h1 : foldKey m.1 = b!"title"
  · rw [if_pos h1, Option.map_eq_none_iff, readText_none]
    exact not_congr ⟨fun ho => ⟨fun e => absurd (h1.symm.trans e) (by decide), fun _ => ho, fun e => absurd (h1.symm.trans e) (by decide), fun e => absurd (h1.symm.trans e) (by decide), fun e => absurd (h1.symm.trans e) (by decide), fun e => absurd (h1.symm.trans e) (by decide), fun e => absurd (h1.symm.trans e) (by decide)⟩, fun hp => hp.2.1 h1⟩
  rw [if_neg h1]
  by_cases h2 : foldKey m.1 = b!"repos"
  · rw [if_pos h2, Option.map_eq_none_iff, readRepos_none]
    exact not_congr ⟨fun ho => ⟨fun e => absurd (h2.symm.trans e) (by decide), fun e => absurd (h2.symm.trans e) (by decide), fun _ => ho, fun e => absurd (h2.symm.trans e) (by decide), fun e => absurd (h2.symm.trans e) (by decide), fun e => absurd (h2.symm.trans e) (by decide), fun e => absurd (h2.symm.trans e) (by decide)⟩, fun hp => hp.2.2.1 h2⟩
  rw [if_neg h2]
  by_cases h3 : foldKey m.1 = b!"max-concurrent-indexers"
  · rw [if_pos h3, Option.map_eq_none_iff, readInt_none]
    exact not_congr ⟨fun ho => ⟨fun e => absurd (h3.symm.trans e) (by decide), fun e => absurd (h3.symm.trans e) (by decide), fun e => absurd (h3.symm.trans e) (by decide), fun _ => ho, fun e => absurd (h3.symm.trans e) (by decide), fun e => absurd (h3.symm.trans e) (by decide), fun e => absurd (h3.symm.trans e) (by decide)⟩, fun hp => hp.2.2.2.1 h3⟩
  rw [if_neg h3]
  by_cases h4 : foldKey m.1 = b!"health-check-uri"
  · rw [if_pos h4, Option.map_eq_none_iff, readText_none]
    exact not_congr ⟨fun ho => ⟨fun e => absurd (h4.symm.trans e) (by decide), fun e => absurd (h4.symm.trans e) (by decide), fun e => absurd (h4.symm.trans e) (by decide), fun e => absurd (h4.symm.trans e) (by decide), fun _ => ho, fun e => absurd (h4.symm.trans e) (by decide), fun e => absurd (h4.symm.trans e) (by decide)⟩, fun hp => hp.2.2.2.2.1 h4⟩
  rw [if_neg h4]
  by_cases h5 : foldKey m.1 = b!"vcs-config"
  · rw [if_pos h5, Option.map_eq_none_iff, readMessages_none]
    exact not_congr ⟨fun ho => ⟨fun e => absurd (h5.symm.trans e) (by decide), fun e => absurd (h5.symm.trans e) (by decide), fun e => absurd (h5.symm.trans e) (by decide), fun e => absurd (h5.symm.trans e) (by decide), fun e => absurd (h5.symm.trans e) (by decide), fun _ => ho, fun e => absurd (h5.symm.trans e) (by decide)⟩, fun hp => hp.2.2.2.2.2.1 h5⟩
  rw [if_neg h5]
  by_cases h6 : foldKey m.1 = b!"result-limit"
  · rw [if_pos h6, Option.map_eq_none_iff, readInt_none]
    exact not_congr ⟨fun ho => ⟨fun e => absurd (h6.symm.trans e) (by decide), fun e => absurd (h6.symm.trans e) (by decide), fun e => absurd (h6.symm.trans e) (by decide), fun e => absurd (h6.symm.trans e) (by decide), fun e => absurd (h6.symm.trans e) (by decide), fun e => absurd (h6.symm.trans e) (by decide), fun _ => ho⟩, fun hp => hp.2.2.2.2.2.2 h6⟩
  rw [if_neg h6]
  exact ⟨fun e => (Option.some_ne_none _ e).elim, fun hn => (hn ⟨fun e => absurd e h0, fun e => absurd e h1, fun e => absurd e h2, fun e => absurd e h3, fun e => absurd e h4, fun e => absurd e h5, fun e => absurd e h6⟩).elim⟩

theorem configOk_iff (ms : List (Bytes × Value Bytes)) : (∀ m ∈ ms, ConfigMemberOk m) ↔ ConfigOk ms := by
  constructor
  · intro h
    exact ⟨saidOk_iff.2 fun m hm => (h m hm).1, saidOk_iff.2 fun m hm => (h m hm).2.1, saidOk_iff.2 fun m hm => (h m hm).2.2.1, saidOk_iff.2 fun m hm => (h m hm).2.2.2.1, saidOk_iff.2 fun m hm => (h m hm).2.2.2.2.1, saidOk_iff.2 fun m hm => (h m hm).2.2.2.2.2.1, saidOk_iff.2 fun m hm => (h m hm).2.2.2.2.2.2⟩
  · intro h m hm
    exact ⟨saidOk_iff.1 h.dbPath m hm, saidOk_iff.1 h.title m hm, saidOk_iff.1 h.repos m hm, saidOk_iff.1 h.maxConcurrentIndexers m hm, saidOk_iff.1 h.healthCheckURI m hm, saidOk_iff.1 h.vcsConfig m hm, saidOk_iff.1 h.resultLimit m hm⟩

theorem readConfig_ok (v : Value Bytes) : (∃ c, readObject readConfigMember v {} = some c) ↔ ObjectOk ConfigOk v := by
  rw [← Classical.not_not (a := ObjectOk ConfigOk v), ← readObject_none readConfigMember_none configOk_iff v {}]
  cases readObject readConfigMember v {} <;> simp

end Hound.Config
