import Verif.Spec.WorkDir
import Verif.Props.Vcs
import Verif.Props.ConfigFile
import Verif.Props.Search
import Verif.Props.Walk

/-!
# C75: the settings of a repository reach its version control system; C76: the marks of generated files
-/

namespace Hound.Vcs

open Spec JsonText
open Hound.Config (Json Repo Loaded readText readFlag readTexts readObject readMembers foldKey Sets rawMessage)

/-! ## The driver -/

theorem readSettings_eq {α : Type} {f : Bytes × Value Bytes → α → Option α} {init r : α} {cfg : Option Json}
    (h : readSettings f init cfg = some r) : readMembers f (settingsIn cfg) init = some r := by
  cases cfg with
  | none => exact h
  | some j =>
    have h : readObject f (asRead j) init = some r := h
    simp only [settingsIn]
    cases hj : asRead j with
    | null => rw [hj] at h; exact h
    | obj ms => rw [hj] at h; exact h
    | _ => rw [hj] at h; cases h

theorem two_members {α β γ : Type} {k1 k2 : Bytes} (hne : k1 ≠ k2) {g1 : Value Bytes → β → Option β}
    {g2 : Value Bytes → γ → Option γ} {p1 : α → β} {p2 : α → γ} {s1 : α → β → α} {s2 : α → γ → α}
    (e11 : ∀ s x, p1 (s1 s x) = x) (e12 : ∀ s x, p1 (s2 s x) = p1 s) (e21 : ∀ s x, p2 (s1 s x) = p2 s)
    (e22 : ∀ s x, p2 (s2 s x) = x) {f : Bytes × Value Bytes → α → Option α}
    (hf : ∀ m s, f m s = if foldKey m.1 = k1 then (g1 m.2 (p1 s)).map (s1 s)
      else if foldKey m.1 = k2 then (g2 m.2 (p2 s)).map (s2 s) else some s) :
    Sets f p1 k1 g1 ∧ Sets f p2 k2 g2 := by
  have key : ∀ m s s', f m s = some s' →
      ((foldKey m.1 = k1 → g1 m.2 (p1 s) = some (p1 s')) ∧ (foldKey m.1 ≠ k1 → p1 s' = p1 s)) ∧
      ((foldKey m.1 = k2 → g2 m.2 (p2 s) = some (p2 s')) ∧ (foldKey m.1 ≠ k2 → p2 s' = p2 s)) := by
    intro m s s' h
    rw [hf] at h
    by_cases h1 : foldKey m.1 = k1
    · rw [if_pos h1] at h
      obtain ⟨x, hx, rfl⟩ := Option.map_eq_some_iff.1 h
      exact ⟨⟨fun _ => by rw [e11, hx], fun n => absurd h1 n⟩, ⟨fun e => absurd (h1.symm.trans e) hne, fun _ => e21 s x⟩⟩
    · rw [if_neg h1] at h
      by_cases h2 : foldKey m.1 = k2
      · rw [if_pos h2] at h
        obtain ⟨x, hx, rfl⟩ := Option.map_eq_some_iff.1 h
        exact ⟨⟨fun e => absurd e h1, fun _ => e12 s x⟩, ⟨fun _ => by rw [e22, hx], fun n => absurd h2 n⟩⟩
      · rw [if_neg h2] at h
        cases h
        exact ⟨⟨fun e => absurd e h1, fun _ => rfl⟩, ⟨fun e => absurd e h2, fun _ => rfl⟩⟩
  exact ⟨fun m s s' h => (key m s s' h).1, fun m s s' h => (key m s s' h).2⟩

theorem git_said {cfg : Option Json} {g : GitDriver} (h : readSettings readGitMember {} cfg = some g) :
    g = ⟨flagSaid (said b!"detect-ref" (settingsIn cfg)), textSaid (said b!"ref" (settingsIn cfg))⟩ := by
  have h := readSettings_eq h
  obtain ⟨h1, h2⟩ := two_members (α := GitDriver) (k1 := b!"detect-ref") (k2 := b!"ref") (by decide) (g1 := readFlag) (g2 := readText)
    (p1 := GitDriver.detectRef) (p2 := GitDriver.ref) (s1 := fun (s : GitDriver) x => { s with detectRef := x }) (s2 := fun (s : GitDriver) x => { s with ref := x })
    (fun _ _ => rfl) (fun _ _ => rfl) (fun _ _ => rfl) (fun _ _ => rfl) (f := readGitMember) (fun _ _ => rfl)
  have f1 := Config.flag_said (Config.readMembers_field (f := readGitMember) GitDriver.detectRef b!"detect-ref" readFlag h1 _ h)
  have f2 := Config.text_said (Config.readMembers_field (f := readGitMember) GitDriver.ref b!"ref" readText h2 _ h)
  rw [← f1, ← f2]

theorem svn_said {cfg : Option Json} {g : SvnDriver} (h : readSettings readSvnMember {} cfg = some g) :
    g = ⟨textSaid (said b!"username" (settingsIn cfg)), textSaid (said b!"password" (settingsIn cfg))⟩ := by
  have h := readSettings_eq h
  obtain ⟨h1, h2⟩ := two_members (α := SvnDriver) (k1 := b!"username") (k2 := b!"password") (by decide) (g1 := readText) (g2 := readText)
    (p1 := SvnDriver.username) (p2 := SvnDriver.password) (s1 := fun (s : SvnDriver) x => { s with username := x }) (s2 := fun (s : SvnDriver) x => { s with password := x })
    (fun _ _ => rfl) (fun _ _ => rfl) (fun _ _ => rfl) (fun _ _ => rfl) (f := readSvnMember) (fun _ _ => rfl)
  have f1 := Config.text_said (Config.readMembers_field (f := readSvnMember) SvnDriver.username b!"username" readText h1 _ h)
  have f2 := Config.text_said (Config.readMembers_field (f := readSvnMember) SvnDriver.password b!"password" readText h2 _ h)
  rw [← f1, ← f2]

theorem local_said {cfg : Option Json} {g : LocalDriver} (h : readSettings readLocalMember {} cfg = some g) :
    g = ⟨flagSaid (said b!"watch-changes" (settingsIn cfg)), textsSaid (said b!"ignored-files" (settingsIn cfg))⟩ := by
  have h := readSettings_eq h
  obtain ⟨h1, h2⟩ := two_members (α := LocalDriver) (k1 := b!"watch-changes") (k2 := b!"ignored-files") (by decide) (g1 := readFlag)
    (g2 := fun v _ => readTexts v) (p1 := LocalDriver.watchChanges) (p2 := LocalDriver.ignoredFiles) (s1 := fun (s : LocalDriver) x => { s with watchChanges := x })
    (s2 := fun (s : LocalDriver) x => { s with ignoredFiles := x })
    (fun _ _ => rfl) (fun _ _ => rfl) (fun _ _ => rfl) (fun _ _ => rfl) (f := readLocalMember) (fun _ _ => rfl)
  have f1 := Config.flag_said (Config.readMembers_field (f := readLocalMember) LocalDriver.watchChanges b!"watch-changes" readFlag h1 _ h)
  have f2 := Config.texts_said (Config.readMembers_field (f := readLocalMember) LocalDriver.ignoredFiles b!"ignored-files" (fun v _ => readTexts v) h2 _ h)
  rw [← f1, ← f2]

/-- **C75**, the driver: it is the one of that name, and has the settings that were given, by the last time each was said. -/
theorem driver_exact {name : Bytes} {cfg : Option Json} {d : Driver} (h : newDriver name cfg = some d) :
    DriverAsSaid (settingsIn cfg) name d := by
  rw [newDriver] at h
  split at h
  · rename_i hn
    obtain ⟨g, hg, rfl⟩ := Option.map_eq_some_iff.1 h
    rw [hn, git_said hg]
    exact .git
  split at h
  · rename_i hn
    cases h
    rcases hn with rfl | rfl
    · exact .hg
    · exact .mercurial
  split at h
  · rename_i hn
    obtain ⟨g, hg, rfl⟩ := Option.map_eq_some_iff.1 h
    rw [svn_said hg]
    rcases hn with rfl | rfl
    · exact .svn
    · exact .subversion
  split at h
  · rename_i hn
    cases h
    rw [hn]
    exact .bzr
  split at h
  · rename_i hn
    obtain ⟨g, hg, rfl⟩ := Option.map_eq_some_iff.1 h
    rw [hn, local_said hg]
    exact .local_
  · cases h

theorem readSettings_ok {α : Type} {f : Bytes × Value Bytes → α → Option α} {P : Bytes × Value Bytes → Prop}
    {Q : List (Bytes × Value Bytes) → Prop} (hf : ∀ m s, f m s = none ↔ ¬ P m) (hQ : ∀ ms, (∀ m ∈ ms, P m) ↔ Q ms)
    (init : α) (cfg : Option Json) : (∃ r, readSettings f init cfg = some r) ↔ MessageOk Q cfg := by
  cases cfg with
  | none => exact iff_of_true ⟨_, rfl⟩ (fun _ h => nomatch h)
  | some j =>
    have := Config.readObject_none hf hQ (asRead j) init
    simp only [readSettings, MessageOk, Option.some.injEq, forall_eq']
    cases h : readObject f (asRead j) init with
    | none =>
      simp only [reduceCtorEq, exists_false, false_iff]
      exact this.1 h
    | some r =>
      simp only [Option.some.injEq, exists_eq', true_iff]
      exact Classical.byContradiction fun hn => by rw [this.2 hn] at h; cases h

theorem two_ok {α β γ : Type} {k1 k2 : Bytes} (hne : k1 ≠ k2) {g1 : Value Bytes → β → Option β}
    {g2 : Value Bytes → γ → Option γ} {p1 : α → β} {p2 : α → γ} {s1 : α → β → α} {s2 : α → γ → α} {P1 P2 : Value Bytes → Prop}
    (n1 : ∀ v o, g1 v o = none ↔ ¬ P1 v) (n2 : ∀ v o, g2 v o = none ↔ ¬ P2 v)
    {f : Bytes × Value Bytes → α → Option α}
    (hf : ∀ m s, f m s = if foldKey m.1 = k1 then (g1 m.2 (p1 s)).map (s1 s)
      else if foldKey m.1 = k2 then (g2 m.2 (p2 s)).map (s2 s) else some s) (init : α) (cfg : Option Json) :
    (∃ r, readSettings f init cfg = some r) ↔ MessageOk (fun ms => SaidOk k1 P1 ms ∧ SaidOk k2 P2 ms) cfg := by
  refine readSettings_ok (P := fun m => (foldKey m.1 = k1 → P1 m.2) ∧ (foldKey m.1 = k2 → P2 m.2)) ?_ ?_ init cfg
  · intro m s
    rw [hf]
    by_cases h1 : foldKey m.1 = k1
    · rw [if_pos h1, Option.map_eq_none_iff, n1]
      exact not_congr ⟨fun h => ⟨fun _ => h, fun e => absurd (h1.symm.trans e) hne⟩, fun h => h.1 h1⟩
    · rw [if_neg h1]
      by_cases h2 : foldKey m.1 = k2
      · rw [if_pos h2, Option.map_eq_none_iff, n2]
        exact not_congr ⟨fun h => ⟨fun e => absurd e h1, fun _ => h⟩, fun h => h.2 h2⟩
      · rw [if_neg h2]
        simp only [reduceCtorEq, false_iff]
        exact fun h => h ⟨fun e => absurd e h1, fun e => absurd e h2⟩
  · intro ms
    rw [Config.saidOk_iff, Config.saidOk_iff]
    exact ⟨fun h => ⟨fun m hm => (h m hm).1, fun m hm => (h m hm).2⟩, fun h m hm => ⟨h.1 m hm, h.2 m hm⟩⟩

theorem git_ok (cfg : Option Json) : (∃ g, readSettings readGitMember {} cfg = some g) ↔
    MessageOk (fun ms => SaidOk b!"detect-ref" FlagOk ms ∧ SaidOk b!"ref" TextOk ms) cfg :=
  two_ok (k1 := b!"detect-ref") (k2 := b!"ref") (by decide) (g1 := readFlag) (g2 := readText)
    (p1 := GitDriver.detectRef) (p2 := GitDriver.ref) (s1 := fun (s : GitDriver) x => { s with detectRef := x }) (s2 := fun (s : GitDriver) x => { s with ref := x })
    (fun _ _ => Config.readFlag_none) (fun _ _ => Config.readText_none) (fun _ _ => rfl) _ _

theorem svn_ok (cfg : Option Json) : (∃ g, readSettings readSvnMember {} cfg = some g) ↔
    MessageOk (fun ms => SaidOk b!"username" TextOk ms ∧ SaidOk b!"password" TextOk ms) cfg :=
  two_ok (k1 := b!"username") (k2 := b!"password") (by decide) (g1 := readText) (g2 := readText)
    (p1 := SvnDriver.username) (p2 := SvnDriver.password) (s1 := fun (s : SvnDriver) x => { s with username := x }) (s2 := fun (s : SvnDriver) x => { s with password := x })
    (fun _ _ => Config.readText_none) (fun _ _ => Config.readText_none) (fun _ _ => rfl) _ _

theorem local_ok (cfg : Option Json) : (∃ g, readSettings readLocalMember {} cfg = some g) ↔
    MessageOk (fun ms => SaidOk b!"watch-changes" FlagOk ms ∧ SaidOk b!"ignored-files" TextsOk ms) cfg :=
  two_ok (k1 := b!"watch-changes") (k2 := b!"ignored-files") (by decide) (g1 := readFlag) (g2 := fun v _ => readTexts v)
    (p1 := LocalDriver.watchChanges) (p2 := LocalDriver.ignoredFiles) (s1 := fun (s : LocalDriver) x => { s with watchChanges := x })
    (s2 := fun (s : LocalDriver) x => { s with ignoredFiles := x })
    (fun _ _ => Config.readFlag_none) (fun _ _ => Config.readTexts_none) (fun _ _ => rfl) _ _

/-- **C75**, which names and settings are accepted. -/
theorem driver_accepted_iff (name : Bytes) (cfg : Option Json) : (∃ d, newDriver name cfg = some d) ↔ DriverUsable cfg name := by
  constructor
  · rintro ⟨d, h⟩
    have ha := driver_exact h
    rw [newDriver] at h
    cases ha with
    | git =>
      rw [if_pos rfl] at h
      obtain ⟨g, hg, -⟩ := Option.map_eq_some_iff.1 h
      exact .git ((git_ok cfg).1 ⟨g, hg⟩)
    | hg => exact .hg
    | mercurial => exact .mercurial
    | svn =>
      rw [if_neg (by decide), if_neg (by decide), if_pos (.inl rfl)] at h
      obtain ⟨g, hg, -⟩ := Option.map_eq_some_iff.1 h
      exact .svn ((svn_ok cfg).1 ⟨g, hg⟩)
    | subversion =>
      rw [if_neg (by decide), if_neg (by decide), if_pos (.inr rfl)] at h
      obtain ⟨g, hg, -⟩ := Option.map_eq_some_iff.1 h
      exact .subversion ((svn_ok cfg).1 ⟨g, hg⟩)
    | bzr => exact .bzr
    | local_ =>
      rw [if_neg (by decide), if_neg (by decide), if_neg (by decide), if_neg (by decide), if_pos rfl] at h
      obtain ⟨g, hg, -⟩ := Option.map_eq_some_iff.1 h
      exact .local_ ((local_ok cfg).1 ⟨g, hg⟩)
  · intro h
    cases h with
    | git h =>
      obtain ⟨g, hg⟩ := (git_ok cfg).2 h
      exact ⟨.git g, by rw [newDriver, if_pos rfl, hg]; rfl⟩
    | hg => exact ⟨.hg, rfl⟩
    | mercurial => exact ⟨.hg, rfl⟩
    | svn h =>
      obtain ⟨g, hg⟩ := (svn_ok cfg).2 h
      exact ⟨.svn g, by rw [newDriver, if_neg (by decide), if_neg (by decide), if_pos (.inl rfl), hg]; rfl⟩
    | subversion h =>
      obtain ⟨g, hg⟩ := (svn_ok cfg).2 h
      exact ⟨.svn g, by rw [newDriver, if_neg (by decide), if_neg (by decide), if_pos (.inr rfl), hg]; rfl⟩
    | bzr => exact ⟨.bzr, rfl⟩
    | local_ h =>
      obtain ⟨g, hg⟩ := (local_ok cfg).2 h
      exact ⟨.local_ g, by
        rw [newDriver, if_neg (by decide), if_neg (by decide), if_neg (by decide), if_neg (by decide), if_pos rfl, hg]; rfl⟩

/-- Settings of the three kinds. -/
example : newDriver b!"git" (some (.obj [(b!"Ref", .str b!"dev"), (b!"detect-ref", .bool true)])) = some (.git ⟨true, b!"dev"⟩) ∧
    newDriver b!"subversion" (some (.obj [(b!"username", .str b!"u"), (b!"password", .str b!"p")])) = some (.svn ⟨b!"u", b!"p"⟩) ∧
    newDriver b!"local" (some (.obj [(b!"ignored-files", .arr [.str b!"out"])])) = some (.local_ ⟨false, [b!"out"]⟩) ∧
    newDriver b!"git" (some (.obj [(b!"ref", .num 5)])) = none ∧ newDriver b!"cvs" none = none := by
  refine ⟨rfl, rfl, rfl, rfl, rfl⟩

/-! ## From the file to the settings -/

mutual
theorem asRead_raw : ∀ v : Value Bytes, asRead (rawMessage v) = v
  | .null => rfl
  | .bool _ => rfl
  | .num _ => rfl
  | .str _ => rfl
  | .arr xs => by rw [rawMessage, asRead, asReadElems_raw xs]
  | .obj ms => by rw [rawMessage, asRead, asReadMembers_raw ms]
theorem asReadElems_raw : ∀ xs : List (Value Bytes), asReadElems (Config.rawElems xs) = xs
  | [] => by rw [Config.rawElems]; rfl
  | x :: xs => by rw [Config.rawElems, asReadElems, asRead_raw x, asReadElems_raw xs]
theorem asReadMembers_raw : ∀ ms : List (Bytes × Value Bytes), asReadMembers (Config.rawMembers ms) = ms
  | [] => by rw [Config.rawMembers]; rfl
  | (k, v) :: ms => by rw [Config.rawMembers, asReadMembers, asRead_raw v, asReadMembers_raw ms]
end

theorem asReadMembers_eq : ∀ ms : List (Bytes × Json), asReadMembers ms = ms.map fun m => (m.1, asRead m.2)
  | [] => rfl
  | m :: ms => by rw [asReadMembers, asReadMembers_eq ms]; rfl

theorem said_filter (name : Bytes) : ∀ ms : List (Bytes × Value Bytes),
    said name ms = (ms.filter fun m => inSmall m.1 == name).map (·.2)
  | [] => rfl
  | m :: ms => by
    have ih := said_filter name ms
    rw [said] at ih ⊢
    by_cases h : inSmall m.1 = name
    · rw [List.filterMap_cons, if_pos h, List.filter_cons_of_pos (by simp [h]), ih]
      rfl
    · rw [List.filterMap_cons, if_neg h, List.filter_cons_of_neg (by simp [h]), ih]

theorem said_asRead (name : Bytes) (ms : List (Bytes × Json)) :
    said name (asReadMembers ms) = (ms.filter fun m => inSmall m.1 == name).map fun m => asRead m.2 := by
  rw [said_filter, asReadMembers_eq, List.filter_map, List.map_map]
  rfl

/-- A setting that occurs at most once, in small letters. -/
theorem once_said {name : Bytes} (hs : inSmall name = name) {ms : List (Bytes × Value Bytes)} (h : OnceSaid name ms) :
    said name ms = (valueOf name ms).toList := by
  rw [said_filter, valueOf]
  have e : (ms.filter fun m => m.1 == name) = ms.filter fun m => inSmall m.1 == name := by
    refine List.filter_congr fun m hm => ?_
    by_cases hk : m.1 = name
    · rw [hk, hs]
    · have : ¬ inSmall m.1 = name := fun hi => hk (h.2 m hm hi)
      rw [beq_eq_false_iff_ne.2 hk, beq_eq_false_iff_ne.2 this]
  rw [e]
  have hl := h.1
  generalize (ms.filter fun m => inSmall m.1 == name) = l at hl
  match l, hl with
  | [], _ => rfl
  | [x], _ => rfl
  | _ :: _ :: _, hl => exact absurd hl (by simp)

theorem valueOf_nil (name : Bytes) : valueOf name [] = none := rfl

theorem said_merge {name : Bytes} (hs : inSmall name = name) {own glob : List (Bytes × Value Bytes)} (ho : OnceSaid name own)
    (hg : OnceSaid name glob) : said name (asReadMembers ((Config.mergeVals (Config.toMap (Config.rawMembers glob))
      (Config.toMap (Config.rawMembers own))).foldr Config.insertMember [])) = settingOf name own glob := by
  have len : ∀ ms : List (Bytes × Value Bytes), ((Config.rawMembers ms).filter fun e => inSmall e.1 == name).length =
      (ms.filter fun m => inSmall m.1 == name).length := by
    intro ms
    rw [Config.rawMembers_eq, List.filter_map, List.length_map]
    rfl
  have keys : ∀ ms : List (Bytes × Value Bytes), (∀ m ∈ ms, inSmall m.1 = name → m.1 = name) →
      ∀ e ∈ Config.rawMembers ms, (inSmall e.1 == name) = true → e.1 = name := by
    intro ms h e he hk
    rw [Config.rawMembers_eq] at he
    obtain ⟨m, hm, rfl⟩ := List.mem_map.1 he
    exact h m hm (beq_iff_eq.1 hk)
  have hh := Config.hits_merge (P := fun k => inSmall k == name) (key := name) (rm := Config.rawMembers own) (gm := Config.rawMembers glob)
    (by rw [len]; exact ho.1) (keys own ho.2) (by rw [len]; exact hg.1) (keys glob hg.2)
  rw [said_asRead, hh]
  have back : ∀ ms : List (Bytes × Value Bytes), ((Config.rawMembers ms).filter fun e => inSmall e.1 == name).map (fun m => asRead m.2) =
      said name ms := by
    intro ms
    rw [← said_asRead, asReadMembers_raw]
  have some_iff : ((Config.rawMembers own).any fun e => inSmall e.1 == name) = true ↔ said name own ≠ [] := by
    rw [← back own]
    rw [List.any_eq_true]
    constructor
    · rintro ⟨e, he, hk⟩ hn
      have h1 : e ∈ (Config.rawMembers own).filter fun e => inSmall e.1 == name := List.mem_filter.2 ⟨he, hk⟩
      have := List.mem_map_of_mem (f := fun m : Bytes × Json => asRead m.2) h1
      rw [hn] at this
      cases this
    · intro hn
      cases hf : (Config.rawMembers own).filter fun e => inSmall e.1 == name with
      | nil => rw [hf] at hn; exact absurd rfl hn
      | cons e es =>
        have : e ∈ (Config.rawMembers own).filter fun e => inSmall e.1 == name := by rw [hf]; exact List.mem_cons_self
        exact ⟨e, (List.mem_filter.1 this).1, (List.mem_filter.1 this).2⟩
  rw [settingOf]
  split
  · rename_i h
    have h := some_iff.1 h
    rw [back, once_said hs ho]
    rw [once_said hs ho] at h
    cases hv : valueOf name own with
    | none => rw [hv] at h; exact absurd rfl h
    | some v => rfl
  · rename_i h
    have h := fun hn => h (some_iff.2 hn)
    rw [back, once_said hs hg]
    rw [once_said hs ho] at h
    cases hv : valueOf name own with
    | none => rfl
    | some v => rw [hv] at h; exact absurd (by simp) h

/-- **C75**, from the text of the configuration file: what the version control system of a repository is told under a name is the
repository's own setting, or else the global one; for settings written at most once, in small letters. -/
theorem setting_from_file {cwd filename text dir : Bytes} {L : Loaded} (h : Config.loadFromFile cwd filename (some text) = .ok (dir, L))
    {n : Bytes} {r : Repo} (hr : (n, r) ∈ L.repos) :
    ∃ v rms, JsonText.goRead text = some v ∧ reposSaid (objectMembers v) n = some (.obj rms) ∧ RepoAsSaid (objectMembers v) rms r ∧
      ∀ name, inSmall name = name → OnceSaid name (ownSettings rms) → OnceSaid name (globalSettings (objectMembers v) (vcsOf rms)) →
        said name (settingsIn r.vcsConfigMessage) =
          settingOf name (ownSettings rms) (globalSettings (objectMembers v) (vcsOf rms)) := by
  obtain ⟨v, c, hv, hrd, -, hL, -⟩ := Config.loadFromFile_ok h
  have hc := Config.config_read hrd
  obtain ⟨-, -, l3⟩ := Config.load_repos hL
  obtain ⟨r0, hmem, hmerged⟩ := l3 n r hr
  have hlook := (Config.mem_iff_lookup hc.repoNames).1 hmem
  rw [(hc.repos n).1] at hlook
  obtain ⟨rv, hrv, hrr⟩ := Option.bind_eq_some_iff.1 hlook
  obtain ⟨rms, rfl, hread⟩ := Config.readRepo_obj hrr
  have hrr := Config.repo_read hread
  refine ⟨v, rms, hv, hrv, Config.repo_as_said hc hrr hmerged, ?_⟩
  intro name hs ho hg
  obtain ⟨⟨m, rfl⟩, hsame, hmerge⟩ := hmerged
  have hvcs : (Config.initRepo r0).vcs = vcsOf rms := by rw [vcsOf, ← hrr.vcs]; rfl
  have hmsg : (Config.initRepo r0).vcsConfigMessage = (valueSaid (said b!"vcs-config" rms)).map rawMessage := hrr.message
  have hvs : c.conf.vcsConfigMessages.lookup (Config.initRepo r0).vcs = (vcsSaid (objectMembers v) (vcsOf rms)).map Config.readMessage := by
    rw [hvcs]; exact hc.vcsConfig _
  cases hvc : vcsSaid (objectMembers v) (vcsOf rms) with
  | none =>
    have e := hsame (.inr (by rw [hvs, hvc]; rfl))
    have e2 : m = (valueSaid (said b!"vcs-config" rms)).map rawMessage := by
      rw [← hmsg]; exact congrArg (·.vcsConfigMessage) e
    subst e2
    have : settingsIn ((valueSaid (said b!"vcs-config" rms)).map rawMessage) = ownSettings rms := by
      rw [ownSettings]
      cases valueSaid (said b!"vcs-config" rms) with
      | none => rfl
      | some j => simp only [Option.map_some, settingsIn, Option.elim_some, asRead_raw]
    show said name (settingsIn ((valueSaid (said b!"vcs-config" rms)).map rawMessage)) = _
    rw [this, once_said hs ho, settingOf, globalSettings, hvc]
    simp only [Option.elim_none, valueOf_nil, Option.or_none]
  | some gv =>
    obtain ⟨g, gm, j, hone, hgm, hk, hshape, hj, hm⟩ := hmerge _ (by rw [hvs, hvc]; rfl)
    simp only at hm
    subst hm
    rw [globalSettings, hvc] at hg ⊢
    simp only [Option.elim_some] at hg ⊢
    obtain ⟨gms, rfl, rfl⟩ : ∃ gms, gv = .obj gms ∧ g = Config.toMap (Config.rawMembers gms) := by
      cases gv with
      | null => cases hgm
      | obj gms =>
        refine ⟨gms, rfl, ?_⟩
        obtain rfl := Option.some.inj (show some (rawMessage (.obj gms)) = some gm from hgm)
        rcases hshape with ⟨members, h1, h2⟩ | ⟨h1, -⟩
        · rw [rawMessage] at h1
          cases h1
          exact h2
        · rw [rawMessage] at h1; cases h1
      | _ =>
        obtain rfl := Option.some.inj hgm
        rcases hshape with ⟨members, h1, h2⟩ | ⟨h1, -⟩ <;> simp [rawMessage] at h1
    rw [hmsg] at hj
    simp only [objectMembers] at hg ⊢
    cases hvv : valueSaid (said b!"vcs-config" rms) with
    | none =>
      rw [ownSettings, hvv] at ho ⊢
      rw [hvv] at hj
      simp only [Option.map_none, Config.mergeMessage, Except.ok.injEq] at hj
      subst hj
      have hm := said_merge hs ho hg
      simp only [Option.elim_none] at hm ⊢
      rw [← hm]
      rfl
    | some ov =>
      rw [ownSettings, hvv] at ho ⊢
      rw [hvv] at hj
      cases ov with
      | null => exact absurd rfl (Config.valueSaid_says hvv)
      | obj oms =>
        simp only [Option.map_some, rawMessage, Config.mergeMessage, Config.unmarshalMap, Except.ok.injEq] at hj
        subst hj
        simp only [Option.elim_some, objectMembers] at ho ⊢
        rw [← said_merge hs ho hg]
        rfl
      | _ => simp [rawMessage, Config.mergeMessage, Config.unmarshalMap] at hj

/-! ## What is run, and where -/

variable {W : Type}

theorem pathSplit_at {par rep : Bytes} (h : (47 : UInt8) ∉ rep) : pathSplit (par ++ 47 :: rep) = (par ++ [47], rep) := by
  unfold pathSplit
  rw [lastIndexByte_append _ _ h]
  have : par.take (par.length + 1) = par := List.take_of_length_le (by omega)
  simp [List.take_append, List.drop_append, this]

/-- **C75**, Mercurial, Subversion (with the user name and password of the settings) and Bazaar: a copy that is there is updated, one
that is not there is made in its parent directory; if this succeeds, and only then, the revision is asked for in the copy. -/
theorem tool_commands {d : Driver} {pull head : List Bytes} {clone : Bytes → Bytes → List Bytes} (ht : ToolCommands d pull clone head)
    (os : Os W) (H : Bytes → Bytes) (w : W) (par name url : Bytes) (hn : (47 : UInt8) ∉ name) :
    let dir := par ++ 47 :: name
    let x := os.sh w (if os.present w dir then ⟨dir, pull⟩ else ⟨par ++ [47], clone url name⟩)
    let y := os.sh x.2 ⟨dir, head⟩
    d.pullOrClone os H w dir url =
      if x.1.2 then (if y.1.2 then some (Api.trimSpace y.1.1) else none, y.2) else (none, x.2) := by
  intro dir x y
  have key : ∀ s : Simple, s.pull = pull → s.clone = clone → s.head = head →
      Vcs.pullOrClone os.present (simplePull s os.sh) (simpleClone s os.sh) w dir url =
        if x.1.2 then (if y.1.2 then some (Api.trimSpace y.1.1) else none, y.2) else (none, x.2) := by
    rintro s rfl rfl rfl
    simp only [Vcs.pullOrClone, simplePull, simpleClone, headRevBy, dir, pathSplit_at hn, x, y]
    split <;> rfl
  cases ht with
  | hg => exact key Vcs.hg rfl rfl rfl
  | svn d => exact key (Vcs.svn d.username d.password) rfl rfl rfl
  | bzr => exact key Vcs.bzr rfl rfl rfl

/-- A subversion copy that is not there: it is checked out with the user name and the password, then its version is asked for. -/
example : (Driver.pullOrClone (W := List Cmd) ⟨logSh fun _ _ => (b!"7\n", true), fun _ _ => false, fun _ _ => ([], true),
    fun w _ _ => (true, w), fun _ _ => ([], fun _ => none)⟩ id (.svn ⟨b!"me", b!"pw"⟩) [] (b!"/d" ++ 47 :: b!"c") b!"u") =
    (some b!"7", [⟨b!"/d/", [b!"svn", b!"checkout", b!"--ignore-externals", b!"--username", b!"me", b!"--password", b!"pw", b!"u", b!"c"]⟩,
      ⟨b!"/d/c", [b!"svnversion"]⟩]) := by decide +kernel

/-- **C75**, local directories: a copy that is not there is made as a link to the directory of the url; if there is no such link, there is no
revision. Other urls do nothing. -/
theorem local_link (d : LocalDriver) (os : Os W) (H : Bytes → Bytes) (w : W) (dir : Bytes) (h : os.present w dir = false) :
    (∀ path, let r := os.link w path dir
      (Driver.local_ d).pullOrClone os H w dir (b!"file://" ++ path) = if r.1 then (Driver.local_ d).pull os H r.2 dir else (none, r.2)) ∧
    ∀ url, ¬ b!"file://" <+: url → (Driver.local_ d).pullOrClone os H w dir url = (none, w) := by
  constructor
  · intro path
    simp [Driver.pullOrClone, Vcs.pullOrClone, h, Driver.clone, localCloneTarget]
  · intro url hu
    simp [Driver.pullOrClone, Vcs.pullOrClone, h, Driver.clone, localCloneTarget, hu]

example : localCloneTarget b!"file:///src" = some b!"/src" ∧ localCloneTarget b!"/src" = none := by decide

theorem hexDigit_noSlash : ∀ n, n < 16 → hexDigit n ≠ 47 := by decide

theorem hexOf_noSlash : ∀ b : Bytes, (47 : UInt8) ∉ hexOf b
  | [] => by simp [hexOf]
  | c :: cs => by
    rw [hexOf, List.mem_cons, List.mem_cons, not_or, not_or]
    have := c.toNat_lt
    exact ⟨fun h => hexDigit_noSlash _ (by omega) h.symm, fun h => hexDigit_noSlash _ (by omega) h.symm, hexOf_noSlash cs⟩

theorem vcsDirFor_proper (H : Bytes → Bytes) (url : Bytes) : Path.Proper (vcsDirFor H url) := by
  refine ⟨by simp [vcsDirFor], by simp [vcsDirFor], by simp [vcsDirFor], ?_⟩
  rw [vcsDirFor, List.mem_append, not_or]
  exact ⟨by decide, hexOf_noSlash _⟩

theorem hexDigit_text : ∀ n, n < 16 → hexDigit n = (b!"0123456789abcdef").getD n 0 := by decide

theorem hexOf_text : ∀ b : Bytes, hexOf b = hexText b
  | [] => rfl
  | c :: cs => by
    have := c.toNat_lt
    rw [hexOf, hexDigit_text _ (by omega), hexDigit_text _ (by omega), hexOf_text cs]
    rfl

/-- **C75**, the directory of the working copy: directly in the data directory. -/
theorem workdir_exact {dbpath : Bytes} (hdb : FromRoot dbpath) (H : Bytes → Bytes) (url : Bytes) :
    Path.join dbpath (vcsDirFor H url) = absolutePath (follow [] (pathNames dbpath) ++ [b!"vcs-" ++ hexText (H url)]) := by
  rw [← hexOf_text]
  have hp := vcsDirFor_proper H url
  obtain ⟨t, rfl⟩ := hdb
  have hroot : FromRoot (47 :: t ++ Path.SL :: vcsDirFor H url) := ⟨t ++ Path.SL :: vcsDirFor H url, rfl⟩
  rw [Path.join_eq _ (by simp), Path.clean_abs hroot, Path.pathNames_append_sl,
    Path.pathNames_name _ hp.2.2.2, Path.follow_append, Path.follow_down hp]
  rfl

theorem absolutePath_snoc (place : List Bytes) (n : Bytes) :
    absolutePath (place ++ [n]) = (place.flatMap fun n => 47 :: n) ++ 47 :: n := by
  rw [absolutePath, if_neg (by simp)]
  simp

/-- **C75**, repositories with different urls have different working copies, unless their hashes collide. -/
theorem own_copies {dbpath : Bytes} (hdb : FromRoot dbpath) (H : Bytes → Bytes) (url url' : Bytes) :
    Path.join dbpath (vcsDirFor H url) = Path.join dbpath (vcsDirFor H url') ↔ H url = H url' := by
  constructor
  · intro h
    rw [workdir_exact hdb, workdir_exact hdb, absolutePath_snoc, absolutePath_snoc] at h
    have h := List.cons.inj (List.append_cancel_left h)
    rw [← hexOf_text, ← hexOf_text] at h
    exact hexOf_inj (List.append_cancel_left h.2)
  · intro h
    rw [vcsDirFor, vcsDirFor, h]

example : Path.join b!"/srv/x/data" (vcsDirFor id b!"ab") = b!"/srv/x/data/vcs-6162" := by decide +kernel

/-- **C75**: without a version control system that accepts the settings there is no searcher, and nothing is run. -/
theorem unusable_settings {r : Repo} (h : ¬ DriverUsable r.vcsConfigMessage r.vcs) (os : Os W) (H : Bytes → Bytes) (dbpath : Bytes) (w : W) :
    startSearcher os H dbpath r w = (none, w) := by
  rw [startSearcher]
  cases hd : newDriver r.vcs r.vcsConfigMessage with
  | none => rfl
  | some d => exact absurd ((driver_accepted_iff _ _).1 ⟨d, hd⟩) h

example : ¬ DriverUsable none b!"cvs" := by
  intro h
  cases h

/-- What is started, for settings that are accepted. -/
theorem start_pair {r : Repo} {d : Driver} (hd : newDriver r.vcs r.vcsConfigMessage = some d) (os : Os W) (H : Bytes → Bytes)
    (dbpath : Bytes) (w : W) :
    let p := d.pullOrClone os H w (Path.join dbpath (vcsDirFor H r.url)) r.url
    (startSearcher os H dbpath r w).2 = p.2 ∧ ((startSearcher os H dbpath r w).1.map fun m => m.2.rev) = p.1 ∧
      ∀ m i, (startSearcher os H dbpath r w).1 = some (m, i) → m.driver = d ∧ m.url = r.url ∧
        m.dir = Path.join dbpath (vcsDirFor H r.url) ∧ m.opt = ⟨r.excludeDotFiles, d.specialFiles⟩ ∧ i.opt = m.opt ∧
        i.autoFiles = m.autoFiles ∧ i.world = p.2 ∧ m.autoFiles = (if 0 < r.autoGeneratedFiles.length then r.autoGeneratedFiles
          else d.autoGeneratedFiles os p.2 (Path.join dbpath (vcsDirFor H r.url))) := by
  intro p
  rw [startSearcher, hd]
  simp only
  cases hp : (d.pullOrClone os H w (Path.join dbpath (vcsDirFor H r.url)) r.url).1 with
  | none => exact ⟨rfl, rfl, fun m i h => by cases h⟩
  | some rev =>
    refine ⟨rfl, rfl, fun m i h => ?_⟩
    cases h
    exact ⟨rfl, rfl, rfl, rfl, rfl, rfl, rfl, rfl⟩

/-- **C75**, end to end for git: with a configured branch `b` (the repository's own setting, or else the global one) the copy in the
repository's directory is made if it is not there, and then brought to this branch of the remote, whatever the commands answer. -/
theorem configured_branch {cwd filename text dir : Bytes} {L : Loaded} (h : Config.loadFromFile cwd filename (some text) = .ok (dir, L))
    {n : Bytes} {r : Repo} (hr : (n, r) ∈ L.repos) :
    ∃ v rms, JsonText.goRead text = some v ∧ reposSaid (objectMembers v) n = some (.obj rms) ∧
      ∀ b, vcsOf rms = b!"git" → DriverUsable r.vcsConfigMessage r.vcs → OnceSaid b!"ref" (ownSettings rms) →
        OnceSaid b!"ref" (globalSettings (objectMembers v) (vcsOf rms)) →
        b = textSaid (settingOf b!"ref" (ownSettings rms) (globalSettings (objectMembers v) (vcsOf rms))) → b ≠ [] →
        ∀ (os : Os (List Cmd)) (ans : List Cmd → Cmd → Bytes × Bool) (H : Bytes → Bytes) (w : List Cmd), os.sh = logSh ans →
        FromRoot dir →
        let place := follow [] (pathNames dir)
        let name := b!"vcs-" ++ hexText (H (textSaid (said b!"url" rms)))
        let copy := absolutePath (place ++ [name])
        let make : Cmd := ⟨(place.flatMap fun n => 47 :: n) ++ [47], [b!"git", b!"clone", b!"--depth", b!"1",
          textSaid (said b!"url" rms), name]⟩
        let update : List Cmd := [⟨copy, [b!"git", b!"fetch", b!"--prune", b!"--no-tags", b!"--depth", b!"1", b!"origin",
            b!"+" ++ b ++ b!":remotes/origin/" ++ b]⟩, ⟨copy, [b!"git", b!"reset", b!"--hard", b!"origin/" ++ b]⟩,
            ⟨copy, [b!"git", b!"rev-parse", b!"HEAD"]⟩]
        (startSearcher os H dir r w).2 =
          if os.present w copy then w ++ update
          else if (ans w make).2 then w ++ [make] ++ update else w ++ [make] := by
  obtain ⟨v, rms, hv, hrep, has, hset⟩ := setting_from_file h hr
  refine ⟨v, rms, hv, hrep, ?_⟩
  intro b hgit huse ho hg hb hne os ans H w hos hdir place name copy make update
  obtain ⟨d, hd⟩ := (driver_accepted_iff _ _).2 huse
  have hda := driver_exact hd
  rw [has.vcs, hgit] at hda
  have hs := hset b!"ref" (by decide) ho hg
  cases hda with
  | git =>
    rw [hs, ← hb] at hd
    have hcopy : Path.join dir (vcsDirFor H r.url) = copy := by rw [workdir_exact hdir, has.url]
    have hpull : ∀ w' : List Cmd, (gitPull ⟨flagSaid (said b!"detect-ref" (settingsIn r.vcsConfigMessage)), b⟩ (logSh ans) w' copy).2 =
        w' ++ update := by
      intro w'
      obtain ⟨ref, hsel, e⟩ := git_pull_commands ⟨flagSaid (said b!"detect-ref" (settingsIn r.vcsConfigMessage)), b⟩ ans w' copy
      rw [if_neg (fun hh => hne hh.1), List.append_nil] at e
      cases hsel with
      | configured => exact e
      | detected h0 => exact absurd h0 hne
      | default h0 => exact absurd h0 hne
    obtain ⟨hw, -⟩ := start_pair hd os H dir w
    rw [hw, hcopy]
    simp only [Driver.pullOrClone, Vcs.pullOrClone, Driver.pull, Driver.clone, hos]
    split
    · exact hpull w
    · have hsp : pathSplit copy = ((place.flatMap fun n => 47 :: n) ++ [47], name) := by
        show pathSplit (absolutePath (place ++ [name])) = _
        rw [absolutePath_snoc]
        refine pathSplit_at ?_
        show _ ∉ b!"vcs-" ++ hexText _
        rw [← hexOf_text]
        exact (vcsDirFor_proper H (textSaid (said b!"url" rms))).2.2.2
      have hm : (⟨(pathSplit copy).1, [b!"git", b!"clone", b!"--depth", b!"1", r.url, (pathSplit copy).2]⟩ : Cmd) = make := by
        rw [hsp, has.url]
      rw [gitClone]
      simp only [hm]
      have e1 : (logSh ans w make).1.2 = (ans w make).2 := rfl
      rw [e1]
      split
      · exact hpull (w ++ [make])
      · rfl

/-- A file with a global and an own branch. -/
def branchText : Bytes := b!"{\"dbpath\": \"/d\", \"vcs-config\": {\"git\": {\"ref\": \"main\"}}, \"repos\": {\"A\": {\"url\": \"u\", \"vcs-config\": {\"ref\": \"dev\"}}}}"

/-- The hypotheses of `configured_branch` hold for it: the branch is `dev`. -/
example : ∃ L r v rms, Config.loadFromFile b!"/" b!"/c" (some branchText) = .ok (b!"/d", L) ∧ (b!"A", r) ∈ L.repos ∧
    JsonText.goRead branchText = some v ∧ reposSaid (objectMembers v) b!"A" = some (.obj rms) ∧ vcsOf rms = b!"git" ∧
    DriverUsable r.vcsConfigMessage r.vcs ∧ OnceSaid b!"ref" (ownSettings rms) ∧
    OnceSaid b!"ref" (globalSettings (objectMembers v) (vcsOf rms)) ∧
    textSaid (settingOf b!"ref" (ownSettings rms) (globalSettings (objectMembers v) (vcsOf rms))) = b!"dev" := by
  refine ⟨_, _, _, _, rfl, List.mem_singleton.2 rfl, rfl, rfl, rfl, ?_, ?_, ?_, rfl⟩
  · exact (driver_accepted_iff _ _).1 ⟨.git ⟨false, b!"dev"⟩, rfl⟩
  · refine ⟨by decide +kernel, ?_⟩
    intro m hm _
    rcases List.mem_singleton.1 (show m ∈ [(b!"ref", Value.str b!"dev")] from hm) with rfl
    rfl
  · refine ⟨by decide +kernel, ?_⟩
    intro m hm _
    rcases List.mem_singleton.1 (show m ∈ [(b!"ref", Value.str b!"main")] from hm) with rfl
    rfl

/-! ## The data of the version control system is not searched -/

theorem under_special {opt : IndexOptions} {R : Bool → Prop} {top : Bytes} {n : FsNode} {path : List Bytes} {last : Bytes} {m : FsNode}
    (h : Under opt R top n path last m) (hl : last ∉ opt.specialFiles) : ∀ c ∈ top :: path, c ∉ opt.specialFiles := by
  induction h with
  | here => intro c hc; rw [List.mem_singleton.1 hc]; exact hl
  | step ht _ _ _ ih =>
    intro c hc
    rcases List.mem_cons.1 hc with rfl | hc
    · exact fun hs => ht (.inl hs)
    · exact ih hl c hc

theorem pathNames_relPath : ∀ path : List Bytes, path ≠ [] → (∀ c ∈ path, GoodName c) → pathNames (relPath path) = path
  | [], h, _ => absurd rfl h
  | [a], _, hg => Path.pathNames_name a (hg a (by simp)).2.1
  | a :: b :: t, _, hg => by
    rw [relPath]
    show pathNames (a ++ Path.SL :: relPath (b :: t)) = _
    rw [Path.pathNames_append_sl, Path.pathNames_name a (hg a (by simp)).2.1,
      pathNames_relPath (b :: t) (by simp) (fun c hc => hg c (List.mem_cons_of_mem _ hc))]
    rfl

theorem laterIndexes_made (os : Os W) (H : Bytes → Bytes) (m : Made) : ∀ (es : List (W → W)) (rev : Bytes) (w : W),
    ∀ i ∈ laterIndexes os H m rev w es, i.opt = m.opt ∧ i.autoFiles = m.autoFiles
  | [], _, _, i, hi => by cases hi
  | e :: es, rev, w, i, hi => by
    rw [laterIndexes] at hi
    split at hi
    · exact laterIndexes_made os H m es _ _ i hi
    · split at hi
      · exact laterIndexes_made os H m es _ _ i hi
      · rcases List.mem_cons.1 hi with rfl | hi
        · exact ⟨rfl, rfl⟩
        · exact laterIndexes_made os H m es _ _ i hi

/-- All indexes are built with the options found at the start. -/
theorem allIndexes_made {r : Repo} {d : Driver} (hd : newDriver r.vcs r.vcsConfigMessage = some d) (os : Os W) (H : Bytes → Bytes)
    (dbpath : Bytes) (w : W) (es : List (W → W)) :
    let p := d.pullOrClone os H w (Path.join dbpath (vcsDirFor H r.url)) r.url
    ∀ i ∈ allIndexes os H dbpath r w es, i.opt = ⟨r.excludeDotFiles, d.specialFiles⟩ ∧
      i.autoFiles = (if 0 < r.autoGeneratedFiles.length then r.autoGeneratedFiles
        else d.autoGeneratedFiles os p.2 (Path.join dbpath (vcsDirFor H r.url))) := by
  intro p i hi
  obtain ⟨-, -, hm⟩ := start_pair hd os H dbpath w
  rw [allIndexes] at hi
  match hs : startSearcher os H dbpath r w, hi with
  | (none, _), hi => cases hi
  | (some (m, i0), w'), hi =>
    obtain ⟨-, -, -, h4, h5, h6, -, h8⟩ := hm m i0 (by rw [hs])
    rcases List.mem_cons.1 hi with rfl | hi
    · exact ⟨h5.trans h4, h6.trans h8⟩
    · obtain ⟨e1, e2⟩ := laterIndexes_made os H m es _ _ i hi
      exact ⟨e1.trans h4, e2.trans h8⟩

/-- The index that is built after an update, if any. -/
def indexAfter (m : Made) (latest : Bytes) (p : Option Bytes × W) : List (Indexed W) :=
  match p.1 with
  | none => []
  | some new => if new = latest then [] else [⟨new, m.opt, m.autoFiles, p.2⟩]

theorem laterIndexes_snoc (os : Os W) (H : Bytes → Bytes) (m : Made) (e : W → W) {check : W → Option Bytes × W}
    (hck : ∀ w, m.driver.pullOrClone os H w m.dir m.url = check w) : ∀ (es : List (W → W)) (rev : Bytes) (w : W),
    laterIndexes os H m rev w (es ++ [e]) = laterIndexes os H m rev w es ++
      indexAfter m (((laterIndexes os H m rev w es).getLast?.map (·.rev)).getD rev) (check (e (afterChecks check w es)))
  | [], rev, w => by
    simp only [List.nil_append, laterIndexes, hck, afterChecks, indexAfter]
    rfl
  | e' :: es, rev, w => by
    have ih := fun rev w => laterIndexes_snoc os H m e hck es rev w
    rw [List.cons_append, laterIndexes, laterIndexes, afterChecks]
    simp only [hck]
    cases hc : (check (e' w)).1 with
    | none => exact ih rev _
    | some new =>
      simp only
      split
      · exact ih rev _
      · rw [ih new _, List.cons_append]
        cases hl : laterIndexes os H m new (check (e' w)).2 es with
        | nil => rfl
        | cons i is => simp only [List.getLast?_cons_cons]; rfl

/-- **C75**, updates: after each further event the working copy is updated as at the start, with the same url; an index is built exactly if
the revision reported is not that of the latest index, from the updated copy and labelled with it. -/
theorem next_index {r : Repo} {d : Driver} (hd : newDriver r.vcs r.vcsConfigMessage = some d) (os : Os W) (H : Bytes → Bytes)
    (dbpath : Bytes) (w : W) (es : List (W → W)) (e : W → W) :
    let check := fun w => d.pullOrClone os H w (Path.join dbpath (vcsDirFor H r.url)) r.url
    let p := check (e (afterChecks check (check w).2 es))
    let before := allIndexes os H dbpath r w es
    ((check w).1 = none → before = []) ∧ (∀ rev, (check w).1 = some rev →
      (before.map fun i => (i.rev, i.world)).head? = some (rev, (check w).2)) ∧
    (∀ latest, before.getLast? = some latest → (allIndexes os H dbpath r w (es ++ [e])).map (fun i => (i.rev, i.world)) =
      before.map (fun i => (i.rev, i.world)) ++
        match p.1 with
        | none => []
        | some new => if new = latest.rev then [] else [(new, p.2)]) := by
  intro check p before
  obtain ⟨h1, h2, hm⟩ := start_pair hd os H dbpath w
  match hs : startSearcher os H dbpath r w with
  | (none, w') =>
    have hb : ∀ es, allIndexes os H dbpath r w es = [] := fun es => by rw [allIndexes, hs]
    rw [hs] at h2
    have h2 : none = (check w).1 := h2
    refine ⟨fun _ => hb es, fun rev hr => ?_, fun latest hl => ?_⟩
    · rw [← h2] at hr; cases hr
    · have hl : (allIndexes os H dbpath r w es).getLast? = some latest := hl
      rw [hb] at hl; cases hl
  | (some (m, i), w') =>
    have hb : ∀ es, allIndexes os H dbpath r w es = i :: laterIndexes os H m i.rev w' es := fun es => by rw [allIndexes, hs]
    rw [hs] at h1 h2
    have h1 : w' = (check w).2 := h1
    have h2 : some i.rev = (check w).1 := h2
    obtain ⟨k1, k2, k3, -, -, -, k7, -⟩ := hm m i (by rw [hs])
    have hck : ∀ w, m.driver.pullOrClone os H w m.dir m.url = check w := fun w => by rw [k1, k2, k3]
    refine ⟨fun hn => ?_, fun rev hr => ?_, fun latest hl => ?_⟩
    · rw [← h2] at hn; cases hn
    · rw [← h2] at hr
      cases hr
      show ((allIndexes os H dbpath r w es).map _).head? = _
      rw [hb, List.map_cons, List.head?_cons, k7]
    · have hl : (allIndexes os H dbpath r w es).getLast? = some latest := hl
      show _ = List.map _ (allIndexes os H dbpath r w es) ++ _
      rw [hb, hb, laterIndexes_snoc os H m e hck es i.rev w', h1]
      have hlast : (((laterIndexes os H m i.rev (check w).2 es).getLast?.map (·.rev)).getD i.rev) = latest.rev := by
        rw [hb, h1] at hl
        cases hx : laterIndexes os H m i.rev (check w).2 es with
        | nil => rw [hx] at hl; cases hl; rfl
        | cons a t => rw [hx, List.getLast?_cons_cons] at hl; rw [hl]; rfl
      rw [hlast, List.map_cons, List.map_cons, List.map_append, List.cons_append]
      show _ = _ :: (_ ++ match (check (e (afterChecks check (check w).2 es))).1 with
        | none => []
        | some new => if new = latest.rev then [] else [(new, (check (e (afterChecks check (check w).2 es))).2)])
      rw [indexAfter]
      cases (check (e (afterChecks check (check w).2 es))).1 with
      | none => rfl
      | some new => simp only; split <;> rfl

/-- **C75**: no name on the way to a file that can be searched, or that is listed as excluded, is one of the version control system's own
(or to be ignored by the settings), in any index that is ever built. -/
theorem own_files_hidden {r : Repo} {d : Driver} (hd : newDriver r.vcs r.vcsConfigMessage = some d) (os : Os W) (H : Bytes → Bytes)
    (dbpath : Bytes) (w : W) (es : List (W → W)) {i : Indexed W} (hi : i ∈ allIndexes os H dbpath r w es)
    {cfg : IWConfig} (hc : 0 < cfg.npost) {rootName : Bytes} {readable : Bool} {entries : FsForest} {built : BuiltDir}
    (hn : WellNamed (.dir readable entries)) (hb : indexAllFiles cfg i.opt rootName (.dir readable entries) = .ok built) {rel : Bytes}
    (hrel : Searchable built rel ∨ ∃ reason, (rel, reason) ∈ built.excluded) :
    ∀ c ∈ pathNames rel, c ∉ ownFiles d := by
  have hopt := (allIndexes_made hd os H dbpath w es i hi).1
  have hsp : i.opt.specialFiles = ownFiles d := by rw [hopt]; cases d <;> rfl
  obtain ⟨a1, a2⟩ := accounted_sound hc hn hb
  have done : ∀ path name m, rel = relPath path → Under i.opt (· = true) rootName (.dir readable entries) path name m → m.isDir = false →
      name ∉ i.opt.specialFiles → ∀ c ∈ pathNames rel, c ∉ ownFiles d := by
    intro path name m he hu hm hs c hcm
    have hgood := under_good hn hu
    have hne : path ≠ [] := by
      rintro rfl
      cases hu
      cases hm
    rw [he, pathNames_relPath path hne hgood] at hcm
    rw [← hsp]
    exact under_special hu hs c (List.mem_cons_of_mem _ hcm)
  rcases hrel with hrel | ⟨reason, hrel⟩
  · obtain ⟨path, name, fr, he, hu, hl, -⟩ := a1 rel hrel
    exact done path name _ he hu rfl (fun hs => hl (.inl hs))
  · obtain ⟨path, name, m, he, hu, hf, hs, -⟩ := a2 rel reason hrel
    refine done path name m he hu ?_ hs
    cases m <;> first | rfl | cases hf

/-! ## C76: the marks of generated files -/

/-- The full statement of **C76**: unless files are configured, the files an index of a git repository marks as generated are those git marks in
the working copy the index is built from. It is false (`not_marksFull`): the list is made once, at the start. -/
def MarksFull : Prop :=
  ∀ (W : Type) (os : Os W) (H : Bytes → Bytes) (dbpath : Bytes) (r : Repo) (w : W) (es : List (W → W)), r.vcs = b!"git" →
    r.autoGeneratedFiles = [] → ∀ i ∈ allIndexes os H dbpath r w es, ∀ rs, NulFree rs →
      os.attrs i.world (Path.join dbpath (vcsDirFor H r.url)) = (attrOutput rs, true) → i.autoFiles = generatedBy rs

/-- A world with two states; in the second one there is a generated file. -/
def exOs : Os Bool where
  sh := fun w _ => ((if w then b!"b\n" else b!"a\n", true), w)
  present := fun _ _ => true
  attrs := fun w _ => if w then (attrOutput [⟨b!"x.go", b!"linguist-generated", b!"true"⟩], true) else ([], true)
  link := fun w _ _ => (true, w)
  listing := fun _ _ => ([], fun _ => none)

/-- What is compared of an index. -/
theorem exOs_indexes : (allIndexes exOs id b!"/d" { url := b!"u", vcs := b!"git" } false [fun _ => true]).map
    (fun i => (i.rev, i.autoFiles, i.world)) = [(b!"a", [], false), (b!"b", [], true)] := by decide +kernel

/-- `next_index` at work: the second check finds the revision of the first index again. -/
example : (allIndexes exOs id b!"/d" { url := b!"u", vcs := b!"git" } false [fun _ => false, fun _ => true]).map
    (fun i => (i.rev, i.world)) = [(b!"a", false), (b!"b", true)] := by decide +kernel

theorem not_marksFull : ¬ MarksFull := by
  intro h
  have hx := exOs_indexes
  have h := h Bool exOs id b!"/d" { url := b!"u", vcs := b!"git" } false [fun _ => true] rfl rfl
  match hl : allIndexes exOs id b!"/d" { url := b!"u", vcs := b!"git" } false [fun _ => true], hx with
  | [], hx => simp at hx
  | [_], hx => simp at hx
  | _ :: _ :: _ :: _, hx => simp at hx
  | [i, j], hx =>
    simp only [List.map_cons, List.map_nil, List.cons.injEq, Prod.mk.injEq, and_true] at hx
    obtain ⟨-, -, h2, h3⟩ := hx
    have := h j (by rw [hl]; simp) [⟨b!"x.go", b!"linguist-generated", b!"true"⟩]
      (by intro x hx; rw [List.mem_singleton.1 hx]; exact ⟨by decide, by decide, by decide⟩) (by rw [h3]; rfl)
    rw [h2] at this
    revert this
    decide +kernel

/-- An index of that example, built from a tree with files in it, meets the hypotheses of `own_files_hidden`. -/
example : ∃ i ∈ allIndexes exOs id b!"/d" { url := b!"u", vcs := b!"git", excludeDotFiles := true } false [fun _ => true],
    ∃ built, indexAllFiles goConfig i.opt b!"r" sampleTree = .ok built ∧ WellNamed sampleTree := by
  have hne : (allIndexes exOs id b!"/d" { url := b!"u", vcs := b!"git", excludeDotFiles := true } false [fun _ => true]).length = 2 := by
    decide +kernel
  match hl : allIndexes exOs id b!"/d" { url := b!"u", vcs := b!"git", excludeDotFiles := true } false [fun _ => true], hne with
  | [i, j], _ =>
    refine ⟨i, by simp, ?_⟩
    obtain ⟨built, hb⟩ := sample_builds
    have := (allIndexes_made (r := { url := b!"u", vcs := b!"git", excludeDotFiles := true }) (d := .git ⟨false, []⟩) rfl exOs id b!"/d" false
      [fun _ => true] i (by rw [hl]; simp)).1
    refine ⟨built, ?_, sample_wellNamed⟩
    rw [this]
    exact hb

/-- **C76**, what holds: all indexes mark the configured files; without these, the files git marked in the working copy of the first
index (none if git failed). So the marks are right in the first index, and in the later ones as long as what git prints has not changed. -/
theorem marks_partial {r : Repo} (hv : r.vcs = b!"git") (os : Os W) (H : Bytes → Bytes) (dbpath : Bytes) (w : W) (es : List (W → W)) :
    (r.autoGeneratedFiles ≠ [] → ∀ i ∈ allIndexes os H dbpath r w es, i.autoFiles = r.autoGeneratedFiles) ∧
    (r.autoGeneratedFiles = [] → ∀ i0, (allIndexes os H dbpath r w es).head? = some i0 → ∀ rs, NulFree rs →
      os.attrs i0.world (Path.join dbpath (vcsDirFor H r.url)) = (attrOutput rs, true) →
      ∀ i ∈ allIndexes os H dbpath r w es, i.autoFiles = generatedBy rs) ∧
    (r.autoGeneratedFiles = [] → ∀ i0, (allIndexes os H dbpath r w es).head? = some i0 →
      (os.attrs i0.world (Path.join dbpath (vcsDirFor H r.url))).2 = false → ∀ i ∈ allIndexes os H dbpath r w es, i.autoFiles = []) := by
  cases hd : newDriver r.vcs r.vcsConfigMessage with
  | none =>
    have : allIndexes os H dbpath r w es = [] := by rw [allIndexes, startSearcher, hd]
    rw [this]
    exact ⟨(fun _ i hi => nomatch hi), (fun _ i0 h0 => nomatch h0), (fun _ i0 h0 => nomatch h0)⟩
  | some d =>
    have hall := allIndexes_made hd os H dbpath w es
    have hfirst : r.autoGeneratedFiles = [] → ∀ i0, (allIndexes os H dbpath r w es).head? = some i0 → ∀ i ∈ allIndexes os H dbpath r w es,
        i.autoFiles = if (os.attrs i0.world (Path.join dbpath (vcsDirFor H r.url))).2 then
          autoGenerated (os.attrs i0.world (Path.join dbpath (vcsDirFor H r.url))).1 else [] := by
      intro he i0 h0 i hi
      have hda := driver_exact hd
      rw [hv] at hda
      obtain ⟨g, rfl⟩ : ∃ g, d = .git g := by cases hda; exact ⟨_, rfl⟩
      have hw : i0.world = ((Driver.git g).pullOrClone os H w (Path.join dbpath (vcsDirFor H r.url)) r.url).2 := by
        obtain ⟨-, -, hm⟩ := start_pair hd os H dbpath w
        rw [allIndexes] at h0
        match hs : startSearcher os H dbpath r w, h0 with
        | (none, _), h0 => cases h0
        | (some (m, i1), w'), h0 =>
          obtain rfl := Option.some.inj h0
          exact (hm m i1 (by rw [hs])).2.2.2.2.2.2.1
      rw [(hall i hi).2, he, if_neg (by simp), ← hw, Driver.autoGeneratedFiles]
    refine ⟨?_, ?_, ?_⟩
    · intro hne i hi
      rw [(hall i hi).2, if_pos (List.length_pos_iff.2 hne)]
    · intro he i0 h0 rs hn ha i hi
      rw [hfirst he i0 h0 i hi, ha]
      simp only [if_true]
      exact autogen_exact_partial rs hn
    · intro he i0 h0 ha i hi
      rw [hfirst he i0 h0 i hi, ha]
      rfl

/-- The first index of the example above is marked rightly, and so is its second one if nothing changes. -/
example : (allIndexes exOs id b!"/d" { url := b!"u", vcs := b!"git" } true [id]).map (·.autoFiles) =
    [generatedBy [⟨b!"x.go", b!"linguist-generated", b!"true"⟩]] := by decide +kernel

/-- **C76**, in the answers: a file found is marked exactly if it is in the list the index was built with. -/
theorem marks_shown {r : Repo} (hv : r.vcs = b!"git") {os : Os W} {H : Bytes → Bytes} {dbpath : Bytes} {w : W} {es : List (W → W)}
    (hcfg : r.autoGeneratedFiles = []) {i0 i : Indexed W} (h0 : (allIndexes os H dbpath r w es).head? = some i0)
    (hi : i ∈ allIndexes os H dbpath r w es) {rs : List AttrRecord} (hn : NulFree rs)
    (ha : os.attrs i0.world (Path.join dbpath (vcsDirFor H r.url)) = (attrOutput rs, true))
    {Q : Type} {compile : Bytes → Option (Compiled Q)} {quoteMeta : Bytes → Bytes} {ix : IndexView Q}
    (hix : ix.autoGeneratedFiles = i.autoFiles) {pat : Bytes} {opt : SearchOptions} {res : SearchResponse}
    (hs : search compile quoteMeta ix pat opt = .ok res) :
    ∀ fm ∈ res.matches_, (fm.autoGenerated = true ↔
      ∃ a ∈ rs, a.path = fm.filename ∧ a.attr = b!"linguist-generated" ∧ a.info = b!"true") := by
  intro fm hfm
  obtain ⟨-, re, -, hall⟩ := search_sound_partial hs
  obtain ⟨f, -, -, hauto, -⟩ := hall fm hfm
  rw [hauto, hix, (marks_partial hv os H dbpath w es).2.1 hcfg i0 h0 rs hn ha i hi, generatedBy, List.mem_map]
  constructor
  · rintro ⟨a, ha, hp⟩
    have := of_decide_eq_true (List.mem_filter.1 ha).2
    exact ⟨a, (List.mem_filter.1 ha).1, hp, this.2, this.1⟩
  · rintro ⟨a, ha, hp, h1, h2⟩
    exact ⟨a, List.mem_filter.2 ⟨ha, decide_eq_true ⟨h2, h1⟩⟩, hp⟩

end Hound.Vcs
