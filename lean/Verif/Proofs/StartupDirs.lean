import Verif.Proofs.Startup
import Verif.Spec.Startup

namespace Hound.Up

/-- What holds until `MakeAll` returns, if every repository has a url. -/
structure Inv2 (urls : List Bytes) (s : St) : Prop where
  okDir : s.main ≠ .serving → ∀ (i d : Nat), s.ws[i]? = some (.ok d) →
    (∃ url rev c, urls[i]? = some url ∧ s.fs d = some ⟨some (url, rev), c⟩) ∧ (d ∈ s.claimed ∨ ∀ r ∈ s.refs, r.dir ≠ d)
  claimedRef : ∀ d ∈ s.claimed, ∃ r ∈ s.refs, r.dir = d
  left : ∀ l, s.main = .removing l → ∀ r ∈ l, r ∈ s.refs
  used : s.main ≠ .serving → ∀ d ∈ s.claimed, ∃ (i : Nat) (w : WPC), s.ws[i]? = some w ∧ d ∈ w.dirs

theorem readRef_eq {fs : FS} {d : Nat} {url rev : Bytes} (h : (⟨d, url, rev⟩ : Ref) = readRef fs d) (hu : url ≠ []) :
    ∃ c, fs d = some ⟨some (url, rev), c⟩ := by
  unfold readRef at h
  rcases hf : fs d with _ | ⟨m, c⟩
  · simp [hf] at h; exact absurd h.1 hu
  · rcases m with _ | ⟨u, v⟩
    · simp [hf] at h; exact absurd h.1 hu
    · simp [hf] at h; obtain ⟨rfl, rfl⟩ := h; exact ⟨c, rfl⟩

theorem Start.inv2 {urls : List Bytes} {fs : FS} {t : St} (hst : Start urls fs t) : Inv2 urls t := by
  have hw := hst.todo
  obtain ⟨a1, a2, a3, a4, a5⟩ := hst
  constructor
  · intro _ i d hi; simpa using hw i _ hi
  · simp [a3]
  · simp [a5]
  · simp [a3]

theorem Inv2.step {urls : List Bytes} {s t : St} {e : Ev} (hu : ∀ u ∈ urls, u ≠ []) (h : Inv urls s) (g : Inv2 urls s)
    (hs : Step urls s e t) : Inv2 urls t := by
  obtain ⟨h1, h2, h3, h4, h5, h6, h7, h8, h9⟩ := h
  obtain ⟨g1, g3, g4, g2⟩ := g
  cases hs
  case crash hst => exact hst.inv2
  case claim i url rev r a b c d =>
    have hm := List.mem_of_find?_eq_some d
    constructor <;> simp only [St.put, put_get a]
    case okDir => grind
    case claimedRef => grind
    case left => exact g4
    case used =>
      intro hv d hd
      rcases List.mem_cons.1 hd with rfl | hd
      · exact ⟨i, _, if_pos rfl, by simp [WPC.dirs]⟩
      · obtain ⟨j, w, hj, hw⟩ := g2 hv d hd
        by_cases hji : j = i
        · subst hji; rw [a] at hj; cases hj; simp [WPC.dirs] at hw
        · exact ⟨j, w, by rw [if_neg hji]; exact hj, hw⟩
  case openOk i rev d x a b c d1 d2 =>
    have hc : s.main = .collecting := (h3 i _ a rfl).resolve_right b
    constructor <;> simp only [St.put, put_get a]
    case claimedRef => exact g3
    case left => exact g4
    case okDir =>
      intro hv j e hj
      by_cases hji : j = i
      · subst hji
        rw [if_pos rfl] at hj; cases hj
        rcases h8 j rev d a with ⟨k1, url, k2, r, k3, rfl⟩ | ⟨k1, k2, k3⟩
        · obtain ⟨cc, hcc⟩ := readRef_eq (h2 hc _ k3).2 (hu url (List.mem_of_getElem? k2))
          exact ⟨⟨url, rev, cc, k2, hcc⟩, .inl k1⟩
        · rw [k1] at c; cases c
      · rw [if_neg hji] at hj; exact g1 hv j e hj
    case used =>
      intro hv d' hd
      obtain ⟨j, w, hj, hw⟩ := g2 hv d' hd
      by_cases hji : j = i
      · subst hji; rw [a] at hj; cases hj
        exact ⟨j, _, if_pos rfl, by simpa [WPC.dirs] using hw⟩
      · exact ⟨j, w, by rw [if_neg hji]; exact hj, hw⟩
  case openFails i rev d x a b c d1 =>
    have hc : s.main = .collecting := (h3 i _ a rfl).resolve_right b
    rcases h8 i rev d a with ⟨k1, url, k2, r, k3, rfl⟩ | ⟨k1, k2, k3⟩
    · obtain ⟨cc, hcc⟩ := readRef_eq (h2 hc _ k3).2 (hu url (List.mem_of_getElem? k2))
      rw [hcc] at c; cases c; simp at d1
    · rw [k1] at c; cases c
  case mkdir i rev d a b c =>
    constructor <;> simp only [St.put, put_get a, FS.set]
    case claimedRef => exact g3
    case left => exact g4
    case okDir => grind
    case used =>
      intro hv d' hd
      obtain ⟨j, w, hj, hw⟩ := g2 hv d' hd
      by_cases hji : j = i
      · subst hji; rw [a] at hj; cases hj
        exact ⟨j, _, if_pos rfl, by simpa [WPC.dirs] using hw⟩
      · exact ⟨j, w, by rw [if_neg hji]; exact hj, hw⟩
  case flush i rev d x a b c =>
    constructor <;> simp only [St.put, put_get a, FS.set]
    case claimedRef => exact g3
    case left => exact g4
    case okDir => grind [WPC.own, WPC.dirs]
    case used =>
      intro hv d' hd
      obtain ⟨j, w, hj, hw⟩ := g2 hv d' hd
      by_cases hji : j = i
      · subst hji; rw [a] at hj; cases hj
        exact ⟨j, _, if_pos rfl, by simpa [WPC.dirs] using hw⟩
      · exact ⟨j, w, by rw [if_neg hji]; exact hj, hw⟩
  case manifest i url rev d x a b c d' =>
    have hown := h6 i
    constructor <;> simp only [St.put, put_get a, FS.set]
    case claimedRef => exact g3
    case left => exact g4
    case okDir =>
      intro hv j e hj
      by_cases hji : j = i
      · subst hji
        rw [if_pos rfl] at hj; cases hj
        exact ⟨⟨url, rev, x.complete, c, if_pos rfl⟩, .inr (h7 j _ _ _ a)⟩
      · rw [if_neg hji] at hj
        have hne : e ≠ d := by
          intro he
          subst he
          exact hown j _ e _ a rfl hj hji (by simp [WPC.dirs])
        rw [if_neg hne]; exact g1 hv j e hj
    case used =>
      intro hv d' hd
      obtain ⟨j, w, hj, hw⟩ := g2 hv d' hd
      by_cases hji : j = i
      · subst hji; rw [a] at hj; cases hj
        exact ⟨j, _, if_pos rfl, by simpa [WPC.dirs] using hw⟩
      · exact ⟨j, w, by rw [if_neg hji]; exact hj, hw⟩
  case buildFails i rev d st a b =>
    have hnr := h7 i _ _ _ a
    constructor <;> simp only [St.put, put_get a]
    case claimedRef => exact g3
    case left => exact g4
    case okDir => grind
    case used =>
      intro hv d' hd
      obtain ⟨j, w, hj, hw⟩ := g2 hv d' hd
      by_cases hji : j = i
      · subst hji; rw [a] at hj; cases hj
        simp only [WPC.dirs, List.mem_singleton] at hw
        obtain ⟨r, hr, he⟩ := g3 d' hd
        exact absurd (he.trans hw) (hnr r hr)
      · exact ⟨j, w, by rw [if_neg hji]; exact hj, hw⟩
  case removePart r rs x m a b c d =>
    have hr := g4 _ a r (by simp)
    constructor
    case claimedRef => exact g3
    case left => exact g4
    case okDir =>
      intro hv j e hj
      obtain ⟨⟨url, rev, cc, k0, k1⟩, k2⟩ := g1 hv j e hj
      have hne : e ≠ r.dir := by
        intro he
        rcases k2 with h | h
        · exact b (he ▸ h)
        · exact h r hr he.symm
      exact ⟨⟨url, rev, cc, k0, by simp [FS.set, hne, k1]⟩, k2⟩
    case used => exact g2
  case remove r rs a b =>
    have hr := g4 _ a r (by simp)
    constructor
    case claimedRef => exact g3
    case left => intro l hl r' hr'; cases hl; exact g4 _ a r' (by simp [hr'])
    case okDir =>
      intro hv j e hj
      obtain ⟨⟨url, rev, cc, k0, k1⟩, k2⟩ := g1 (by simp [a]) j e hj
      have hne : e ≠ r.dir := by
        intro he
        rcases k2 with h | h
        · exact b (he ▸ h)
        · exact h r hr he.symm
      exact ⟨⟨url, rev, cc, k0, by simp [FS.set, hne, k1]⟩, k2⟩
    case used => intro _; exact g2 (by simp [a])
  case keep r rs a b =>
    have hr := g4 _ a r (by simp)
    constructor
    case claimedRef => exact g3
    case left => intro l hl r' hr'; cases hl; exact g4 _ a r' (by simp [hr'])
    case okDir => intro _; exact g1 (by simp [a])
    case used => intro _; exact g2 (by simp [a])
  case removeFails r rs a b =>
    exact ⟨fun _ => g1 (by simp [a]), g3, by simp, fun _ => g2 (by simp [a])⟩
  case collected a b =>
    refine ⟨fun _ => g1 (by simp [a]), g3, ?_, fun _ => g2 (by simp [a])⟩
    intro l hl r hr; cases hl; exact hr
  case serve a => exact ⟨by simp, g3, by simp, by simp⟩
  case openFatal i rev d x a b c d1 d2 =>
    have hc : s.main = .collecting := (h3 i _ a rfl).resolve_right b
    exact ⟨fun _ => g1 (by simp [hc]), g3, by simp, fun _ => g2 (by simp [hc])⟩
  case pullFails i a b =>
    constructor <;> simp only [St.put, put_get a]
    case claimedRef => exact g3
    case left => exact g4
    case okDir => grind
    case used =>
      intro hv d' hd
      obtain ⟨j, w, hj, hw⟩ := g2 hv d' hd
      by_cases hji : j = i
      · subst hji; rw [a] at hj; cases hj; simp [WPC.dirs] at hw
      · exact ⟨j, w, by rw [if_neg hji]; exact hj, hw⟩
  case pull i rev a b =>
    constructor <;> simp only [St.put, put_get a]
    case claimedRef => exact g3
    case left => exact g4
    case okDir => grind
    case used =>
      intro hv d' hd
      obtain ⟨j, w, hj, hw⟩ := g2 hv d' hd
      by_cases hji : j = i
      · subst hji; rw [a] at hj; cases hj; simp [WPC.dirs] at hw
      · exact ⟨j, w, by rw [if_neg hji]; exact hj, hw⟩
  case fresh i url rev d a b c e f =>
    constructor <;> simp only [St.put, put_get a]
    case claimedRef => exact g3
    case left => exact g4
    case okDir => grind
    case used =>
      intro hv d' hd
      obtain ⟨j, w, hj, hw⟩ := g2 hv d' hd
      by_cases hji : j = i
      · subst hji; rw [a] at hj; cases hj; simp [WPC.dirs] at hw
      · exact ⟨j, w, by rw [if_neg hji]; exact hj, hw⟩
  all_goals
    rename s.main = .serving => hm
    exact ⟨fun h => absurd hm h, g3, fun l hl => by simp [St.put, hm] at hl, fun h => absurd hm h⟩

/-- Since the last start no build has failed: every directory on disk is accounted for. -/
structure Inv3 (s : St) : Prop where
  collecting : s.main = .collecting → ∀ d, s.fs d ≠ none →
    (∃ r ∈ s.refs, r.dir = d) ∨ ∃ (i : Nat) (w : WPC), s.ws[i]? = some w ∧ d ∈ w.dirs
  removing : ∀ l, s.main = .removing l → ∀ d, s.fs d ≠ none →
    (∃ r ∈ l, r.dir = d) ∨ ∃ (i : Nat) (w : WPC), s.ws[i]? = some w ∧ d ∈ w.dirs

theorem Start.inv3 {urls : List Bytes} {fs : FS} {s : St} (h : Start urls fs s) : Inv3 s := by
  obtain ⟨a1, a2, a3, a4, a5⟩ := h
  constructor
  · intro _ d hd
    refine .inl ⟨readRef s.fs d, (a2.2 _).2 ?_, ?_⟩ <;>
    · subst a1
      have : (readRef s.fs d).dir = d := by unfold readRef; split <;> rfl
      simp [this, hd]
  · simp [a5]

theorem Inv3.step {urls : List Bytes} {s t : St} {e : Ev} (h : Inv urls s) (g' : Inv2 urls s) (g : Inv3 s)
    (hs : Step urls s e t) (hb : ∀ i, e ≠ .buildFails i) : Inv3 t := by
  have hmove : ∀ {i : Nat} {w0 : WPC} (a : s.ws[i]? = some w0) (w : WPC), (∀ d ∈ w0.dirs, d ∈ w.dirs) → ∀ {d : Nat},
      (∃ (j : Nat) (v : WPC), s.ws[j]? = some v ∧ d ∈ v.dirs) →
      ∃ (j : Nat) (v : WPC), (s.ws.set i w)[j]? = some v ∧ d ∈ v.dirs := by
    intro i w0 a w hsub d ⟨j, v, hj, hd⟩
    by_cases hji : j = i
    · subst hji; rw [a] at hj; cases hj
      exact ⟨j, w, by rw [put_get a, if_pos rfl], hsub d hd⟩
    · exact ⟨j, v, by rw [put_get a, if_neg hji]; exact hj, hd⟩
  obtain ⟨g1, g2⟩ := g
  cases hs
  case crash hst => exact hst.inv3
  case buildFails => exact absurd rfl (hb _)
  case updateFails => exact absurd rfl (hb _)
  case collected a b =>
    constructor
    · simp
    · intro l hl d hd; cases hl; exact g1 a d hd
  case keep r rs a b =>
    constructor
    · simp
    · intro l hl d hd; cases hl
      rcases g2 _ a d hd with ⟨r', hr', he⟩ | h
      · rcases List.mem_cons.1 hr' with rfl | hr'
        · subst he; exact .inr (g'.used (by simp [a]) _ b)
        · exact .inl ⟨r', hr', he⟩
      · exact .inr h
  case remove r rs a b =>
    constructor
    · simp
    · intro l hl d hd; cases hl
      have hne : d ≠ r.dir := by intro h; simp [FS.set, h] at hd
      rcases g2 _ a d (by simpa [FS.set, hne] using hd) with ⟨r', hr', he⟩ | h
      · rcases List.mem_cons.1 hr' with rfl | hr'
        · exact absurd he.symm hne
        · exact .inl ⟨r', hr', he⟩
      · exact .inr h
  case removePart r rs x m a b c d =>
    constructor
    · simp [a]
    · intro l hl d hd; rw [show s.main = _ from hl] at a; cases a
      by_cases hdr : d = r.dir
      · exact .inl ⟨r, by simp, hdr.symm⟩
      · exact g2 _ hl d (by simpa [FS.set, hdr] using hd)
  case openFails i rev d x a b c d1 =>
    have hc : s.main = .collecting := (h.early i _ a rfl).resolve_right b
    constructor
    · intro _ d' hd
      rcases g1 hc d' hd with h' | ⟨j, w, hj, hw⟩
      · exact .inl h'
      · by_cases hji : j = i
        · subst hji; rw [a] at hj; cases hj
          simp only [WPC.dirs, List.mem_singleton] at hw
          subst hw
          rcases h.chosen j rev d' a with ⟨k1, url, k2, r, k3, rfl⟩ | ⟨k1, k2, k3⟩
          · exact .inl ⟨_, k3, rfl⟩
          · rw [k1] at c; cases c
        · exact .inr ⟨j, w, by simp only [St.put, put_get a, if_neg hji]; exact hj, hw⟩
    · simp [St.put, hc]
  case openFatal => exact ⟨by simp, by simp⟩
  case serve => exact ⟨by simp, by simp⟩
  case removeFails => exact ⟨by simp, by simp⟩
  case mkdir i rev d a b c =>
    have hc : s.main = .collecting := (h.early i _ a rfl).resolve_right b
    constructor
    · intro _ d' hd
      by_cases hdd : d' = d
      · subst hdd
        exact .inr ⟨i, .building rev d' .started, by simp only [St.put, put_get a, if_true], by simp [WPC.dirs]⟩
      · rcases g1 hc d' (by simpa [FS.set, hdd] using hd) with h' | h'
        · exact .inl h'
        · exact .inr (hmove a _ (by simp [WPC.dirs]) h')
    · simp [St.put, hc]
  case flush i rev d x a b c =>
    have hc : s.main = .collecting := (h.early i _ a rfl).resolve_right b
    constructor
    · intro _ d' hd
      rcases g1 hc d' (by by_cases hdd : d' = d <;> simp_all [FS.set]) with h' | h'
      · exact .inl h'
      · exact .inr (hmove a _ (by simp [WPC.dirs]) h')
    · simp [St.put, hc]
  case manifest i url rev d x a b c d' =>
    have hc : s.main = .collecting := (h.early i _ a rfl).resolve_right b
    constructor
    · intro _ d' hd
      rcases g1 hc d' (by by_cases hdd : d' = d <;> simp_all [FS.set]) with h' | h'
      · exact .inl h'
      · exact .inr (hmove a _ (by simp [WPC.dirs]) h')
    · simp [St.put, hc]
  case pullFails i a b =>
    have hc : s.main = .collecting := (h.early i _ a rfl).resolve_right b
    exact ⟨fun _ d' hd => (g1 hc d' hd).imp id (hmove a _ (by simp [WPC.dirs])), by simp [St.put, hc]⟩
  case pull i rev a b =>
    have hc : s.main = .collecting := (h.early i _ a rfl).resolve_right b
    exact ⟨fun _ d' hd => (g1 hc d' hd).imp id (hmove a _ (by simp [WPC.dirs])), by simp [St.put, hc]⟩
  case claim i url rev r a b c d =>
    have hc : s.main = .collecting := (h.early i _ a rfl).resolve_right b
    exact ⟨fun _ d' hd => (g1 hc d' hd).imp id (hmove a _ (by simp [WPC.dirs])), by simp [St.put, hc]⟩
  case fresh i url rev d a b c e f =>
    have hc : s.main = .collecting := (h.early i _ a rfl).resolve_right b
    exact ⟨fun _ d' hd => (g1 hc d' hd).imp id (hmove a _ (by simp [WPC.dirs])), by simp [St.put, hc]⟩
  case openOk i rev d x a b c d1 d2 =>
    have hc : s.main = .collecting := (h.early i _ a rfl).resolve_right b
    exact ⟨fun _ d' hd => (g1 hc d' hd).imp id (hmove a _ (by simp [WPC.dirs])), by simp [St.put, hc]⟩
  all_goals
    rename s.main = .serving => hm
    constructor <;> simp [St.put, hm]

theorem Exec.append {urls : List Bytes} {s t u : St} {es es' : List Ev} (h : Exec urls s es t) (h' : Exec urls t es' u) :
    Exec urls s (es ++ es') u := by
  induction h with
  | nil => exact h'
  | cons h1 _ ih => exact .cons h1 (ih h')

theorem Exec.split {urls : List Bytes} {s u : St} : ∀ {es es' : List Ev}, Exec urls s (es ++ es') u →
    ∃ t, Exec urls s es t ∧ Exec urls t es' u := by
  intro es
  induction es generalizing s with
  | nil => intro es' h; exact ⟨s, .nil s, h⟩
  | cons e es ih =>
    intro es' h
    cases h with
    | cons h1 h2 =>
      obtain ⟨t, ha, hb⟩ := ih h2
      exact ⟨t, .cons h1 ha, hb⟩

theorem Exec.one {urls : List Bytes} {s t : St} {e : Ev} : Exec urls s [e] t → Step urls s e t := by
  intro h
  cases h with
  | cons h1 h2 => cases h2; exact h1

theorem Exec.inv {urls : List Bytes} {s t : St} {es : List Ev} (h : Exec urls s es t) (hi : Inv urls s) : Inv urls t := by
  induction h with
  | nil => exact hi
  | cons h1 _ ih => exact ih (hi.step h1)

theorem Exec.inv2 {urls : List Bytes} {s t : St} {es : List Ev} (hu : ∀ u ∈ urls, u ≠ []) (h : Exec urls s es t)
    (hi : Inv urls s) (h2 : Inv2 urls s) : Inv2 urls t := by
  induction h with
  | nil => exact h2
  | cons h1 _ ih => exact ih (hi.step h1) (h2.step hu hi h1)

theorem Exec.inv3 {urls : List Bytes} {s t : St} {es : List Ev} (hu : ∀ u ∈ urls, u ≠ []) (h : Exec urls s es t)
    (hi : Inv urls s) (h2 : Inv2 urls s) (h3 : Inv3 s) (hb : ∀ i, Ev.buildFails i ∉ es) : Inv3 t := by
  induction h with
  | nil => exact h3
  | @cons _ _ _ e _ h1 _ ih =>
    simp only [List.mem_cons, not_or] at hb
    exact ih (hi.step h1) (h2.step hu hi h1) (h3.step hi h2 h1 (fun i he => (hb i).1 he.symm)) (fun i => (hb i).2)

theorem Run.inv {urls : List Bytes} {es : List Ev} {s : St} (h : Run urls es s) : Inv urls s := by
  obtain ⟨s0, h0, hx⟩ := h
  exact hx.inv h0.inv

theorem Run.inv2 {urls : List Bytes} {es : List Ev} {s : St} (hu : ∀ u ∈ urls, u ≠ []) (h : Run urls es s) :
    Inv2 urls s := by
  obtain ⟨s0, h0, hx⟩ := h
  exact hx.inv2 hu h0.inv h0.inv2

/-- A directory whose manifest cannot be read at a start: it is not claimed, and it is removed. -/
structure Doomed (d : Nat) (s : St) : Prop where
  ref : (⟨d, [], []⟩ : Ref) ∈ s.refs
  notClaimed : d ∉ s.claimed
  gone : ∀ l, s.main = .removing l → (⟨d, [], []⟩ : Ref) ∈ l ∨ s.fs d = none

theorem Start.doomed {urls : List Bytes} {fs : FS} {t : St} (h : Start urls fs t) {d : Nat} {x : DirSt}
    (hd : fs d = some x) (hm : x.manifest = none) : Doomed d t := by
  obtain ⟨a1, a2, a3, a4, a5⟩ := h
  refine ⟨(a2.2 _).2 ⟨by simp [hd], ?_⟩, by simp [a3], by simp [a5]⟩
  simp [readRef, hd, hm]

theorem Doomed.step {urls : List Bytes} {s t : St} {e : Ev} {d : Nat} (hu : ∀ u ∈ urls, u ≠ []) (h : Inv urls s)
    (g : Doomed d s) (hs : Step urls s e t) (hc : e ≠ .crash) : Doomed d t ∧ ∀ i, e ≠ .claim i d := by
  obtain ⟨g1, g2, g3⟩ := g
  cases hs
  case crash => exact absurd rfl hc
  case claim i url rev r a b c f =>
    have hcol : s.main = .collecting := (h.early i _ a rfl).resolve_right b
    have hr : r.url = url ∧ r.rev = rev := by simpa using List.find?_some f
    have hm := List.mem_of_find?_eq_some f
    have hne : r.dir ≠ d := by
      intro he
      have e1 := (h.refs hcol r hm).2
      have e2 := (h.refs hcol _ g1).2
      rw [he] at e1
      simp only at e2
      rw [← e2] at e1
      have : r.url = [] := by rw [e1]
      exact hu url (List.mem_of_getElem? c) (hr.1.symm.trans this)
    refine ⟨⟨g1, by simp [g2, hne.symm], by simp [St.put, hcol]⟩, ?_⟩
    intro j hj; cases hj; exact hne rfl
  case collected a b => exact ⟨⟨g1, g2, by intro l hl; cases hl; exact .inl g1⟩, by simp⟩
  case keep r rs a b =>
    refine ⟨⟨g1, g2, ?_⟩, by simp⟩
    intro l hl; cases hl
    rcases g3 _ a with h | h
    · rcases List.mem_cons.1 h with rfl | h
      · exact absurd b g2
      · exact .inl h
    · exact .inr h
  case remove r rs a b =>
    refine ⟨⟨g1, g2, ?_⟩, by simp⟩
    intro l hl; cases hl
    rcases g3 _ a with h | h
    · rcases List.mem_cons.1 h with rfl | h
      · exact .inr (by simp [FS.set])
      · exact .inl h
    · refine .inr ?_; simp [FS.set, h]
  case removePart r rs x m a b c f =>
    refine ⟨⟨g1, g2, ?_⟩, by simp⟩
    intro l hl
    have hl : s.main = .removing l := hl
    rcases g3 _ hl with h' | h'
    · exact .inl h'
    · by_cases hd : d = r.dir
      · subst hd; rw [h'] at c; cases c
      · exact .inr (by simp [FS.set, hd, h'])
  case serve => exact ⟨⟨g1, g2, by simp⟩, by simp⟩
  case removeFails => exact ⟨⟨g1, g2, by simp⟩, by simp⟩
  case openFatal => exact ⟨⟨g1, g2, by simp⟩, by simp⟩
  all_goals
    refine ⟨⟨g1, g2, ?_⟩, by simp⟩
    first
    | (rename s.main = .serving => hm; simp [St.put, hm])
    | (rename s.ws[_]? = some _ => a
       have hcol : s.main = .collecting := (h.early _ _ a rfl).resolve_right (by assumption)
       simp [St.put, hcol])

theorem Exec.doomed {urls : List Bytes} {s t : St} {es : List Ev} {d : Nat} (hu : ∀ u ∈ urls, u ≠ [])
    (hx : Exec urls s es t) (h : Inv urls s) (g : Doomed d s) (hc : Ev.crash ∉ es) :
    Doomed d t ∧ ∀ i, Ev.claim i d ∉ es := by
  induction hx with
  | nil => exact ⟨g, by simp⟩
  | cons h1 _ ih =>
    simp only [List.mem_cons, not_or] at hc
    obtain ⟨k1, k2⟩ := g.step hu h h1 (fun h => hc.1 h.symm)
    obtain ⟨k3, k4⟩ := ih (h.step h1) k1 hc.2
    exact ⟨k3, fun i => by simp only [List.mem_cons, not_or]; exact ⟨fun h => k2 i h.symm, k4 i⟩⟩

/-- Directories whose index file is written before the manifest. -/
structure InvF (s : St) : Prop where
  building : ∀ (i : Nat) rev d, s.ws[i]? = some (.building rev d .flushed) → ∀ x, s.fs d = some x → x.complete = true
  updating : ∀ (i : Nat) l rev d, s.ws[i]? = some (.updating l rev d .flushed) → ∀ x, s.fs d = some x → x.complete = true

theorem InvF.step {urls : List Bytes} {s t : St} {e : Ev} (h : Inv urls s) (g : InvF s) (hs : Step urls s e t) :
    InvF t := by
  obtain ⟨h1, h2, h3, h4, h5, h6, h7, h8, h9⟩ := h
  obtain ⟨g1, g2⟩ := g
  cases hs
  case crash hst =>
    have hw := hst.todo
    constructor
    · intro i rev d hi; simpa using hw i _ hi
    · intro i l rev d hi; simpa using hw i _ hi
  case destroyPart i d n x m a b c f =>
    have hno : ∀ (j : Nat) w, s.ws[j]? = some w → w.own ≠ some d := by
      intro j w hj ho
      by_cases hji : i = j
      · subst hji; rw [a] at hj; cases hj; simp [WPC.own] at ho
      · exact h6 j i w d _ hj ho a hji (by simp [WPC.dirs])
    constructor
    · intro j rev d' hj x' hx'
      have : d' ≠ d := by intro h; subst h; exact hno j _ hj rfl
      exact g1 j rev d' hj x' (by simpa [FS.set, this] using hx')
    · intro j l rev d' hj x' hx'
      have : d' ≠ d := by intro h; subst h; exact hno j _ hj rfl
      exact g2 j l rev d' hj x' (by simpa [FS.set, this] using hx')
  case dropPart i d x m a b c f =>
    have hno : ∀ (j : Nat) w, s.ws[j]? = some w → w.own ≠ some d := by
      intro j w hj ho
      by_cases hji : i = j
      · subst hji; rw [a] at hj; cases hj; simp [WPC.own] at ho
      · exact h6 j i w d _ hj ho a hji (by simp [WPC.dirs])
    constructor
    · intro j rev d' hj x' hx'
      have : d' ≠ d := by intro h; subst h; exact hno j _ hj rfl
      exact g1 j rev d' hj x' (by simpa [FS.set, this] using hx')
    · intro j l rev d' hj x' hx'
      have : d' ≠ d := by intro h; subst h; exact hno j _ hj rfl
      exact g2 j l rev d' hj x' (by simpa [FS.set, this] using hx')
  all_goals (first | rename s.ws[_]? = some _ => a | have a := trivial)
  all_goals
    constructor <;> simp only [St.put, FS.set] <;> (try simp only [put_get a]) <;>
    grind [WPC.own, WPC.dirs, WPC.early, WPC.late, Fresh]

theorem Uninterrupted.init {es es' : List Ev} (h : Uninterrupted (es ++ es')) : Uninterrupted es := by
  intro es1 es2 es3 d he
  exact h es1 es2 (es3 ++ es') d (by simp [he])

/-- A directory with a manifest is complete, or its removal has begun and not ended. -/
structure Inv4 (es : List Ev) (s : St) : Prop where
  cause : ∀ d x, s.fs d = some x → x.manifest ≠ none → x.complete = false →
    ∃ es1 es2, es = es1 ++ .removePart d true :: es2 ∧ Ev.removed d ∉ es2
  collecting : s.main = .collecting → ∀ d x, s.fs d = some x → x.manifest ≠ none → x.complete = true

theorem Inv4.step {urls : List Bytes} {s t : St} {e : Ev} {es : List Ev} (f : InvF s) (g : Inv4 es s)
    (hs : Step urls s e t) (hn : Uninterrupted (es ++ [e])) : Inv4 (es ++ [e]) t := by
  have keep : ∀ d, e ≠ .removed d → (∃ es1 es2, es = es1 ++ .removePart d true :: es2 ∧ Ev.removed d ∉ es2) →
      ∃ es1 es2, es ++ [e] = es1 ++ .removePart d true :: es2 ∧ Ev.removed d ∉ es2 := by
    rintro d hd ⟨es1, es2, he, hr⟩
    exact ⟨es1, es2 ++ [e], by simp [he], by simp [hr]; exact fun h => hd h.symm⟩
  obtain ⟨g1, g2⟩ := g
  -- steps that leave a directory with the given description, in events that remove nothing
  have set1 : ∀ d0 y, (y.manifest = none ∨ y.complete = true) → (∀ d, e ≠ .removed d) →
      ∀ d x, (s.fs.set d0 (some y)) d = some x → x.manifest ≠ none → x.complete = false →
        ∃ es1 es2, es ++ [e] = es1 ++ .removePart d true :: es2 ∧ Ev.removed d ∉ es2 := by
    intro d0 y hy hr d x hx hm hcx
    by_cases hd : d = d0
    · subst hd; simp [FS.set] at hx; subst hx
      rcases hy with hy | hy
      · exact absurd hy hm
      · rw [hy] at hcx; cases hcx
    · exact keep d (hr d) (g1 d x (by simpa [FS.set, hd] using hx) hm hcx)
  have set2 : ∀ d0 y, (y.manifest = none ∨ y.complete = true) → s.main = .collecting →
      ∀ d x, (s.fs.set d0 (some y)) d = some x → x.manifest ≠ none → x.complete = true := by
    intro d0 y hy hc d x hx hm
    by_cases hd : d = d0
    · subst hd; simp [FS.set] at hx; subst hx
      rcases hy with hy | hy
      · exact absurd hy hm
      · exact hy
    · exact g2 hc d x (by simpa [FS.set, hd] using hx) hm
  have part : ∀ d0 y m, s.fs d0 = some y → e = .removePart d0 (Option.isSome m) →
      ∀ d x, (s.fs.set d0 (some ⟨m, false⟩)) d = some x → x.manifest ≠ none → x.complete = false →
        ∃ es1 es2, es ++ [e] = es1 ++ .removePart d true :: es2 ∧ Ev.removed d ∉ es2 := by
    intro d0 y m hy he d x hx hm hcx
    by_cases hd : d = d0
    · subst hd; simp [FS.set] at hx; subst hx
      have : m.isSome = true := by cases m <;> simp_all
      exact ⟨es, [], by simp [he, this], by simp⟩
    · exact keep d (by simp [he]) (g1 d x (by simpa [FS.set, hd] using hx) hm hcx)
  have gone : ∀ d0, e = .removed d0 →
      ∀ d x, (s.fs.set d0 none) d = some x → x.manifest ≠ none → x.complete = false →
        ∃ es1 es2, es ++ [e] = es1 ++ .removePart d true :: es2 ∧ Ev.removed d ∉ es2 := by
    intro d0 he d x hx hm hcx
    have hd : d ≠ d0 := by intro h; simp [FS.set, h] at hx
    exact keep d (by simp [he]; exact fun h => hd h.symm) (g1 d x (by simpa [FS.set, hd] using hx) hm hcx)
  cases hs
  case crash hst =>
    have hall : ∀ d x, s.fs d = some x → x.manifest ≠ none → x.complete = true := by
      intro d x hx hm
      cases hcx : x.complete
      · obtain ⟨es1, es2, he, hr⟩ := g1 d x hx hm hcx
        exact absurd (hn es1 es2 [] d (by simp [he])) hr
      · rfl
    rw [← hst.fs_eq] at hall
    constructor
    · intro d x hx hm hcx; rw [hall d x hx hm] at hcx; cases hcx
    · intro _; exact hall
  case mkdir i rev d a b c =>
    exact ⟨set1 d _ (.inl rfl) (by simp), fun hc => set2 d _ (.inl rfl) hc⟩
  case flush i rev d x a b c =>
    exact ⟨set1 d _ (.inr rfl) (by simp), fun hc => set2 d _ (.inr rfl) hc⟩
  case manifest i url rev d x a b c c' =>
    have := f.building i _ _ a x c'
    exact ⟨set1 d _ (.inr this) (by simp), fun hc => set2 d _ (.inr this) hc⟩
  case update i d n rev a b c =>
    exact ⟨set1 n _ (.inl rfl) (by simp), fun hc => set2 n _ (.inl rfl) hc⟩
  case updateFlush i d n rev x a b c =>
    exact ⟨set1 n _ (.inr rfl) (by simp), fun hc => set2 n _ (.inr rfl) hc⟩
  case updateManifest i url d n rev x a b c c' =>
    have := f.updating i _ _ _ a x c'
    exact ⟨set1 n _ (.inr this) (by simp), fun hc => set2 n _ (.inr this) hc⟩
  case removePart r rs x m a b c c' => exact ⟨part r.dir x m c rfl, by simp [a]⟩
  case destroyPart i d n x m a b c c' => exact ⟨part d x m c rfl, by simp [b]⟩
  case dropPart i n x m a b c c' => exact ⟨part n x m c rfl, by simp [b]⟩
  case remove r rs a b => exact ⟨gone r.dir rfl, by simp⟩
  case destroy i d n a b => exact ⟨gone d rfl, by simp [St.put, b]⟩
  case drop i n a b => exact ⟨gone n rfl, by simp [St.put, b]⟩
  case collected a b => exact ⟨fun d x hx hm hcx => keep d (by simp) (g1 d x hx hm hcx), by simp⟩
  case keep a b => exact ⟨fun d x hx hm hcx => keep d (by simp) (g1 d x hx hm hcx), by simp⟩
  case serve a => exact ⟨fun d x hx hm hcx => keep d (by simp) (g1 d x hx hm hcx), by simp⟩
  case removeFails a b => exact ⟨fun d x hx hm hcx => keep d (by simp) (g1 d x hx hm hcx), by simp⟩
  case openFatal a b => exact ⟨fun d x hx hm hcx => keep d (by simp) (g1 d x hx hm hcx), by simp⟩
  all_goals exact ⟨fun d x hx hm hcx => keep d (by simp) (g1 d x hx hm hcx), g2⟩

theorem Exec.inv4 {urls : List Bytes} {s t : St} {es' : List Ev} (hx : Exec urls s es' t) : ∀ {es : List Ev},
    Inv urls s → InvF s → Inv4 es s → Uninterrupted (es ++ es') → Inv4 (es ++ es') t := by
  induction hx with
  | nil => intro es _ _ h _; simpa using h
  | @cons _ _ _ e es' h1 _ ih =>
    intro es hi hf h4 hn
    have : es ++ e :: es' = (es ++ [e]) ++ es' := by simp
    rw [this] at hn ⊢
    exact ih (hi.step h1) (hf.step hi h1) (h4.step hf h1 hn.init) hn

theorem Run.inv4 {urls : List Bytes} {es : List Ev} {s : St} (h : Run urls es s) (hn : Uninterrupted es) : Inv4 es s := by
  obtain ⟨s0, h0, hx⟩ := h
  have h4 : Inv4 [] s0 := ⟨by simp [h0.fs_eq], by simp [h0.fs_eq]⟩
  have hf : InvF s0 := by
    have hw := h0.todo
    constructor
    · intro i rev d hi; simpa using hw i _ hi
    · intro i l rev d hi; simpa using hw i _ hi
  simpa using hx.inv4 h0.inv hf h4 (by simpa using hn)

end Hound.Up
