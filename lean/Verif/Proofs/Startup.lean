import Verif.Model.Startup

namespace Hound.Up

theorem put_get {ws : List WPC} {i : Nat} {w0 : WPC} (h : ws[i]? = some w0) (w : WPC) (j : Nat) :
    (ws.set i w)[j]? = if j = i then some w else ws[j]? := by
  have : i < ws.length := by
    rcases Nat.lt_or_ge i ws.length with h1 | h1
    · exact h1
    · rw [List.getElem?_eq_none h1] at h; simp at h
  rw [List.getElem?_set]
  by_cases hij : j = i
  · subst hij; simp [this]
  · rw [if_neg (fun h => hij h.symm), if_neg hij]

/-- The directory a worker is filling. -/
def WPC.own : WPC → Option Nat
  | .building _ d _ => some d
  | .updating _ _ n _ => some n
  | _ => none

/-- Only before the searcher is there. -/
def WPC.early : WPC → Bool
  | .todo | .pulled _ | .chosen .. | .building .. => true
  | _ => false

/-- Only while serving. -/
def WPC.late : WPC → Bool
  | .updating .. | .swapping .. | .dropping .. => true
  | _ => false

structure Inv (urls : List Bytes) (s : St) : Prop where
  len : s.ws.length = urls.length
  refs : s.main = .collecting → ∀ r ∈ s.refs, s.fs r.dir ≠ none ∧ r = readRef s.fs r.dir
  early : ∀ (i : Nat) w, s.ws[i]? = some w → w.early = true → s.main = .collecting ∨ s.main = .dead
  late : ∀ (i : Nat) w, s.ws[i]? = some w → w.late = true → s.main = .serving
  own : ∀ (i : Nat) w d, s.ws[i]? = some w → w.own = some d → ∃ x, s.fs d = some x ∧ x.manifest = none
  alone : ∀ (i j : Nat) w d w', s.ws[i]? = some w → w.own = some d → s.ws[j]? = some w' → j ≠ i → d ∉ w'.dirs
  notRef : ∀ (i : Nat) rev d st, s.ws[i]? = some (.building rev d st) → ∀ r ∈ s.refs, r.dir ≠ d
  chosen : ∀ (i : Nat) rev d, s.ws[i]? = some (.chosen rev d) →
    (d ∈ s.claimed ∧ ∃ url, urls[i]? = some url ∧ ∃ r ∈ s.refs, r = ⟨d, url, rev⟩) ∨
    (s.fs d = none ∧ (∀ r ∈ s.refs, r.dir ≠ d) ∧ ∀ (j : Nat) w', s.ws[j]? = some w' → j ≠ i → d ∉ w'.dirs)
  nodup : ∀ (i : Nat) w, s.ws[i]? = some w → w.dirs.Nodup

theorem readRef_set {fs : FS} {e d : Nat} (x : Option DirSt) (h : d ≠ e) :
    readRef (fs.set e x) d = readRef fs d := by
  simp [readRef, FS.set, h]

theorem own_dirs {w : WPC} {d : Nat} (h : w.own = some d) : d ∈ w.dirs := by
  cases w <;> simp_all [WPC.own, WPC.dirs]

theorem own_when {w : WPC} {d : Nat} (h : w.own = some d) : w.early = true ∨ w.late = true := by
  cases w <;> simp_all [WPC.own, WPC.early, WPC.late]

theorem own_early {w : WPC} {d : Nat} (h : w.own = some d) (hl : w.late = false) :
    ∃ rev st, w = .building rev d st := by
  cases w <;> simp_all [WPC.own, WPC.late]

theorem Start.todo {urls : List Bytes} {fs : FS} {t : St} (hst : Start urls fs t) :
    ∀ (i : Nat) w, t.ws[i]? = some w → w = .todo := by
  intro i w h
  rw [hst.ws, List.getElem?_map] at h
  cases hu : urls[i]? <;> simp_all

theorem Start.inv {urls : List Bytes} {fs : FS} {t : St} (hst : Start urls fs t) : Inv urls t := by
  have hw := hst.todo
  obtain ⟨a1, a2, a3, a4, a5⟩ := hst
  refine ⟨by simp [a4], ?_, ?_, ?_, ?_, ?_, ?_, ?_, ?_⟩
  · intro _ r hr
    have := (a2.2 r).1 hr
    rw [a1]; exact this
  all_goals grind [WPC.own, WPC.early, WPC.late, WPC.dirs]

set_option maxHeartbeats 2000000 in
theorem Inv.step {urls : List Bytes} {s t : St} {e : Ev} (h : Inv urls s) (hs : Step urls s e t) : Inv urls t := by
  obtain ⟨h1, h2, h3, h4, h5, h6, h7, h8, h9⟩ := h
  cases hs
  case crash hst => exact hst.inv
  case claim i url rev r a b c d =>
    have hr : r.url = url ∧ r.rev = rev := by simpa using List.find?_some d
    have hm := List.mem_of_find?_eq_some d
    have hc : s.main = .collecting := by
      rcases h3 i _ a rfl with h | h
      · exact h
      · exact absurd h b
    have hown : ∀ (j : Nat) w, s.ws[j]? = some w → w.own ≠ some r.dir := by
      intro j w hw ho
      have hl : w.late = false := by
        cases hl : w.late
        · rfl
        · have := h4 j w hw hl; simp [hc] at this
      obtain ⟨rev', st, rfl⟩ := own_early ho hl
      exact h7 j _ _ _ hw r hm rfl
    constructor <;> simp only [St.put, put_get a]
    case len => simpa using h1
    case alone => grind [WPC.own, WPC.dirs]
    case chosen =>
      intro k rev' d' hk
      by_cases hki : k = i
      · subst hki
        simp only [if_true, Option.some.injEq, WPC.chosen.injEq] at hk
        obtain ⟨e1, e2⟩ := hk
        subst e2
        obtain ⟨f1, f2⟩ := hr
        subst e1 f1
        exact .inl ⟨by simp, r.url, c, r, hm, by rw [← f2]⟩
      · rw [if_neg hki] at hk
        rcases h8 k rev' d' hk with ⟨g1, g2⟩ | ⟨g1, g2, g3⟩
        · exact .inl ⟨by simp [g1], g2⟩
        · refine .inr ⟨g1, g2, fun j w' hj hjk => ?_⟩
          by_cases hji : j = i
          · subst hji; simp only [if_true, Option.some.injEq] at hj
            subst hj
            have := g2 r hm
            simp [WPC.dirs]; exact fun h => this h.symm
          · rw [if_neg hji] at hj; exact g3 j w' hj hjk
    all_goals grind [WPC.own, WPC.early, WPC.late, WPC.dirs]
  case mkdir i rev d a b c =>
    have hnr : ∀ r ∈ s.refs, r.dir ≠ d := by
      have hc : s.main = .collecting := by
        rcases h3 i _ a rfl with h | h
        · exact h
        · exact absurd h b
      intro r hr he
      exact (h2 hc r hr).1 (he ▸ c)
    constructor <;> simp only [St.put, put_get a, FS.set]
    case len => simpa using h1
    case refs =>
      intro hc r hr
      have h' := h2 hc r hr
      rw [readRef_set _ (hnr r hr), if_neg (hnr r hr)]
      exact h'
    case own =>
      intro k w d' hk ho
      by_cases hd : d' = d
      · exact ⟨_, if_pos hd, rfl⟩
      · by_cases hki : k = i
        · subst hki
          simp only [if_true, Option.some.injEq] at hk
          subst hk; simp [WPC.own] at ho; exact absurd ho.symm hd
        · rw [if_neg hki] at hk
          rw [if_neg hd]; exact h5 k w d' hk ho
    all_goals grind [WPC.own, WPC.early, WPC.late, WPC.dirs]
  case flush i rev d x a b c =>
    have hnr := h7 i _ _ _ a
    constructor <;> simp only [St.put, put_get a, FS.set]
    case len => simpa using h1
    case refs =>
      intro hc r hr
      have h' := h2 hc r hr
      rw [readRef_set _ (hnr r hr), if_neg (hnr r hr)]
      exact h'
    all_goals grind [WPC.own, WPC.early, WPC.late, WPC.dirs]
  case manifest i url rev d x a b c d' =>
    have hnr := h7 i _ _ _ a
    constructor <;> simp only [St.put, put_get a, FS.set]
    case len => simpa using h1
    case refs =>
      intro hc r hr
      have h' := h2 hc r hr
      rw [readRef_set _ (hnr r hr), if_neg (hnr r hr)]
      exact h'
    all_goals grind [WPC.own, WPC.early, WPC.late, WPC.dirs]
  case collected a b =>
    have hw : ∀ (i : Nat) w, s.ws[i]? = some w → w = .failed ∨ ∃ d, w = .ok d :=
      fun i w h => b w (List.mem_of_getElem? h)
    constructor
    case early =>
      intro i w h he
      rcases hw i w h with rfl | ⟨d, rfl⟩ <;> simp [WPC.early] at he
    all_goals grind [WPC.own, WPC.early, WPC.late, WPC.dirs]
  case remove r rs a b =>
    have hno : ∀ (i : Nat) w d, s.ws[i]? = some w → w.own ≠ some d := by
      intro i w d h ho
      rcases own_when ho with h' | h'
      · have := h3 i w h h'; simp [a] at this
      · have := h4 i w h h'; simp [a] at this
    constructor
    case own => intro i w d h ho; exact absurd ho (hno i w d h)
    all_goals grind [WPC.own, WPC.early, WPC.late, WPC.dirs]
  case update i d n rev a b c =>
    have hf : ∀ (j : Nat) w, s.ws[j]? = some w → n ∉ w.dirs := fun j w h => c.2 w (List.mem_of_getElem? h)
    constructor <;> simp only [St.put, put_get a, FS.set]
    case len => simpa using h1
    case own =>
      intro k w d' hk ho
      by_cases hd : d' = n
      · exact ⟨_, if_pos hd, rfl⟩
      · by_cases hki : k = i
        · subst hki
          simp only [if_true, Option.some.injEq] at hk
          subst hk; simp [WPC.own] at ho; exact absurd ho.symm hd
        · rw [if_neg hki] at hk
          rw [if_neg hd]; exact h5 k w d' hk ho
    all_goals grind [WPC.own, WPC.early, WPC.late, WPC.dirs, own_dirs]
  all_goals (first | rename s.ws[_]? = some _ => a | have a := trivial)
  all_goals
    constructor <;> simp only [St.put, FS.set, List.length_set] <;> (try simp only [put_get a]) <;>
    grind [WPC.own, WPC.early, WPC.late, WPC.dirs, Fresh, readRef]

end Hound.Up
