import Verif.Spec.Restart
import Verif.Proofs.StartupDirs

namespace Hound.Again
open Up Spec

variable {F O : Type}

/-- The revision a worker is at. -/
def revOf : WPC → Option Bytes
  | .pulled rev | .chosen rev _ | .building rev _ _ | .updating _ rev _ _ => some rev
  | _ => none

/-- The directory a worker has filled. -/
def filled : WPC → Option Nat
  | .building _ d .flushed | .updating _ _ d .flushed | .swapping _ d => some d
  | _ => none

theorem filled_dirs {w : WPC} {d : Nat} (h : filled w = some d) : d ∈ w.dirs := by
  unfold filled at h
  split at h <;> simp_all [WPC.dirs]

theorem MStep.step {l : Life O} {s t : St} {g g' : Made F O} {e : Ev} (h : MStep l s g e t g') : Step l.urls s e t := by
  cases h <;> assumption

/-- What is known of what the workers have fetched and made. -/
structure Known (l : Life O) (s : St) (g : Made F O) : Prop where
  rev : ∀ (i : Nat) w rev, s.ws[i]? = some w → revOf w = some rev → (g.got i).1 = rev ∧
    ∃ url, l.urls[i]? = some url ∧ (url, (g.got i).1, (g.got i).2, l.opts i) ∈ g.seen
  filled : ∀ (i : Nat) w d, s.ws[i]? = some w → filled w = some d → g.made d = some ((g.got i).2, l.opts i)

theorem Known.start {l : Life O} {fs : FS} {s : St} (g : Made F O) (h : Start l.urls fs s) : Known l s g := by
  have hw := h.todo
  constructor
  · intro i w r hi hr; rw [hw i w hi] at hr; simp [revOf] at hr
  · intro i w d hi hr; rw [hw i w hi] at hr; simp [Again.filled] at hr

/-- A worker stays where it is, gets on without fetching or filling, or its place tells nothing. -/
theorem Step.worker {urls : List Bytes} {s t : St} {e : Ev} (h : Step urls s e t) (he : e ≠ .crash) (i : Nat) (w' : WPC)
    (hw : t.ws[i]? = some w') : ∃ w, s.ws[i]? = some w ∧ ((∃ r, Fetches w w' r) ∨ (∃ d, Writes w w' d) ∨
      ((∀ r, revOf w' = some r → revOf w = some r) ∧ ∀ d, filled w' = some d → filled w = some d)) := by
  cases h
  case crash => exact absurd rfl he
  case openFatal => exact ⟨w', hw, .inr (.inr ⟨fun _ h => h, fun _ h => h⟩)⟩
  all_goals first
    | (rename s.ws[_]? = some _ => a
       simp only [St.put, put_get a] at hw
       split at hw
       · rename_i hi
         subst hi
         cases hw
         refine ⟨_, a, ?_⟩
         first
           | exact .inl ⟨_, .inl ⟨rfl, rfl⟩⟩
           | exact .inl ⟨_, .inr ⟨_, _, rfl, rfl⟩⟩
           | exact .inr (.inl ⟨_, .inl ⟨_, rfl, rfl⟩⟩)
           | exact .inr (.inl ⟨_, .inr ⟨_, _, rfl, rfl⟩⟩)
           | exact .inr (.inr ⟨by simp [revOf], by simp [filled]⟩)
       · exact ⟨w', hw, .inr (.inr ⟨fun _ h => h, fun _ h => h⟩)⟩)
    | exact ⟨w', hw, .inr (.inr ⟨fun _ h => h, fun _ h => h⟩)⟩

theorem fetch_fresh {w w' : WPC} {rev : Bytes} (h : Fetches w w' rev) : revOf w' = some rev ∧ filled w' = none := by
  rcases h with ⟨rfl, rfl⟩ | ⟨d, n, rfl, rfl⟩ <;> exact ⟨rfl, rfl⟩

theorem write_own {w w' : WPC} {d : Nat} (h : Writes w w' d) : w.own = some d ∧ filled w' = some d ∧ revOf w' = revOf w := by
  rcases h with ⟨r, rfl, rfl⟩ | ⟨l, r, rfl, rfl⟩ <;> exact ⟨rfl, rfl, rfl⟩

/-- Only one worker makes a step. -/
theorem Step.others {urls : List Bytes} {s t : St} {i : Nat} (h : Step urls s (.work i) t) (j : Nat) (hj : j ≠ i) :
    t.ws[j]? = s.ws[j]? := by
  generalize he : Ev.work i = e at h
  cases h <;> simp at he <;> subst he <;> first | rfl | simp [St.put, Ne.symm hj]

theorem Known.step {l : Life O} {s t : St} {g g' : Made F O} {e : Ev} (hi : Inv l.urls s) (h : MStep l s g e t g') (k : Known l s g) :
    Known l t g' := by
  obtain ⟨k1, k2⟩ := k
  cases h with
  | fetch _ _ i w w' url rev f hs a a' hf hu =>
    obtain ⟨f1, f2⟩ := fetch_fresh hf
    constructor
    · intro j v r hj hr
      by_cases hji : j = i
      · subst hji
        rw [a'] at hj; cases hj
        rw [f1] at hr; cases hr
        simp only [if_true]
        exact ⟨trivial, url, hu, List.mem_cons_self ..⟩
      · rw [Step.others hs j hji] at hj
        obtain ⟨b1, u, b2, b3⟩ := k1 j v r hj hr
        simp only [if_neg hji]
        exact ⟨b1, u, b2, List.mem_cons_of_mem _ b3⟩
    · intro j v d hj hd
      by_cases hji : j = i
      · subst hji
        rw [a'] at hj; cases hj
        rw [f2] at hd; cases hd
      · rw [Step.others hs j hji] at hj
        simp only [if_neg hji]
        exact k2 j v d hj hd
  | write _ _ i w w' d hs a a' hf =>
    obtain ⟨f1, f2, f3⟩ := write_own hf
    constructor
    · intro j v r hj hr
      by_cases hji : j = i
      · subst hji
        rw [a'] at hj; cases hj
        exact k1 j w r a (f3 ▸ hr)
      · rw [Step.others hs j hji] at hj
        exact k1 j v r hj hr
    · intro j v e hj hd
      by_cases hji : j = i
      · subst hji
        rw [a'] at hj; cases hj
        rw [f2] at hd; cases hd
        exact if_pos rfl
      · rw [Step.others hs j hji] at hj
        have hne : e ≠ d := fun hh => hi.alone i j w d v a f1 hj hji (hh ▸ filled_dirs hd)
        simp only [if_neg hne]
        exact k2 j v e hj hd
  | other _ _ _ hs hc hn =>
    constructor
    · intro j v r hj hr
      obtain ⟨w, hw, ⟨r', b⟩ | ⟨d, b⟩ | ⟨b, _⟩⟩ := Step.worker hs hc j v hj
      · exact absurd b ((hn j w v hw hj).1 r')
      · exact absurd b ((hn j w v hw hj).2 d)
      · exact k1 j w r hw (b r hr)
    · intro j v d hj hd
      obtain ⟨w, hw, ⟨r', b⟩ | ⟨d', b⟩ | ⟨_, b⟩⟩ := Step.worker hs hc j v hj
      · exact absurd b ((hn j w v hw hj).1 r')
      · exact absurd b ((hn j w v hw hj).2 d')
      · exact k2 j w d hw (b d hd)

/-- Where a manifest comes from. -/
theorem Step.manifest {urls : List Bytes} {s t : St} {e : Ev} (h : Step urls s e t) (he : e ≠ .crash) {d : Nat} {y : DirSt} {m : Bytes × Bytes}
    (hy : t.fs d = some y) (hm : y.manifest = some m) : (∃ x, s.fs d = some x ∧ x.manifest = some m) ∨
      ∃ (i : Nat) (w : WPC), s.ws[i]? = some w ∧ filled w = some d ∧ urls[i]? = some m.1 ∧ revOf w = some m.2 := by
  cases h
  case crash => exact absurd rfl he
  case manifest i url rev e x a b c f =>
    simp only [FS.set] at hy
    split at hy
    · rename_i hd
      subst hd; cases hy; cases hm
      exact .inr ⟨i, _, a, rfl, c, rfl⟩
    · exact .inl ⟨y, hy, hm⟩
  case updateManifest i url o n rev x a b c f =>
    simp only [FS.set] at hy
    split at hy
    · rename_i hd
      subst hd; cases hy; cases hm
      exact .inr ⟨i, _, a, rfl, c, rfl⟩
    · exact .inl ⟨y, hy, hm⟩
  all_goals
    left
    simp only [St.put, FS.set] at hy
    grind

/-- How a worker comes to be ready, before the program serves. -/
theorem Step.ready {urls : List Bytes} {s t : St} {e : Ev} (hu : ∀ u ∈ urls, u ≠ []) (hi : Inv urls s) (hi2 : Inv2 urls s)
    (h : Step urls s e t) (he : e ≠ .crash) (hv : t.main ≠ .serving) {i d : Nat} (hw : t.ws[i]? = some (.ok d)) :
    (s.main ≠ .serving ∧ s.ws[i]? = some (.ok d) ∧ t.fs d = s.fs d) ∨
      ∃ w rev url c, s.ws[i]? = some w ∧ revOf w = some rev ∧ urls[i]? = some url ∧ t.fs d = some ⟨some (url, rev), c⟩ := by
  cases h
  case crash => exact absurd rfl he
  case openOk j rev d' x a b c d1 d2 =>
    have hc : s.main = .collecting := (hi.early j _ a rfl).resolve_right b
    simp only [St.put, put_get a] at hw ⊢
    split at hw
    · rename_i hij
      subst hij; cases hw
      right
      rcases hi.chosen i rev d a with ⟨k1, url, k2, r, k3, rfl⟩ | ⟨k1, k2, k3⟩
      · obtain ⟨cc, hcc⟩ := readRef_eq (hi.refs hc _ k3).2 (hu url (List.mem_of_getElem? k2))
        exact ⟨_, rev, url, cc, a, rfl, k2, hcc⟩
      · rw [k1] at c; cases c
    · exact .inl ⟨by simp [hc], hw, trivial⟩
  case manifest j url rev d' x a b c f =>
    have hc : s.main = .collecting := (hi.early j _ a rfl).resolve_right b
    simp only [St.put, put_get a] at hw ⊢
    split at hw
    · rename_i hij
      subst hij; cases hw
      exact .inr ⟨_, rev, url, x.complete, a, rfl, c, by simp [FS.set]⟩
    · rename_i hij
      have hne : d ≠ d' := fun hh => hi.alone j i _ d' _ a rfl hw hij (by simp [WPC.dirs, hh])
      exact .inl ⟨by simp [hc], hw, by simp [FS.set, hne]⟩
  case mkdir j rev d' a b c =>
    have hc : s.main = .collecting := (hi.early j _ a rfl).resolve_right b
    simp only [St.put, put_get a] at hw ⊢
    split at hw
    · cases hw
    · obtain ⟨⟨url, r, cc, _, k⟩, _⟩ := hi2.okDir (by simp [hc]) i d hw
      have hne : d ≠ d' := by rintro rfl; rw [c] at k; cases k
      exact .inl ⟨by simp [hc], hw, by simp [FS.set, hne]⟩
  case flush j rev d' x a b c =>
    have hc : s.main = .collecting := (hi.early j _ a rfl).resolve_right b
    simp only [St.put, put_get a] at hw ⊢
    split at hw
    · cases hw
    · rename_i hij
      have hne : d ≠ d' := fun hh => hi.alone j i _ d' _ a rfl hw hij (by simp [WPC.dirs, hh])
      exact .inl ⟨by simp [hc], hw, by simp [FS.set, hne]⟩
  case removePart r rs x m a b c f =>
    obtain ⟨_, k2⟩ := hi2.okDir (by simp [a]) i d hw
    have hne : d ≠ r.dir := by
      intro hh
      rcases k2 with h | h
      · exact b (hh ▸ h)
      · exact h r (hi2.left _ a r (by simp)) hh.symm
    exact .inl ⟨by simp [a], hw, by simp [FS.set, hne]⟩
  case remove r rs a b =>
    obtain ⟨_, k2⟩ := hi2.okDir (by simp [a]) i d hw
    have hne : d ≠ r.dir := by
      intro hh
      rcases k2 with h | h
      · exact b (hh ▸ h)
      · exact h r (hi2.left _ a r (by simp)) hh.symm
    exact .inl ⟨by simp [a], hw, by simp [FS.set, hne]⟩
  case collected a b => exact .inl ⟨by simp [a], hw, rfl⟩
  case keep r rs a b => exact .inl ⟨by simp [a], hw, rfl⟩
  case removeFails r rs a b => exact .inl ⟨by simp [a], hw, rfl⟩
  case serve a => exact absurd rfl hv
  case openFatal j rev d' x a b c d1 d2 =>
    have hc : s.main = .collecting := (hi.early j _ a rfl).resolve_right b
    exact .inl ⟨by simp [hc], hw, rfl⟩
  all_goals first
    | (rename s.main = .serving => hm
       exact absurd hm hv)
    | (rename s.ws[_]? = some _ => a
       have hv' : s.main ≠ .serving := hv
       simp only [St.put, put_get a] at hw ⊢
       split at hw
       · cases hw
       · exact .inl ⟨hv', hw, trivial⟩)

/-- What is known of the directories. -/
structure Disk (l : Life O) (s : St) (g : Made F O) : Prop where
  disk : ∀ d x url rev, s.fs d = some x → x.manifest = some (url, rev) →
    ∃ f o, g.made d = some (f, o) ∧ (url, rev, f, o) ∈ g.seen
  ok : s.main ≠ .serving → ∀ (i d : Nat), s.ws[i]? = some (.ok d) → ∃ url c, l.urls[i]? = some url ∧
    s.fs d = some ⟨some (url, (g.got i).1), c⟩ ∧ (url, (g.got i).1, (g.got i).2, l.opts i) ∈ g.seen

theorem MStep.seen {l : Life O} {s t : St} {g g' : Made F O} {e : Ev} (h : MStep l s g e t g') : ∀ x ∈ g.seen, x ∈ g'.seen := by
  cases h
  case fetch => exact fun x hx => List.mem_cons_of_mem _ hx
  all_goals exact fun x hx => hx

theorem MStep.noCrash {l : Life O} {s t : St} {g g' : Made F O} {e : Ev} (h : MStep l s g e t g') : e ≠ .crash := by
  cases h <;> first | assumption | simp

/-- What a directory was made of stays, unless a worker is filling it. -/
theorem MStep.made {l : Life O} {s t : St} {g g' : Made F O} {e : Ev} (h : MStep l s g e t g') (d : Nat) :
    g'.made d = g.made d ∨ ∃ (i : Nat) (w : WPC), s.ws[i]? = some w ∧ w.own = some d ∧ filled w = none := by
  cases h with
  | fetch => exact .inl rfl
  | other => exact .inl rfl
  | write _ _ i w w' e hs a a' hf =>
    by_cases hd : d = e
    · subst hd
      refine .inr ⟨i, w, a, ?_⟩
      rcases hf with ⟨r, rfl, rfl⟩ | ⟨o, r, rfl, rfl⟩ <;> exact ⟨rfl, rfl⟩
    · exact .inl (if_neg hd)

/-- What a worker has got stays, if it is ready afterwards. -/
theorem MStep.got {l : Life O} {s t : St} {g g' : Made F O} {e : Ev} (h : MStep l s g e t g') {i d : Nat}
    (hw : t.ws[i]? = some (.ok d)) : g'.got i = g.got i := by
  cases h with
  | write => rfl
  | other => rfl
  | fetch _ _ j w w' url rev f hs a a' hf hu =>
    refine if_neg ?_
    rintro rfl
    rw [a'] at hw; cases hw
    rcases hf with ⟨_, hh⟩ | ⟨_, _, _, hh⟩ <;> cases hh

theorem Disk.step {l : Life O} {s t : St} {g g' : Made F O} {e : Ev} (hu : ∀ u ∈ l.urls, u ≠ [])
    (hi : Inv l.urls s) (hi2 : Inv2 l.urls s) (k : Known l s g) (h : MStep l s g e t g') (hd : Disk l s g) : Disk l t g' := by
  constructor
  · intro d x url rev hx hm
    rcases Step.manifest h.step h.noCrash hx hm with ⟨y, hy, hym⟩ | ⟨i, w, hw, hf, hur, hr⟩
    · obtain ⟨f, o, b1, b2⟩ := hd.disk d y url rev hy hym
      refine ⟨f, o, ?_, h.seen _ b2⟩
      rcases h.made d with hh | ⟨i, w, hw, ho, _⟩
      · rw [hh]; exact b1
      · obtain ⟨z, hz, hzm⟩ := hi.own i w d hw ho
        rw [hy] at hz; cases hz
        rw [hym] at hzm; cases hzm
    · obtain ⟨b1, u, b2, b3⟩ := k.rev i w rev hw hr
      rw [hur] at b2; cases b2
      refine ⟨(g.got i).2, l.opts i, ?_, h.seen _ (by rw [← b1]; exact b3)⟩
      rcases h.made d with hh | ⟨j, v, hv, ho, hn⟩
      · rw [hh]; exact k.filled i w d hw hf
      · by_cases hij : i = j
        · subst hij
          rw [hw] at hv; cases hv
          rw [hn] at hf; cases hf
        · exact absurd (filled_dirs hf) (hi.alone j i v d w hv ho hw hij)
  · intro hv i d hw
    rw [h.got hw]
    rcases Step.ready hu hi hi2 h.step h.noCrash hv hw with ⟨b1, b2, b3⟩ | ⟨w, rev, url, c, b1, b2, b3, b4⟩
    · obtain ⟨url, c, d1, d2, d3⟩ := hd.ok b1 i d b2
      exact ⟨url, c, d1, b3.trans d2, h.seen _ d3⟩
    · obtain ⟨e1, u, e2, e3⟩ := k.rev i w rev b1 b2
      rw [b3] at e2; cases e2
      exact ⟨url, c, b3, by rw [e1]; exact b4, h.seen _ e3⟩

/-- All of it, for everything that can happen. -/
theorem Hist.all {ls : List (Life O)} {s : St} {g : Made F O} (h : Hist ls s g) : ∀ {l : Life O} {ls' : List (Life O)}, ls = l :: ls' →
    (∀ l ∈ ls, ∀ u ∈ l.urls, u ≠ []) → Inv l.urls s ∧ Inv2 l.urls s ∧ Known l s g ∧ Disk l s g := by
  induction h with
  | first l s g a b =>
    intro l' ls' he hu
    cases he
    refine ⟨a.inv, a.inv2, .start g a, ?_, ?_⟩
    · intro d x url rev hx; rw [a.fs_eq] at hx; cases hx
    · intro _ i d hw; cases a.todo i _ hw
  | step l ls s t g g' e h0 h1 ih =>
    intro l' ls' he hu
    cases he
    obtain ⟨i1, i2, i3, i4⟩ := ih rfl hu
    have hul := hu l (List.mem_cons_self ..)
    exact ⟨i1.step h1.step, i2.step hul i1 h1.step, i3.step i1 h1, i4.step hul i1 i2 i3 h1⟩
  | again l l' ls s t g h0 h1 ih =>
    intro l'' ls' he hu
    cases he
    obtain ⟨i1, i2, i3, i4⟩ := ih rfl fun l hl => hu l (List.mem_cons_of_mem _ hl)
    refine ⟨h1.inv, h1.inv2, .start g h1, ?_, ?_⟩
    · intro d x url rev hx hm
      rw [h1.fs_eq] at hx
      exact i4.disk d x url rev hx hm
    · intro _ i d hw; cases h1.todo i _ hw

end Hound.Again
