import Verif.Model.Indexers

/-! # C25 (limit on concurrent indexing) and C45 (revision label) -/

namespace Hound.Ix

theorem put_get {ws : List W} {i : Nat} {w0 : W} (h : ws[i]? = some w0) (w : W) (j : Nat) :
    (ws.set i w)[j]? = if j = i then some w else ws[j]? := by
  have : i < ws.length := by
    rcases Nat.lt_or_ge i ws.length with h1 | h1
    · exact h1
    · rw [List.getElem?_eq_none h1] at h; simp at h
  rw [List.getElem?_set]
  by_cases hij : j = i
  · subst hij; simp [this]
  · rw [if_neg (fun h => hij h.symm), if_neg hij]

theorem count_put {ws : List W} {i : Nat} {w0 : W} (h : ws[i]? = some w0) (w : W) :
    (ws.set i w).countP W.holds + (if w0.holds then 1 else 0) = ws.countP W.holds + (if w.holds then 1 else 0) := by
  induction ws generalizing i with
  | nil => simp at h
  | cons a ws ih =>
    cases i with
    | zero =>
      simp at h; subst h
      simp only [List.set_cons_zero, List.countP_cons]
      omega
    | succ i =>
      simp at h
      have := ih h
      simp only [List.set_cons_succ, List.countP_cons]
      omega

/-- The channel holds one element per worker between `Acquire` and `Release`, and never more than its capacity. -/
theorem chan_inv {cap n : Nat} {url : Nat → Nat} {s : St} (h : Reach cap n url s) :
    s.chan = s.ws.countP W.holds ∧ s.chan ≤ cap ∧ s.ws.length = n := by
  induction h with
  | init wdir =>
    refine ⟨?_, Nat.zero_le _, by simp⟩
    induction n <;> simp_all [List.replicate_succ, W.holds]
  | step h hs ih =>
    obtain ⟨h1, h2, h3⟩ := ih
    cases hs
    all_goals
      rename _[_]? = some _ => a
      have := fun w => count_put a w
      simp only [W.holds] at this
    case start => have := this .waiting; simp [St.put] at *; omega
    case acquire => have := this .fetching; simp [St.put] at *; omega
    case fetched i rev => have := this (.indexing rev []); simp [St.put] at *; omega
    case unchanged => have := this .releasing; simp [St.put] at *; omega
    case fetchFails => have := this .releasing; simp [St.put] at *; omega
    case read s i rev seen => have := this (.indexing rev (s.wdir (url i) :: seen)); simp [St.put] at *; omega
    case build => have := this .releasing; simp [St.put] at *; omega
    case buildFails => have := this .releasing; simp [St.put] at *; omega
    case release => have := this .idle; simp [St.put] at *; omega

/-- C25. At no time do more than max-concurrent-indexers repositories fetch or index. -/
theorem limit_respected {cap n : Nat} {url : Nat → Nat} {s : St} (h : Reach cap n url s) :
    (s.ws.filter W.busy).length ≤ cap := by
  obtain ⟨h1, h2, _⟩ := chan_inv h
  have : ∀ ws : List W, (ws.filter W.busy).length ≤ ws.countP W.holds := by
    intro ws
    induction ws with
    | nil => simp
    | cons w ws ih => cases w <;> simp [List.filter_cons, List.countP_cons, W.busy, W.holds] <;> omega
  have := this s.ws
  omega

/-- C25, "each slot is given back": a worker that is done (or failed) can always give its slot back, and does not hold
it afterwards; when no worker is fetching or indexing or about to release, all slots are free. -/
theorem slot_given_back {cap n : Nat} {url : Nat → Nat} {s : St} (h : Reach cap n url s) {i : Nat}
    (hi : s.ws[i]? = some .releasing) : ∃ t, Step cap url s t ∧ t.chan + 1 = s.chan ∧ t.ws = s.ws.set i .idle := by
  obtain ⟨h1, h2, _⟩ := chan_inv h
  have hp : 0 < s.chan := by
    rw [h1]
    exact List.countP_pos_iff.2 ⟨.releasing, List.mem_of_getElem? hi, rfl⟩
  exact ⟨_, .release s i hi hp, by simp; omega, rfl⟩

/-- C25: no slot leaks. -/
theorem slots_free {cap n : Nat} {url : Nat → Nat} {s : St} (h : Reach cap n url s)
    (hi : ∀ w ∈ s.ws, w = .idle ∨ w = .waiting) : s.chan = 0 := by
  obtain ⟨h1, h2, _⟩ := chan_inv h
  rw [h1, List.countP_eq_zero]
  intro w hw
  rcases hi w hw with rfl | rfl <;> simp [W.holds]

/-- C25: with a positive limit a waiting worker is held up only by workers that can go on. -/
theorem limiter_no_deadlock {cap n : Nat} {url : Nat → Nat} {s : St} (h : Reach cap n url s) (hc : 0 < cap) {i : Nat}
    (hi : s.ws[i]? = some .waiting) :
    (∃ t, Step cap url s t ∧ t.ws[i]? = some .fetching) ∨
    ∃ j w, j ≠ i ∧ s.ws[j]? = some w ∧ w.holds = true ∧ ∃ t, Step cap url s t ∧ t.ws[j]? ≠ s.ws[j]? := by
  obtain ⟨h1, h2, _⟩ := chan_inv h
  by_cases hlt : s.chan < cap
  · exact .inl ⟨_, .acquire s i hi hlt, by simp [St.put, put_get hi]⟩
  · right
    have hp : 0 < s.ws.countP W.holds := by omega
    obtain ⟨w, hw, hh⟩ := List.countP_pos_iff.1 hp
    obtain ⟨j, hj⟩ := List.getElem?_of_mem hw
    refine ⟨j, w, ?_, hj, hh, ?_⟩
    · rintro rfl; rw [hi] at hj; cases hj; simp [W.holds] at hh
    · cases w <;> simp [W.holds] at hh
      · exact ⟨_, .fetchFails s j 0 hj, by simp [St.put, put_get hj, hj]⟩
      · rename_i rev seen
        exact ⟨_, .buildFails s j rev seen hj, by simp [St.put, put_get hj, hj]⟩
      · exact ⟨_, .release s j hj (by omega), by simp [St.put, put_get hj, hj]⟩

/-- C45. Every file of an index is of the revision the index is labelled with. -/
def LabelFull : Prop :=
  ∀ (cap n : Nat) (url : Nat → Nat) (s : St), Reach cap n url s → ∀ b ∈ s.built, ∀ f ∈ b.files, f = b.rev

/-- C45, when no two repositories have the same url, or at most one indexes at a time. Missing: several repositories
with the same url (say, different branches of it) indexed concurrently. -/
theorem label_partial {cap n : Nat} {url : Nat → Nat} {s : St} (h : Reach cap n url s)
    (hu : (∀ i j, i < n → j < n → url i = url j → i = j) ∨ cap ≤ 1) : ∀ b ∈ s.built, ∀ f ∈ b.files, f = b.rev := by
  have key : (∀ i rev seen, s.ws[i]? = some (.indexing rev seen) → s.wdir (url i) = rev ∧ ∀ f ∈ seen, f = rev) ∧
      ∀ b ∈ s.built, ∀ f ∈ b.files, f = b.rev := by
    induction h with
    | init wdir => simp [List.getElem?_replicate]
    | @step s t h hs ih =>
      obtain ⟨g1, g2⟩ := ih
      obtain ⟨c1, c2, c3⟩ := chan_inv h
      -- a fetching worker is the only one on its working directory
      have alone : ∀ i j rev seen, s.ws[i]? = some .fetching → s.ws[j]? = some (.indexing rev seen) → url j ≠ url i := by
        intro i j rev seen hi hj he
        have hne : j ≠ i := by rintro rfl; rw [hi] at hj; cases hj
        rcases hu with hu | hu
        · refine hne (hu j i ?_ ?_ he)
          · rw [← c3]; exact (List.getElem?_eq_some_iff.1 hj).1
          · rw [← c3]; exact (List.getElem?_eq_some_iff.1 hi).1
        · have h1 := count_put hi .idle
          have hj' : (s.ws.set i .idle)[j]? = some (.indexing rev seen) := by rw [put_get hi, if_neg hne, hj]
          have h2 : 0 < (s.ws.set i .idle).countP W.holds :=
            List.countP_pos_iff.2 ⟨_, List.mem_of_getElem? hj', rfl⟩
          simp [W.holds] at h1
          omega
      cases hs
      all_goals rename _[_]? = some _ => a
      all_goals simp only [St.put, put_get a]
      all_goals grind
  exact key.2

/-- Repositories 0 and 1 have the same url; both are fetched, at revisions 1 and 2, before the files of 0 are read. -/
theorem not_labelFull : ¬ LabelFull := by
  intro hf
  have r0 : Reach 2 2 (fun _ => 0) ⟨[.idle, .idle], 0, fun _ => 0, []⟩ := .init _
  have r1 := r0.step (.start _ 0 rfl)
  have r2 := r1.step (.start _ 1 rfl)
  have r3 := r2.step (.acquire _ 0 rfl (by decide))
  have r4 := r3.step (.acquire _ 1 rfl (by decide))
  have r5 := r4.step (.fetched _ 0 1 rfl)
  have r6 := r5.step (.fetched _ 1 2 rfl)
  have r7 := r6.step (.read _ 0 1 [] rfl)
  have r8 := r7.step (.build _ 0 1 [2] rfl)
  have := hf _ _ _ _ r8 ⟨0, 1, [2]⟩ List.mem_cons_self 2 (by simp)
  cases this

/-- With different urls the same schedule is fine, and two workers are busy at once under the limit 2. -/
example : ∃ s, Reach 2 3 (fun i => i) s ∧ (s.ws.filter W.busy).length = 2 ∧ s.built = [⟨0, 1, [1]⟩] := by
  have r0 : Reach 2 3 (fun i => i) ⟨[.idle, .idle, .idle], 0, fun _ => 0, []⟩ := .init _
  have r1 := r0.step (.start _ 0 rfl)
  have r2 := r1.step (.start _ 1 rfl)
  have r2' := r2.step (.start _ 2 rfl)
  have r3 := r2'.step (.acquire _ 0 rfl (by decide))
  have r4 := r3.step (.acquire _ 1 rfl (by decide))
  have r5 := r4.step (.fetched _ 0 1 rfl)
  have r6 := r5.step (.fetched _ 1 2 rfl)
  have r7 := r6.step (.read _ 0 1 [] rfl)
  have r8 := r7.step (.build _ 0 1 [1] rfl)
  have r9 := r8.step (.release _ 0 rfl (by decide))
  have r10 := r9.step (.acquire _ 2 rfl (by decide))
  exact ⟨_, r10, rfl, rfl⟩

end Hound.Ix
