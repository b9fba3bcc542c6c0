import Verif.Spec.MmapWin
import Verif.Props.Mmap
/-!
C109: mapped files on Windows. Indexes are read byte for byte and released; the writer's buffers are not.
-/

namespace Hound
namespace Mm
namespace Win

variable {content : Nat → Bytes} {p p' : Proc} {at_ f : Nat} {m : MData}

/-- **C109.** A file of at most 2^30 bytes is mapped, what is read is the file, byte for byte, and what was mapped before is as it was. -/
theorem win_mapped_exact_partial (hp : Sound p) (hr : Room p at_ (pages (content f).length)) (hle : (content f).length ≤ 2 ^ 30) :
    ∃ m p', mmapFile content at_ p f = some (m, p') ∧ Sound p' ∧ m.f = f ∧ m.d.len = (content f).length ∧
      (∀ i, i < m.d.len → load content p' (m.d.addr + i) = (content f)[i]?) ∧
      (∀ a b, load content p a = some b → load content p' a = some b) ∧ (content f ≠ [] → Viewed p' m) ∧
      (∀ m', Viewed p m' → Viewed p' m') := by
  obtain ⟨m, q, hm, hs, h1, h2, h3, h4, -, -⟩ := mapped_exact hp hr (by omega)
  unfold Mm.mmapFile at hm
  simp only [show ¬ ((content f).length + 4095 ≥ 2 ^ 63) by omega, if_false] at hm
  unfold mmapFile
  have hw := le_pages (content f).length
  have e := roundUp_pages (content f).length
  by_cases h0 : (content f).length = 0
  · simp only [h0, if_true] at hm ⊢
    cases hm
    exact ⟨_, _, rfl, hp, rfl, rfl, h3, h4, fun hne => absurd (List.length_eq_zero_iff.1 h0) hne, fun m' h => h⟩
  · simp only [h0, if_false, show ¬ (content f).length > 2 ^ 30 by omega] at hm ⊢
    cases hm
    refine ⟨_, _, rfl, hs, rfl, rfl, h3, h4, fun _ => ⟨_, List.mem_cons_self, rfl, rfl, ?_, ?_⟩, ?_⟩
    · simp only; omega
    · simp only; omega
    · rintro m' ⟨r, hr, h⟩
      exact ⟨r, List.mem_cons_of_mem _ hr, h⟩

/-- **C109.** Every longer file ends the program, although it is not too large for the system. -/
theorem win_large_fails (content : Nat → Bytes) (at_ : Nat) (p : Proc) (f : Nat) :
    mmapFile content at_ p f = none ↔ 2 ^ 30 < (content f).length := by
  unfold mmapFile
  by_cases h0 : (content f).length = 0
  · simp [h0]
  · by_cases h : (content f).length > 2 ^ 30
    · simp only [h0, h, if_true, if_false]
    · simp only [h0, h, if_false, reduceCtorEq]

private theorem sound_start (hp : Sound p) {r r' : Region} (h : r ∈ p.regions) (h' : r' ∈ p.regions) (he : r.addr = r'.addr) : r = r' := by
  obtain ⟨h1, h2⟩ := hp
  generalize p.regions = l at h h' h1 h2
  induction l with
  | nil => cases h
  | cons x l ih =>
    rw [List.pairwise_cons] at h2
    have hx := h1 x List.mem_cons_self
    rcases List.mem_cons.1 h with hA | hA <;> rcases List.mem_cons.1 h' with hB | hB
    · rw [hA, hB]
    · have := h1 r' (List.mem_cons_of_mem _ hB)
      subst hA
      rcases h2.1 r' hB with h3 | h3 <;> omega
    · have := h1 r (List.mem_cons_of_mem _ hA)
      subst hB
      rcases h2.1 r hA with h3 | h3 <;> omega
    · exact ih hA hB (fun y hy => h1 y (List.mem_cons_of_mem _ hy)) h2.2

/-- **C109.** Closing an index that is mapped succeeds: exactly its mapping is gone, all others are still there, and the file is closed.
Closing it once more is an error and changes nothing. -/
theorem win_close_releases (hp : Sound p) (hm : Viewed p m) :
    ∃ r ∈ p.regions, r.file = m.f ∧ r.addr = m.d.addr ∧ (unmmapFile m p).1 = .ok ∧
      (∀ x, x ∈ (unmmapFile m p).2.regions ↔ x ∈ p.regions ∧ x ≠ r) ∧ (∀ g, g ∈ (unmmapFile m p).2.open_ ↔ g ∈ p.open_ ∧ g ≠ m.f) ∧
      Sound (unmmapFile m p).2 ∧ unmmapFile m (unmmapFile m p).2 = (.failed, (unmmapFile m p).2) := by
  obtain ⟨r, hr, h1, h2, h3, h4⟩ := hm
  have hu : unmmapFile m p = (.ok, ⟨p.regions.filter fun r' => r' ≠ r, p.open_.filter fun f => f ≠ m.f⟩) := by
    unfold unmmapFile unmapView
    rw [if_neg (by omega)]
    cases hf : p.regions.find? fun r' => r'.addr = m.d.addr with
    | none => exact absurd (List.find?_eq_none.1 hf r hr) (by simp [h2])
    | some x =>
      have hx := List.find?_some hf
      simp only [decide_eq_true_eq] at hx
      have := sound_start hp (List.mem_of_find?_eq_some hf) hr (by omega)
      subst this
      rfl
  refine ⟨r, hr, h1, h2, ?_⟩
  rw [hu]
  refine ⟨rfl, fun x => by simp, fun g => by simp, ⟨fun x hx => hp.1 x (List.mem_filter.1 hx).1, hp.2.filter _⟩, ?_⟩
  unfold unmmapFile unmapView
  rw [if_neg (by omega)]
  have : ((p.regions.filter fun r' => r' ≠ r).find? fun r' => r'.addr = m.d.addr) = none := by
    rw [List.find?_eq_none]
    intro x hx
    obtain ⟨hx1, hx2⟩ := List.mem_filter.1 hx
    simp only [decide_eq_true_eq] at hx2 ⊢
    intro he
    exact hx2 (sound_start hp hx1 hr (by omega))
  simp only [this]

private theorem unmapAll_same : ∀ (ds : List (Nat × Slice)) (p : Proc),
    (∀ d ∈ ds, ∀ r ∈ p.regions, ¬ (r.addr ≤ d.1 ∧ d.1 < r.addr + r.len)) → (∀ r ∈ p.regions, 0 < r.len) → unmapAll p ds = p := by
  intro ds
  induction ds with
  | nil => intro p _ _; rfl
  | cons d ds ih =>
    intro p h h0
    have : unmmap d.1 p d.2 = p := by
      unfold unmmap unmapView
      have : (p.regions.find? fun r => r.addr = d.1) = none := by
        rw [List.find?_eq_none]
        intro r hr
        have := h0 r hr
        have := h d List.mem_cons_self r hr
        simp only [decide_eq_true_eq]
        omega
      rw [this]; rfl
    rw [unmapAll, List.foldl_cons, this]
    exact ih p (fun d' hd => h d' (List.mem_cons_of_mem _ hd)) h0

private theorem mapAll_cons {fs : List (Nat × Nat)} {p'' : Proc} {ds : List Slice} (h : mmapFile content at_ p f = some (m, p'))
    (h' : mapAll content fs p' = some (ds, p'')) : mapAll content ((f, at_) :: fs) p = some (m.d :: ds, p'') := by
  simp [mapAll, h, h']

private theorem mapAll_gen : ∀ (fs : List (Nat × Nat)) (p : Proc), Sound p → Rooms content p fs →
    (∀ e ∈ fs, content e.1 ≠ [] ∧ (content e.1).length ≤ 2 ^ 30) →
    ∃ ds rs, mapAll content fs p = some (ds, { p with regions := rs ++ p.regions }) ∧ Sound { p with regions := rs ++ p.regions } ∧
      rs.length = fs.length ∧ ds.length = fs.length ∧ rs.reverse.map (·.file) = fs.map (·.1) := by
  intro fs
  induction fs with
  | nil => intro p hp _ _; exact ⟨[], [], rfl, hp, rfl, rfl, rfl⟩
  | cons e fs ih =>
    obtain ⟨f, at_⟩ := e
    intro p hp hr hlt
    cases hr with
    | cons _ _ _ _ hroom hrest =>
      obtain ⟨w2, hl⟩ := hlt _ List.mem_cons_self
      simp only at w2 hl
      obtain ⟨m, q, hm, hs, -⟩ := win_mapped_exact_partial hp hroom hl
      have hm' := hm
      have h0 : (content f).length ≠ 0 := fun e => w2 (List.length_eq_zero_iff.1 e)
      have e := roundUp_pages (content f).length
      unfold mmapFile at hm'
      simp only [h0, show ¬ (content f).length > 2 ^ 30 by omega, if_false, e, Option.some.injEq, Prod.mk.injEq] at hm'
      obtain ⟨rfl, rfl⟩ := hm'
      obtain ⟨ds, rs, h1, h2, h3, h4, h5⟩ := ih _ hs hrest fun x hx => hlt x (List.mem_cons_of_mem _ hx)
      refine ⟨(⟨at_, (content f).length, 2 ^ 30⟩ : Slice) :: ds, rs ++ [⟨at_, pages (content f).length, f⟩], ?_, ?_, ?_, ?_, ?_⟩
      · rw [List.append_assoc, List.singleton_append]
        exact mapAll_cons hm h1
      · simpa using h2
      · simp [h3]
      · simp [h4]
      · simp [h5]

/-- The full statement: when the index has been written, all the memory that was mapped for it has been released, and nothing else. The
variables of the program are not in mapped files. -/
def ReleasesFull : Prop := ∀ (content : Nat → Bytes) (p q : Proc) (fs : List (Nat × Nat)) (ds : List Slice) (vars : List Nat),
  (∀ e ∈ fs, (content e.1).length = 67108864) → Sound p → Rooms content p fs → mapAll content fs p = some (ds, q) →
  vars.length = ds.length → (∀ v ∈ vars, ∀ r ∈ q.regions, ¬ (r.addr ≤ v ∧ v < r.addr + r.len)) → unmapAll q (vars.zip ds) = p

/-- **C109.** Whatever files are indexed: no buffer of the writer is ever released. When the index has been written, the memory that was
mapped before is still mapped, and so is one more file for each buffer. -/
theorem win_never_released {paths : List Bytes} {files : List (Bytes × Reader)} {ress : List (Option SkipReason)} {ix : IW}
    (h : ((IW.create goConfig).addPaths paths).addAll files = some (ress, ix)) {fs : List (Nat × Nat)}
    (hfs : fs.map (fun e => (content e.1).length) = ix.postFile.map fun c => 8 * c.length) (hp : Sound p) (hr : Rooms content p fs) :
    ∃ ds rs, mapAll content fs p = some (ds, { p with regions := rs ++ p.regions }) ∧ rs.reverse.map (·.file) = fs.map (·.1) ∧
      ∀ vars : List Nat, (∀ v ∈ vars, ∀ r ∈ rs ++ p.regions, ¬ (r.addr ≤ v ∧ v < r.addr + r.len)) →
        unmapAll { p with regions := rs ++ p.regions } (vars.zip ds) = { p with regions := rs ++ p.regions } := by
  have hw := buffers_whole h
  have hall : ∀ e ∈ fs, (content e.1).length = 67108864 := by
    intro e he
    have : (content e.1).length ∈ ix.postFile.map fun c => 8 * c.length := by
      rw [← hfs]; exact List.mem_map.2 ⟨e, he, rfl⟩
    obtain ⟨c, hc, e'⟩ := List.mem_map.1 this
    have := (hw c hc).1
    omega
  obtain ⟨ds, rs, h1, h2, h3, h4, h5⟩ := mapAll_gen fs p hp hr fun e he => by
    have := hall e he
    refine ⟨fun hn => ?_, by omega⟩
    rw [hn] at this
    simp at this
  refine ⟨ds, rs, h1, h5, fun vars hv => unmapAll_same _ _ (fun d hd r hr => hv d.1 ?_ r hr) h2.1⟩
  exact (List.of_mem_zip (a := d.1) (b := d.2) hd).1

/-! ### Cases -/

private def exContent (n : Nat) : Nat → Bytes := fun _ => List.replicate n 7
private theorem exLen (n f : Nat) : (exContent n f).length = n := List.length_replicate
private theorem exRoom (n : Nat) : Rooms (exContent n) ⟨[], []⟩ [(1, 2 ^ 30)] :=
  .cons _ _ _ _ (by intro r hr; cases hr) (.nil _)
private theorem exSound : Sound ⟨[], []⟩ := ⟨fun r hr => (by cases hr), .nil⟩

/-- **C109.** The full statement is false: one buffer is enough. -/
theorem not_releasesFull : ¬ ReleasesFull := fun hf => by
  obtain ⟨ds, rs, h1, h2, h3, h4, -⟩ := mapAll_gen (content := exContent 67108864) [(1, 2 ^ 30)] ⟨[], []⟩ exSound (exRoom _) (by
    intro e _
    have := exLen 67108864 e.1
    exact ⟨fun hn => (by rw [hn] at this; simp at this), by omega⟩)
  have hfree : ∃ v, ∀ r ∈ rs ++ [], ¬ (r.addr ≤ v ∧ v < r.addr + r.len) := by
    match rs, h3 with
    | [r], _ => exact ⟨r.addr + r.len, fun x hx => by simp at hx; subst hx; omega⟩
  obtain ⟨v, hv⟩ := hfree
  have := hf (exContent 67108864) ⟨[], []⟩ _ [(1, 2 ^ 30)] ds [v] (fun e _ => exLen _ _) exSound (exRoom _) h1 (by rw [h4]; rfl)
    (fun w hw r hr => by simp at hw; subst hw; exact hv r hr)
  rw [unmapAll_same _ _ (fun d hd r hr => ?_) h2.1] at this
  · have := congrArg (fun q => q.regions.length) this
    simp [h3] at this
  · have := (List.of_mem_zip (a := d.1) (b := d.2) hd).1
    simp at this
    rw [this]; exact hv r hr

example : ∃ m q, mmapFile (exContent 5) 4096 ⟨[], [1]⟩ 1 = some (m, q) ∧ load (exContent 5) q (m.d.addr + 1) = some 7 ∧
    (unmmapFile m q).1 = .ok ∧ unmmapFile m (unmmapFile m q).2 = (.failed, (unmmapFile m q).2) := by
  obtain ⟨m, q, h1, h2, -, h3, h4, -, h5, -⟩ := win_mapped_exact_partial (content := exContent 5) (p := ⟨[], [1]⟩) (at_ := 4096) (f := 1)
    ⟨fun r hr => (by cases hr), .nil⟩ (fun r hr => by cases hr) (by rw [exLen]; omega)
  obtain ⟨r, -, -, -, k1, -, -, -, k2⟩ := win_close_releases h2 (h5 (by intro h; have := exLen 5 1; rw [h] at this; cases this))
  exact ⟨m, q, h1, by rw [h4 1 (by rw [h3, exLen]; omega)]; rfl, k1, k2⟩
example : mmapFile (exContent (2 ^ 30 + 1)) 4096 ⟨[], []⟩ 1 = none := (win_large_fails _ _ _ _).2 (by rw [exLen]; omega)

end Win
end Mm
end Hound
