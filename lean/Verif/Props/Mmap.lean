import Verif.Spec.Mmap
import Verif.Proofs.SortPost
/-!
C108: files mapped into memory are read byte for byte, and are released.
-/

namespace Hound
namespace Mm

theorem roundUp_pages (n : Nat) : roundUp n = pages n := by unfold roundUp pages; omega
theorem le_pages (n : Nat) : n ≤ pages n := by unfold pages; omega
theorem pages_mod (n : Nat) : pages n = n ↔ n % 4096 = 0 := by unfold pages; omega

variable {content : Nat → Bytes} {p p' : Proc} {at_ f : Nat} {m : MData}

/-- **C108.** A file is mapped unless it has 2^63 - 4095 bytes or more. What is read from the slice is the file, byte for byte; what was
mapped before is as it was; and the mappings do not overlap. -/
theorem mapped_exact (hp : Sound p) (hr : Room p at_ (pages (content f).length)) (hlt : (content f).length + 4095 < 2 ^ 63) :
    ∃ m p', mmapFile content at_ p f = some (m, p') ∧ Sound p' ∧ m.f = f ∧ m.d.len = (content f).length ∧
      (∀ i, i < m.d.len → load content p' (m.d.addr + i) = (content f)[i]?) ∧
      (∀ a b, load content p a = some b → load content p' a = some b) ∧ (content f ≠ [] → Mapped p' m) ∧
      (∀ m', Mapped p m' → Mapped p' m') := by
  unfold mmapFile
  simp only [show ¬ ((content f).length + 4095 ≥ 2 ^ 63) by omega, if_false]
  by_cases h0 : (content f).length = 0
  · rw [if_pos h0]
    refine ⟨_, _, rfl, hp, rfl, h0.symm, fun i hi => ?_, fun a b h => h, fun hne => absurd (List.length_eq_zero_iff.1 h0) hne, fun m' h => h⟩
    simp at hi
  · rw [if_neg h0]
    have hle := le_pages (content f).length
    have e := roundUp_pages (content f).length
    refine ⟨_, _, rfl, ⟨?_, ?_⟩, rfl, rfl, fun i hi => ?_, fun a b h => ?_, fun _ => ?_, ?_⟩
    · intro r hm
      rcases List.mem_cons.1 hm with rfl | hm
      · simp only; omega
      · exact hp.1 r hm
    · rw [List.pairwise_cons]
      exact ⟨fun r hm => by rw [e]; exact hr r hm, hp.2⟩
    · simp only at hi ⊢
      unfold load
      rw [List.find?_cons_of_pos (by simp; omega)]
      simp [hi]
    · unfold load at h ⊢
      by_cases hin : at_ ≤ a ∧ a < at_ + roundUp (content f).length
      · exfalso
        split at h
        · cases h
        · rename_i r hf
          have hm := List.mem_of_find?_eq_some hf
          have hx := List.find?_some hf
          simp only [decide_eq_true_eq] at hx
          rcases hr r hm with h1 | h1 <;> omega
      · rw [List.find?_cons_of_neg (by simpa using hin)]
        exact h
    · exact ⟨_, List.mem_cons_self, rfl, rfl, rfl, rfl⟩
    · rintro m' ⟨r, hm, h1⟩
      exact ⟨r, List.mem_cons_of_mem _ hm, h1⟩

/-- Two mappings that end at the same address are one. -/
private theorem sound_end (hp : Sound p) {r r' : Region} (h : r ∈ p.regions) (h' : r' ∈ p.regions) (he : r.addr + r.len = r'.addr + r'.len) :
    r = r' := by
  obtain ⟨h1, h2⟩ := hp
  generalize p.regions = l at h h' h1 h2
  induction l with
  | nil => cases h
  | cons x l ih =>
    rw [List.pairwise_cons] at h2
    have hx := h1 x List.mem_cons_self
    rcases List.mem_cons.1 h with hA | hA <;> rcases List.mem_cons.1 h' with hB | hB
    · rw [hA, hB]
    · have := h1 r' (List.mem_cons_of_mem _ hB)
      subst hA
      rcases h2.1 r' hB with h3 | h3 <;> omega
    · have := h1 r (List.mem_cons_of_mem _ hA)
      subst hB
      rcases h2.1 r hA with h3 | h3 <;> omega
    · exact ih hA hB (fun y hy => h1 y (List.mem_cons_of_mem _ hy)) h2.2

private theorem munmap_found (hp : Sound p) {r : Region} (hm : r ∈ p.regions) :
    munmap p ⟨r.addr, r.len, r.len⟩ = some { p with regions := p.regions.filter fun r' => r' ≠ r } := by
  have hlen := hp.1 r hm
  unfold munmap
  rw [if_neg (by simp; omega)]
  cases hf : p.regions.find? fun r' => r'.addr + r'.len = r.addr + r.len with
  | none => exact absurd (List.find?_eq_none.1 hf r hm) (by simp)
  | some x =>
    have hx := List.find?_some hf
    simp only [decide_eq_true_eq] at hx
    have := sound_end hp (List.mem_of_find?_eq_some hf) hm hx
    subst this
    simp

/-- **C108.** Closing an index that is mapped succeeds: exactly its mapping is gone, all others are still there, and the file is closed.
Closing it once more is an error and changes nothing. -/
theorem close_releases (hp : Sound p) (hm : Mapped p m) :
    ∃ r, r.file = m.f ∧ r.addr = m.o.addr ∧ r.len = m.o.len ∧ (unmmapFile m p).1 = true ∧
      (∀ x, x ∈ (unmmapFile m p).2.regions ↔ x ∈ p.regions ∧ x ≠ r) ∧ (∀ g, g ∈ (unmmapFile m p).2.open_ ↔ g ∈ p.open_ ∧ g ≠ m.f) ∧
      Sound (unmmapFile m p).2 ∧ unmmapFile m (unmmapFile m p).2 = (false, (unmmapFile m p).2) := by
  obtain ⟨r, hr, h1, h2, h3, h4⟩ := hm
  have ho : m.o = ⟨r.addr, r.len, r.len⟩ := by
    obtain ⟨_, _, ⟨a, l, c⟩⟩ := m
    simp only at h2 h3 h4
    subst h4; rw [h2, h3]
  have e := munmap_found hp hr
  have hu : unmmapFile m p = (true, ⟨p.regions.filter fun r' => r' ≠ r, p.open_.filter fun f => f ≠ m.f⟩) := by
    unfold unmmapFile; rw [ho, e]
  refine ⟨r, h1, h2, h3, ?_⟩
  rw [hu]
  refine ⟨rfl, fun x => by simp, fun g => by simp, ⟨fun x hx => hp.1 x (List.mem_filter.1 hx).1, hp.2.filter _⟩, ?_⟩
  unfold unmmapFile munmap
  rw [ho]
  have hlen := hp.1 r hr
  rw [if_neg (by simp; omega)]
  have : ((p.regions.filter fun r' => r' ≠ r).find? fun r' => r'.addr + r'.len = r.addr + r.len) = none := by
    rw [List.find?_eq_none]
    intro x hx
    obtain ⟨hx1, hx2⟩ := List.mem_filter.1 hx
    simp only [decide_eq_true_eq] at hx2 ⊢
    intro he
    exact hx2 (sound_end hp hx1 hr he)
  simp only [this]

/-- **C108.** A buffer of the writer is released exactly if its file is made of whole pages; otherwise the call fails, and the mapping
stays for the life of the process. -/
theorem buffer_released_iff (hp : Sound p) (hr : Room p at_ (pages (content f).length)) (hne : content f ≠ [])
    (h : mmapFile content at_ p f = some (m, p')) :
    ((content f).length % 4096 = 0 → unmmap p' m.d = p) ∧ ((content f).length % 4096 ≠ 0 → unmmap p' m.d = p') := by
  have h0 : (content f).length ≠ 0 := fun e => hne (List.length_eq_zero_iff.1 e)
  have hlt : (content f).length + 4095 < 2 ^ 63 := by
    apply Classical.byContradiction
    intro hn
    unfold mmapFile at h
    rw [if_pos (by omega)] at h
    cases h
  obtain ⟨m', q, hm, hs, -⟩ := mapped_exact hp hr hlt
  rw [h] at hm
  cases hm
  unfold mmapFile at h
  simp only [show ¬ ((content f).length + 4095 ≥ 2 ^ 63) by omega, if_false, h0] at h
  cases h
  have e := roundUp_pages (content f).length
  constructor
  · intro hmod
    have he := (pages_mod _).2 hmod
    have := munmap_found hs (r := ⟨at_, roundUp (content f).length, f⟩) List.mem_cons_self
    simp only [unmmap]
    have hd : (⟨at_, (content f).length, roundUp (content f).length⟩ : Slice) =
        ⟨at_, roundUp (content f).length, roundUp (content f).length⟩ := by rw [e, he]
    rw [hd, this]
    simp only [Option.getD_some, List.filter_cons, ne_eq, not_true_eq_false, decide_false, Bool.false_eq_true, if_false]
    have hf : p.regions.filter (fun r' => decide ¬ r' = ⟨at_, roundUp (content f).length, f⟩) = p.regions := by
      rw [List.filter_eq_self]
      intro x hx
      simp only [decide_eq_true_eq]
      rintro rfl
      have := hp.1 _ hx
      rcases hr _ hx with h1 | h1 <;> simp only at h1 this <;> omega
    rw [hf]
  · intro hmod
    have he : pages (content f).length ≠ (content f).length := fun he => hmod ((pages_mod _).1 he)
    simp only [unmmap, munmap]
    rw [if_pos (Or.inr (by show (content f).length ≠ roundUp (content f).length; omega))]
    rfl

/-- Releasing the buffers in any order of files made of whole pages. -/
private theorem unmmap_kept (hp : Sound p) {r : Region} (hm : r ∈ p.regions) :
    unmmap p ⟨r.addr, r.len, r.len⟩ = { p with regions := p.regions.filter fun r' => r' ≠ r } := by
  unfold unmmap; rw [munmap_found hp hm]; rfl

private theorem mapAll_cons {fs : List (Nat × Nat)} {p'' : Proc} {ds : List Slice} (h : mmapFile content at_ p f = some (m, p'))
    (h' : mapAll content fs p' = some (ds, p'')) : mapAll content ((f, at_) :: fs) p = some (m.d :: ds, p'') := by
  simp [mapAll, h, h']

private theorem unmapAll_gen : ∀ (fs : List (Nat × Nat)) (p : Proc), Sound p →
    Rooms content p fs → (∀ e ∈ fs, (content e.1).length % 4096 = 0 ∧ content e.1 ≠ [] ∧ (content e.1).length + 4095 < 2 ^ 63) →
    ∃ ds rs, mapAll content fs p = some (ds, { p with regions := rs ++ p.regions }) ∧ Sound { p with regions := rs ++ p.regions } ∧
      rs.reverse.map (fun r => (⟨r.addr, r.len, r.len⟩ : Slice)) = ds := by
  intro fs
  induction fs with
  | nil => intro p hp _ _; exact ⟨[], [], rfl, hp, rfl⟩
  | cons e fs ih =>
    obtain ⟨f, at_⟩ := e
    intro p hp hr hlt
    cases hr with
    | cons _ _ _ _ hroom hrest =>
      obtain ⟨w1, w2, hl⟩ := hlt _ List.mem_cons_self
      simp only at w1 w2 hl
      obtain ⟨m, q, hm, hs, -⟩ := mapped_exact hp hroom hl
      have hm' := hm
      have h0 : (content f).length ≠ 0 := fun e => w2 (List.length_eq_zero_iff.1 e)
      have e := roundUp_pages (content f).length
      have he := (pages_mod _).2 w1
      unfold mmapFile at hm'
      simp only [show ¬ ((content f).length + 4095 ≥ 2 ^ 63) by omega, if_false, h0, e, Option.some.injEq, Prod.mk.injEq] at hm'
      obtain ⟨rfl, rfl⟩ := hm'
      obtain ⟨ds, rs, h1, h2, h3⟩ := ih _ hs hrest fun x hx => hlt x (List.mem_cons_of_mem _ hx)
      refine ⟨(⟨at_, (content f).length, pages (content f).length⟩ : Slice) :: ds, rs ++ [⟨at_, pages (content f).length, f⟩], ?_, ?_, ?_⟩
      · rw [List.append_assoc, List.singleton_append]
        exact mapAll_cons hm h1
      · simpa using h2
      · simp [h3, he]

private theorem unmapAll_back : ∀ (rs : List Region) (base : List Region) (o : List Nat), Sound ⟨rs ++ base, o⟩ →
    unmapAll ⟨rs ++ base, o⟩ (rs.reverse.map fun r => (⟨r.addr, r.len, r.len⟩ : Slice)) = ⟨base, o⟩ := by
  intro rs
  -- the last of `rs` was mapped first and is released first
  generalize hn : rs.length = n
  induction n generalizing rs with
  | zero => intro base o _; rw [List.length_eq_zero_iff.1 hn]; rfl
  | succ n ih =>
    intro base o hs
    obtain ⟨rs', x, rfl⟩ : ∃ rs' x, rs = rs' ++ [x] := by
      refine ⟨rs.dropLast, rs.getLast (fun e => by rw [e] at hn; cases hn), (List.dropLast_concat_getLast _).symm⟩
    have hmem : x ∈ (⟨rs' ++ [x] ++ base, o⟩ : Proc).regions := by simp
    rw [List.reverse_append, List.map_append]
    show unmapAll _ (⟨x.addr, x.len, x.len⟩ :: _) = _
    rw [unmapAll, List.foldl_cons, unmmap_kept hs hmem]
    have hpw := hs.2
    have hlen := hs.1 x hmem
    have hne : ∀ y ∈ rs' ++ base, y ≠ x := by
      rintro y hy rfl
      simp only [List.append_assoc, List.singleton_append] at hpw
      rw [List.pairwise_append] at hpw
      rcases List.mem_append.1 hy with hy | hy
      · rcases hpw.2.2 y hy y List.mem_cons_self with h | h <;> omega
      · rcases (List.pairwise_cons.1 hpw.2.1).1 y hy with h | h <;> omega
    have hfil : (rs' ++ [x] ++ base).filter (fun r' => decide (r' ≠ x)) = rs' ++ base := by
      have h1 : rs'.filter (fun r' => decide (r' ≠ x)) = rs' :=
        List.filter_eq_self.2 fun y hy => by simpa using hne y (List.mem_append_left _ hy)
      have h2 : base.filter (fun r' => decide (r' ≠ x)) = base :=
        List.filter_eq_self.2 fun y hy => by simpa using hne y (List.mem_append_right _ hy)
      rw [List.filter_append, List.filter_append, h1, h2]
      simp
    rw [hfil]
    refine ih rs' (by simpa using hn) base o ⟨fun r hr => hs.1 r ?_, ?_⟩
    · simp only [List.mem_append] at hr ⊢
      rcases hr with hr | hr
      · exact .inl (.inl hr)
      · exact .inr hr
    · have := hpw.filter (fun r' => decide (r' ≠ x))
      rwa [hfil] at this

/-! ### The writer's buffers -/

private theorem addPosts_full {cfg : IWConfig} (fid : Nat) : ∀ (ts : List Nat) (ix ix' : IW), IW.addPosts fid ix ts = some ix' →
    (ix.cfg = cfg ∧ ix.post.length ≤ cfg.npost ∧ ∀ c ∈ ix.postFile, c.length = cfg.npost) → 0 < cfg.npost →
    ix'.cfg = cfg ∧ ix'.post.length ≤ cfg.npost ∧ ∀ c ∈ ix'.postFile, c.length = cfg.npost := by
  intro ts
  induction ts with
  | nil => intro ix ix' h hi _; cases h; exact hi
  | cons t ts ih =>
    rintro ix ix' h ⟨h1, h2, h3⟩ hn
    unfold IW.addPosts at h
    by_cases hf : ix.post.length ≥ ix.cfg.npost
    · rw [if_pos hf] at h
      unfold IW.flushPost at h
      rw [h1] at hf
      rw [if_neg (by omega)] at h
      refine ih _ _ h ⟨h1, by simp; omega, fun c hc => ?_⟩ hn
      simp only [List.mem_append, List.mem_singleton] at hc
      rcases hc with hc | rfl
      · exact h3 c hc
      · rw [(sortPost_perm _).length_eq]; omega
    · rw [if_neg hf] at h
      rw [h1] at hf
      exact ih _ _ h ⟨h1, by simp; omega, h3⟩ hn

private theorem add_full {cfg : IWConfig} {ix ix' : IW} {name : Bytes} {r : Reader} {res : Option SkipReason}
    (h : ix.add name r = some (res, ix')) (hn : 0 < cfg.npost)
    (hi : ix.cfg = cfg ∧ ix.post.length ≤ cfg.npost ∧ ∀ c ∈ ix.postFile, c.length = cfg.npost) :
    ix'.cfg = cfg ∧ ix'.post.length ≤ cfg.npost ∧ ∀ c ∈ ix'.postFile, c.length = cfg.npost := by
  unfold IW.add at h
  split at h
  · cases h
  · cases h; exact hi
  · cases h; exact hi
  · split at h
    · cases h; exact hi
    · unfold IW.addIndexed IW.addName at h
      split at h
      · cases h
      · rename_i fid ix1 hname
        split at h
        · cases h
        · rename_i ix2 hposts
          cases h
          refine addPosts_full fid _ _ _ hposts ?_ hn
          split at hname
          · cases hname
          · split at hname
            · cases hname
            · cases hname; exact hi

private theorem addAll_full {cfg : IWConfig} (hn : 0 < cfg.npost) : ∀ (files : List (Bytes × Reader)) (ix ix' : IW)
    (ress : List (Option SkipReason)), ix.addAll files = some (ress, ix') →
    (ix.cfg = cfg ∧ ix.post.length ≤ cfg.npost ∧ ∀ c ∈ ix.postFile, c.length = cfg.npost) →
    ix'.cfg = cfg ∧ ix'.post.length ≤ cfg.npost ∧ ∀ c ∈ ix'.postFile, c.length = cfg.npost := by
  intro files
  induction files with
  | nil => intro ix ix' ress h hi; cases h; exact hi
  | cons e files ih =>
    obtain ⟨name, r⟩ := e
    intro ix ix' ress h hi
    unfold IW.addAll at h
    split at h
    · cases h
    · rename_i res ix1 hadd
      split at h
      · cases h
      · rename_i ress' ix2 hall
        cases h
        exact ih _ _ _ hall (add_full hadd hn hi)

/-- **C108.** Whatever files are indexed: every buffer the writer puts aside has all of its 8388608 entries, and so its file of 8 bytes each
is made of whole pages. -/
theorem buffers_whole {paths : List Bytes} {files : List (Bytes × Reader)} {ress : List (Option SkipReason)} {ix : IW}
    (h : ((IW.create goConfig).addPaths paths).addAll files = some (ress, ix)) :
    ∀ c ∈ ix.postFile, c.length = 8388608 ∧ (8 * c.length) % 4096 = 0 := by
  have := addAll_full (cfg := goConfig) (by decide) files _ _ _ h ⟨rfl, by simp [IW.create, IW.addPaths], by simp [IW.create, IW.addPaths]⟩
  intro c hc
  have hl := this.2.2 c hc
  have e : goConfig.npost = 8388608 := by decide
  rw [e] at hl
  exact ⟨hl, by rw [hl]⟩

/-- **C108.** Whatever files are indexed, in whatever order and wherever the system finds room: when the index has been written, all the
memory that was mapped for it has been released, and nothing else. -/
theorem flush_releases {paths : List Bytes} {files : List (Bytes × Reader)} {ress : List (Option SkipReason)} {ix : IW}
    (h : ((IW.create goConfig).addPaths paths).addAll files = some (ress, ix)) {fs : List (Nat × Nat)}
    (hfs : fs.map (fun e => (content e.1).length) = ix.postFile.map fun c => 8 * c.length) (hp : Sound p) (hr : Rooms content p fs) :
    ∃ ds q, mapAll content fs p = some (ds, q) ∧ unmapAll q ds = p := by
  have hw := buffers_whole h
  have hall : ∀ e ∈ fs, (content e.1).length = 67108864 := by
    intro e he
    have : (content e.1).length ∈ ix.postFile.map fun c => 8 * c.length := by
      rw [← hfs]; exact List.mem_map.2 ⟨e, he, rfl⟩
    obtain ⟨c, hc, e'⟩ := List.mem_map.1 this
    have := (hw c hc).1
    omega
  obtain ⟨ds, rs, h1, h2, h3⟩ := unmapAll_gen fs p hp hr fun e he => by
    have := hall e he
    refine ⟨by omega, fun hn => ?_, by omega⟩
    rw [hn] at this
    simp at this
  refine ⟨ds, _, h1, ?_⟩
  rw [← h3]
  exact unmapAll_back rs p.regions p.open_ h2

/-! ### Cases -/

/-- A process with one mapping, and two files: one of 5 bytes and one of a whole page. -/
private def exProc : Proc := ⟨[⟨0, 4096, 9⟩], [9, 1]⟩
private def exContent : Nat → Bytes := fun f => if f = 1 then b!"hound" else List.replicate 4096 7
private theorem exSound : Sound exProc := by simp [Sound, exProc]
private theorem exRoom (f : Nat) : Room exProc 8192 (pages (exContent f).length) := by
  simp [Room, exProc, Apart]

example : ∃ m q, mmapFile exContent 8192 exProc 1 = some (m, q) ∧ load exContent q (m.d.addr + 1) = some 111 ∧
    (unmmapFile m q).1 = true ∧ unmmapFile m (unmmapFile m q).2 = (false, (unmmapFile m q).2) := by
  obtain ⟨m, q, h1, h2, -, h3, h4, -, h5, -⟩ := mapped_exact (f := 1) exSound (exRoom 1) (by simp [exContent])
  obtain ⟨r, -, -, -, k1, -, -, -, k2⟩ := close_releases h2 (h5 (by simp [exContent]))
  exact ⟨m, q, h1, by rw [h4 1 (by rw [h3]; simp [exContent])]; rfl, k1, k2⟩
/-- A buffer of 5 bytes would not be released, one of a page is. -/
example : ∃ m q, mmapFile exContent 8192 exProc 1 = some (m, q) ∧ unmmap q m.d = q ∧ q.regions ≠ exProc.regions := by
  obtain ⟨m, q, h1, -⟩ := mapped_exact (f := 1) exSound (exRoom 1) (by simp [exContent])
  refine ⟨m, q, h1, (buffer_released_iff exSound (exRoom 1) (by simp [exContent]) h1).2 (by simp [exContent]), ?_⟩
  cases h1
  simp [exProc]
example : ∃ m q, mmapFile exContent 8192 exProc 2 = some (m, q) ∧ unmmap q m.d = exProc := by
  have e : (exContent 2).length = 4096 := List.length_replicate
  obtain ⟨m, q, h1, -⟩ := mapped_exact (f := 2) exSound (exRoom 2) (by omega)
  exact ⟨m, q, h1, (buffer_released_iff exSound (exRoom 2) (fun h => by rw [h] at e; cases e) h1).1 (by omega)⟩
/-- The room the theorem asks for is found. -/
example (c : Nat → Bytes) (hc : ∀ f, (c f).length = 67108864) : Rooms c exProc [(1, 2 ^ 30), (2, 2 ^ 31)] := by
  have e : pages 67108864 = 67108864 := by decide
  refine .cons _ _ _ _ ?_ (.cons _ _ _ _ ?_ (.nil _))
  · simp [Room, exProc, Apart]
  · rw [hc, e]; simp [Room, exProc, Apart, hc, e]

end Mm
end Hound
