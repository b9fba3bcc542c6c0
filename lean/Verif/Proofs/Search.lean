import Verif.Model.Search
import Verif.Proofs.GrepProps

namespace Hound
open Spec

/-! ## `grep2` as a fold over `grepAll`, for any matcher -/

theorem grep2Loop_collect (mt : Bytes → Option Nat) (nctx : Nat) (fuel : Nat) (buf : Bytes)
    (n : Nat) (acc : List LineMatch) :
    grep2Loop mt nctx (fun st m => (st ++ [m], true)) fuel buf n acc =
      acc ++ grep2Loop mt nctx (fun st m => (st ++ [m], true)) fuel buf n [] := by
  induction fuel generalizing buf n acc with
  | zero => simp [grep2Loop]
  | succ fuel ih =>
    simp only [grep2Loop]
    split
    · simp
    · split
      · simp
      · simp only [if_true]
        rw [ih]; conv => rhs; rw [ih]
        simp

theorem grep2Loop_foldStop {σ : Type} (mt : Bytes → Option Nat) (nctx : Nat)
    (fn : σ → LineMatch → σ × Bool) (fuel : Nat) (buf : Bytes) (n : Nat) (st : σ) :
    grep2Loop mt nctx fn fuel buf n st =
      foldStop fn (grep2Loop mt nctx (fun st m => (st ++ [m], true)) fuel buf n []) st := by
  induction fuel generalizing buf n st with
  | zero => simp [grep2Loop, foldStop]
  | succ fuel ih =>
    simp only [grep2Loop]
    split
    · simp [foldStop]
    · split
      · simp [foldStop]
      · simp only [if_true]
        rw [grep2Loop_collect]
        simp only [List.nil_append, List.singleton_append, foldStop]
        rw [ih]

theorem grep2_foldStop {σ : Type} (mt : Bytes → Option Nat) (nctx : Nat)
    (fn : σ → LineMatch → σ × Bool) (buf : Bytes) (st : σ) :
    grep2 mt nctx fn buf st = foldStop fn (grepAll mt nctx buf) st :=
  grep2Loop_foldStop mt nctx fn buf.length buf 0 st

theorem filterMap_congr' {α β : Type} {f g : α → Option β} {l : List α}
    (h : ∀ x ∈ l, f x = g x) : l.filterMap f = l.filterMap g := by
  induction l with
  | nil => rfl
  | cons a l ih =>
    simp only [List.filterMap_cons, h a (by simp), ih (fun x hx => h x (by simp [hx]))]

/-! ## the callback over the matches of one file -/

/-- Is this file outside the requested page? -/
def outsidePage (opt : SearchOptions) (ff fc : Nat) : Prop :=
  (ff : Int) < opt.offset ∨ (opt.limit > 0 ∧ (fc : Int) ≥ opt.limit)

instance (opt : SearchOptions) (ff fc : Nat) : Decidable (outsidePage opt ff fc) := by
  unfold outsidePage; infer_instance

/-- The matches of one file that still fit under the cap. -/
def underCap (opt : SearchOptions) (mc : Nat) {α : Type} (ms : List α) : List α :=
  if opt.maxResults > 0 then ms.take (opt.maxResults.toNat - mc) else ms

theorem cb_outside {opt : SearchOptions} {ff fc : Nat} (h : outsidePage opt ff fc)
    (m : LineMatch) (ms : List LineMatch) (st : CbState) :
    foldStop (searchCb opt ff fc) (m :: ms) st = { st with hasMatch := true } := by
  unfold outsidePage at h
  simp [foldStop, searchCb, h]

theorem cb_inside {opt : SearchOptions} {ff fc : Nat} (h : ¬ outsidePage opt ff fc)
    (ms : List LineMatch) (st : CbState) (hms : ms ≠ [])
    (hcap : ¬ (opt.maxResults > 0 ∧ (st.matchesCollected : Int) ≥ opt.maxResults)) :
    foldStop (searchCb opt ff fc) ms st =
      { hasMatch := true
        matches_ := st.matches_ ++ underCap opt st.matchesCollected ms
        matchesCollected := st.matchesCollected + (underCap opt st.matchesCollected ms).length } := by
  induction ms generalizing st with
  | nil => exact absurd rfl hms
  | cons m ms ih =>
    have h' := h
    unfold outsidePage at h'
    simp only [foldStop, searchCb, if_neg h']
    by_cases hc : opt.maxResults > 0 ∧ ((st.matchesCollected + 1 : Nat) : Int) ≥ opt.maxResults
    · simp only [if_pos hc]
      have hone : opt.maxResults.toNat - st.matchesCollected = 1 := by omega
      have hc1 : opt.maxResults > 0 := hc.1
      simp [underCap, hc1, hone]
    · simp only [if_neg hc, if_true]
      cases ms with
      | nil =>
        simp only [foldStop]
        have : underCap opt st.matchesCollected [m] = [m] := by
          unfold underCap
          split
          · rw [List.take_of_length_le]; simp; omega
          · rfl
        simp [this]
      | cons m' ms =>
        rw [ih _ (by simp) hc]
        have : underCap opt st.matchesCollected (m :: m' :: ms) =
            m :: underCap opt (st.matchesCollected + 1) (m' :: ms) := by
          unfold underCap
          split
          · rw [show opt.maxResults.toNat - st.matchesCollected =
              (opt.maxResults.toNat - (st.matchesCollected + 1)) + 1 by omega, List.take_succ_cons]
          · rfl
        simp [this]; omega

/-! ## the loop over files -/

/-- The files among `files` that contain a match and whose name is not rejected, with all their
matches. Files that cannot be read are left out. -/
def fileHits {Q : Type} (ctx : Nat) (re : Compiled Q) (fre excludeFre : Option (Compiled Q))
    (ix : IndexView Q) (files : List Nat) : List FileMatch :=
  files.filterMap fun f =>
    if nameRejected fre excludeFre (ix.name f) then none
    else match ix.raw (ix.name f) with
      | none => none
      | some buf =>
        if grepAll re.mt ctx buf = [] then none
        else some {
          filename := ix.name f
          matches_ := grepAll re.mt ctx buf
          autoGenerated := containsString ix.autoGeneratedFiles (ix.name f) }

/-- All candidate files that are not rejected by name can be read. -/
def Readable {Q : Type} (fre excludeFre : Option (Compiled Q)) (ix : IndexView Q)
    (files : List Nat) : Prop :=
  ∀ f ∈ files, nameRejected fre excludeFre (ix.name f) = false → (ix.raw (ix.name f)).isSome

/-- Cut the list of all (file, match) pairs after `n`. -/
def flat (fms : List FileMatch) : List (Bytes × LineMatch) :=
  fms.flatMap fun fm => fm.matches_.map fun m => (fm.filename, m)

theorem flat_append (a b : List FileMatch) : flat (a ++ b) = flat a ++ flat b := by
  simp [flat]

theorem fileHits_cons {Q : Type} (ctx : Nat) (re : Compiled Q) (fre excludeFre : Option (Compiled Q))
    (ix : IndexView Q) (f : Nat) (files : List Nat) :
    fileHits ctx re fre excludeFre ix (f :: files) =
      fileHits ctx re fre excludeFre ix [f] ++ fileHits ctx re fre excludeFre ix files := by
  unfold fileHits
  rw [← List.filterMap_append, List.singleton_append]

/-- What one loop iteration does, with the cap not yet reached. -/
theorem searchFile_eq {Q : Type} (opt : SearchOptions) (re : Compiled Q)
    (fre excludeFre : Option (Compiled Q)) (ix : IndexView Q) (st : SearchState) (f : Nat)
    (hcap : ¬ (opt.maxResults > 0 ∧ (st.matchesCollected : Int) ≥ opt.maxResults))
    (hread : Readable fre excludeFre ix [f]) :
    ∃ op, searchFile opt re fre excludeFre ix st f =
      match fileHits opt.linesOfContext re fre excludeFre ix [f] with
      | [] => .ok { st with filesOpened := op }
      | fm :: _ =>
        if outsidePage opt st.filesFound st.filesCollected then
          .ok { st with filesOpened := op, filesFound := st.filesFound + 1 }
        else .ok {
          results := st.results ++ [{ fm with matches_ := underCap opt st.matchesCollected fm.matches_ }]
          filesOpened := op
          filesFound := st.filesFound + 1
          filesCollected := st.filesCollected + 1
          matchesCollected := st.matchesCollected +
            (underCap opt st.matchesCollected fm.matches_).length } := by
  unfold searchFile fileHits
  by_cases hr : nameRejected fre excludeFre (ix.name f) = true
  · refine ⟨st.filesOpened, ?_⟩
    simp [hr]
  · have hr' : nameRejected fre excludeFre (ix.name f) = false := by simpa using hr
    have hs := hread f (by simp) hr'
    obtain ⟨buf, hbuf⟩ := Option.isSome_iff_exists.1 hs
    refine ⟨st.filesOpened + 1, ?_⟩
    simp only [hr', hbuf, if_neg hcap, Bool.false_eq_true, if_false]
    rw [grep2_foldStop]
    by_cases hms : grepAll re.mt opt.linesOfContext buf = []
    · simp [hms, foldStop, hr', hbuf]
    · by_cases ho : outsidePage opt st.filesFound st.filesCollected
      · obtain ⟨m, ms, hcons⟩ := List.exists_cons_of_ne_nil hms
        simp only [List.filterMap_cons, hr', hbuf, if_neg hms, List.filterMap_nil, if_pos ho,
          Bool.false_eq_true, if_false]
        simp only [hcons, cb_outside ho]
        simp
      · rw [cb_inside ho _ _ hms hcap]
        simp only [List.filterMap_cons, hr', hbuf, if_neg hms, List.filterMap_nil, if_neg ho,
          Bool.false_eq_true, if_false, List.nil_append]
        have hlen : (underCap opt st.matchesCollected (grepAll re.mt opt.linesOfContext buf)).length > 0 := by
          have hpos := List.length_pos_iff.2 hms
          unfold underCap
          split
          · rw [List.length_take]; omega
          · exact hpos
        simp [hlen]

/-- Rows of a list belonging to the page still open. -/
def restPage (opt : SearchOptions) (ff fc : Nat) {α : Type} (xs : List α) : List α :=
  let ys := xs.drop (opt.offset - ff).toNat
  if opt.limit > 0 then ys.take (opt.limit - fc).toNat else ys

theorem restPage_nil (opt : SearchOptions) (ff fc : Nat) {α : Type} :
    restPage opt ff fc ([] : List α) = [] := by
  simp [restPage]

theorem restPage_outside {opt : SearchOptions} {ff fc : Nat} (h : outsidePage opt ff fc) {α : Type}
    (x : α) (xs : List α) : restPage opt ff fc (x :: xs) = restPage opt (ff + 1) fc xs := by
  unfold restPage
  by_cases h1 : (ff : Int) < opt.offset
  · have : (opt.offset - ff).toNat = (opt.offset - ((ff + 1 : Nat) : Int)).toNat + 1 := by omega
    rw [this]; simp
  · have h2 : opt.limit > 0 ∧ (fc : Int) ≥ opt.limit := by
      rcases h with h | h
      · exact absurd h h1
      · exact h
    have : (opt.limit - fc).toNat = 0 := by omega
    simp [h2.1, this]

theorem restPage_inside {opt : SearchOptions} {ff fc : Nat} (h : ¬ outsidePage opt ff fc) {α : Type}
    (x : α) (xs : List α) :
    restPage opt ff fc (x :: xs) = x :: restPage opt (ff + 1) (fc + 1) xs := by
  unfold restPage
  unfold outsidePage at h
  have e1 : (opt.offset - ff).toNat = 0 := by omega
  have e2 : (opt.offset - ((ff + 1 : Nat) : Int)).toNat = 0 := by omega
  rw [e1, e2]
  by_cases hl : opt.limit > 0
  · have : (opt.limit - fc).toNat = (opt.limit - ((fc + 1 : Nat) : Int)).toNat + 1 := by omega
    simp [hl, this]
  · simp [hl]

theorem Readable.cons {Q : Type} {fre excludeFre : Option (Compiled Q)} {ix : IndexView Q} {f : Nat}
    {files : List Nat} (h : Readable fre excludeFre ix (f :: files)) :
    Readable fre excludeFre ix [f] ∧ Readable fre excludeFre ix files :=
  ⟨fun g hg => h g (by simp at hg; simp [hg]), fun g hg => h g (by simp [hg])⟩

theorem fileHits_single {Q : Type} (ctx : Nat) (re : Compiled Q) (fre excludeFre : Option (Compiled Q))
    (ix : IndexView Q) (f : Nat) :
    fileHits ctx re fre excludeFre ix [f] = [] ∨
    ∃ fm, fileHits ctx re fre excludeFre ix [f] = [fm] := by
  unfold fileHits
  rw [List.filterMap_cons]
  split <;> simp

/-- The loop without a match cap. -/
theorem searchLoop_uncapped {Q : Type} (opt : SearchOptions) (re : Compiled Q)
    (fre excludeFre : Option (Compiled Q)) (ix : IndexView Q) (hM : ¬ opt.maxResults > 0)
    (files : List Nat) (st : SearchState) (hread : Readable fre excludeFre ix files) :
    ∃ st', searchLoop opt re fre excludeFre ix files st = .ok st' ∧
      st'.results = st.results ++ restPage opt st.filesFound st.filesCollected
        (fileHits opt.linesOfContext re fre excludeFre ix files) ∧
      st'.filesFound = st.filesFound +
        (fileHits opt.linesOfContext re fre excludeFre ix files).length := by
  induction files generalizing st with
  | nil => exact ⟨st, by simp [searchLoop, fileHits, restPage_nil]⟩
  | cons f files ih =>
    obtain ⟨hr1, hr2⟩ := hread.cons
    have hcap : ¬ (opt.maxResults > 0 ∧ (st.matchesCollected : Int) ≥ opt.maxResults) :=
      fun h => hM h.1
    obtain ⟨op, hstep⟩ := searchFile_eq opt re fre excludeFre ix st f hcap hr1
    rw [fileHits_cons]
    simp only [searchLoop, hstep]
    rcases fileHits_single opt.linesOfContext re fre excludeFre ix f with h0 | ⟨fm, h1⟩
    · simp only [h0, List.nil_append]
      exact ih _ hr2
    · simp only [h1, List.singleton_append]
      by_cases ho : outsidePage opt st.filesFound st.filesCollected
      · simp only [if_pos ho]
        obtain ⟨st', h1, h2, h3⟩ := ih { st with filesOpened := op, filesFound := st.filesFound + 1 } hr2
        refine ⟨st', h1, ?_, ?_⟩
        · rw [h2, restPage_outside ho]
        · rw [h3]; simp; omega
      · simp only [if_neg ho]
        obtain ⟨st', h1, h2, h3⟩ := ih _ hr2
        refine ⟨st', h1, ?_, ?_⟩
        · rw [h2, restPage_inside ho]
          simp [underCap, hM]
        · rw [h3]; simp; omega

/-- Once the cap is reached nothing changes any more. -/
theorem searchLoop_full {Q : Type} (opt : SearchOptions) (re : Compiled Q)
    (fre excludeFre : Option (Compiled Q)) (ix : IndexView Q) (files : List Nat) (st : SearchState)
    (hcap : opt.maxResults > 0 ∧ (st.matchesCollected : Int) ≥ opt.maxResults) :
    searchLoop opt re fre excludeFre ix files st = .ok st := by
  induction files with
  | nil => rfl
  | cons f files ih =>
    have : searchFile opt re fre excludeFre ix st f = .ok st := by
      unfold searchFile
      simp [hcap]
    simp only [searchLoop, this, ih]

/-- The loop with a match cap. -/
theorem searchLoop_capped {Q : Type} (opt : SearchOptions) (re : Compiled Q)
    (fre excludeFre : Option (Compiled Q)) (ix : IndexView Q) (hM : opt.maxResults > 0)
    (files : List Nat) (st : SearchState) (hread : Readable fre excludeFre ix files) :
    ∃ st', searchLoop opt re fre excludeFre ix files st = .ok st' ∧
      flat st'.results = flat st.results ++ (flat (restPage opt st.filesFound st.filesCollected
        (fileHits opt.linesOfContext re fre excludeFre ix files))).take
          (opt.maxResults.toNat - st.matchesCollected) := by
  induction files generalizing st with
  | nil => exact ⟨st, by simp [searchLoop, fileHits, restPage_nil, flat]⟩
  | cons f files ih =>
    by_cases hcap : opt.maxResults > 0 ∧ (st.matchesCollected : Int) ≥ opt.maxResults
    · refine ⟨st, searchLoop_full opt re fre excludeFre ix _ st hcap, ?_⟩
      have : opt.maxResults.toNat - st.matchesCollected = 0 := by omega
      simp [this]
    · obtain ⟨hr1, hr2⟩ := hread.cons
      obtain ⟨op, hstep⟩ := searchFile_eq opt re fre excludeFre ix st f hcap hr1
      rw [fileHits_cons]
      simp only [searchLoop, hstep]
      rcases fileHits_single opt.linesOfContext re fre excludeFre ix f with h0 | ⟨fm, h1⟩
      · simp only [h0, List.nil_append]
        exact ih _ hr2
      · simp only [h1, List.singleton_append]
        by_cases ho : outsidePage opt st.filesFound st.filesCollected
        · simp only [if_pos ho]
          obtain ⟨st', h1, h2⟩ := ih { st with filesOpened := op, filesFound := st.filesFound + 1 } hr2
          refine ⟨st', h1, ?_⟩
          rw [h2, restPage_outside ho]
        · simp only [if_neg ho]
          obtain ⟨st', h1, h2⟩ := ih _ hr2
          refine ⟨st', h1, ?_⟩
          rw [h2, restPage_inside ho]
          simp only
          have e : underCap opt st.matchesCollected fm.matches_ =
              fm.matches_.take (opt.maxResults.toNat - st.matchesCollected) := by
            simp [underCap, hM]
          generalize hk : opt.maxResults.toNat - st.matchesCollected = k at *
          rw [e]
          have hk2 : opt.maxResults.toNat - (st.matchesCollected + (fm.matches_.take k).length) =
              k - fm.matches_.length := by
            rw [List.length_take]; omega
          rw [hk2, flat_append]
          simp only [flat, List.flatMap_cons, List.flatMap_nil, List.append_nil, List.append_assoc,
            List.append_cancel_left_eq]
          rw [List.take_append, List.length_map, List.map_take]

/-- Soundness of the loop, any options: what is in the result comes from `fileHits`. -/
theorem searchLoop_sound {Q : Type} (opt : SearchOptions) (re : Compiled Q)
    (fre excludeFre : Option (Compiled Q)) (ix : IndexView Q)
    (files : List Nat) (st st' : SearchState)
    (h : searchLoop opt re fre excludeFre ix files st = .ok st') :
    ∀ fm ∈ st'.results, fm ∈ st.results ∨
      ∃ f ∈ files, fm.filename = ix.name f ∧ nameRejected fre excludeFre fm.filename = false ∧
        fm.matches_ ≠ [] ∧
        fm.autoGenerated = containsString ix.autoGeneratedFiles fm.filename ∧
        ∃ buf, ix.raw fm.filename = some buf ∧
          fm.matches_ <+: grepAll re.mt opt.linesOfContext buf := by
  induction files generalizing st with
  | nil =>
    simp only [searchLoop, Except.ok.injEq] at h
    subst h
    intro fm hfm; exact Or.inl hfm
  | cons f files ih =>
    simp only [searchLoop] at h
    rcases hs : searchFile opt re fre excludeFre ix st f with e | st1
    · simp [hs] at h
    · simp only [hs] at h
      intro fm hfm
      rcases ih st1 h fm hfm with h1 | ⟨g, hg, hrest⟩
      · -- from this step
        by_cases hcap : opt.maxResults > 0 ∧ (st.matchesCollected : Int) ≥ opt.maxResults
        · have : st1 = st := by
            unfold searchFile at hs
            simp [hcap] at hs
            exact hs.symm
          rw [this] at h1; exact Or.inl h1
        · by_cases hrd : Readable fre excludeFre ix [f]
          · obtain ⟨op, hstep⟩ := searchFile_eq opt re fre excludeFre ix st f hcap hrd
            rw [hs] at hstep
            rcases hfh : fileHits opt.linesOfContext re fre excludeFre ix [f] with _ | ⟨fm0, rest⟩
            · simp only [hfh, Except.ok.injEq] at hstep
              subst hstep; exact Or.inl h1
            · simp only [hfh] at hstep
              by_cases ho : outsidePage opt st.filesFound st.filesCollected
              · simp only [if_pos ho, Except.ok.injEq] at hstep
                subst hstep; exact Or.inl h1
              · simp only [if_neg ho, Except.ok.injEq] at hstep
                subst hstep
                simp only [List.mem_append, List.mem_singleton] at h1
                rcases h1 with h1 | rfl
                · exact Or.inl h1
                · right
                  refine ⟨f, by simp, ?_⟩
                  have hmem : fm0 ∈ fileHits opt.linesOfContext re fre excludeFre ix [f] := by
                    simp [hfh]
                  unfold fileHits at hmem
                  simp only [List.mem_filterMap, List.mem_singleton] at hmem
                  obtain ⟨_, rfl, hmem⟩ := hmem
                  split at hmem
                  · simp at hmem
                  · rename_i hnr
                    split at hmem
                    · simp at hmem
                    · rename_i buf hbuf
                      split at hmem
                      · simp at hmem
                      · rename_i hms
                        simp only [Option.some.injEq] at hmem
                        subst hmem
                        refine ⟨rfl, by simpa using hnr, ?_, rfl, buf, hbuf, ?_⟩
                        · intro hnil
                          have hpos := List.length_pos_iff.2 hms
                          have := congrArg List.length hnil
                          simp only [underCap] at this
                          split at this
                          · rw [List.length_take, List.length_nil] at this; omega
                          · rw [List.length_nil] at this; omega
                        · simp only [underCap]
                          split
                          · exact List.take_prefix _ _
                          · exact List.prefix_rfl
          · -- unreadable: the step failed
            exfalso
            unfold Readable at hrd
            simp only [List.mem_singleton, forall_eq, Classical.not_imp] at hrd
            obtain ⟨hnr, hraw⟩ := hrd
            have hraw' : ix.raw (ix.name f) = none := by simpa using hraw
            unfold searchFile at hs
            simp [hnr, hcap, hraw'] at hs
      · exact Or.inr ⟨g, by simp [hg], hrest⟩

end Hound
