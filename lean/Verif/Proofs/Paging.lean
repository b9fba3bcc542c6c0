import Verif.Props.Search
import Verif.Props.Api
import Verif.Props.Client
import Verif.Model.Paging
import Verif.Spec.WebPaging

/-!
# Paging with a match cap, file by file
-/

namespace Hound
open Spec

/-- The first files under a cap of `k` matches; the last one may be cut. -/
def capFiles : Nat → List FileMatch → List FileMatch
  | _, [] => []
  | k, fm :: r =>
    if k = 0 then [] else { fm with matches_ := fm.matches_.take k } :: capFiles (k - fm.matches_.length) r

theorem capFiles_zero (l : List FileMatch) : capFiles 0 l = [] := by
  cases l <;> simp [capFiles]

theorem capFiles_all (k : Nat) (l : List FileMatch) (h : (flat l).length ≤ k)
    (hne : ∀ fm ∈ l, fm.matches_ ≠ []) : capFiles k l = l := by
  induction l generalizing k with
  | nil => rfl
  | cons fm l ih =>
    have e : (flat (fm :: l)).length = fm.matches_.length + (flat l).length := by simp [flat]
    rw [e] at h
    have hp := List.length_pos_iff.2 (hne fm (by simp))
    unfold capFiles
    rw [if_neg (by omega), ih _ (by omega) (fun x hx => hne x (by simp [hx])),
      List.take_of_length_le (by omega)]

theorem fileHits_ne {Q : Type} (ctx : Nat) (re : Compiled Q) (fre ex : Option (Compiled Q))
    (ix : IndexView Q) (files : List Nat) : ∀ fm ∈ fileHits ctx re fre ex ix files, fm.matches_ ≠ [] := by
  intro fm hfm
  unfold fileHits at hfm
  obtain ⟨f, -, hf⟩ := List.mem_filterMap.1 hfm
  split at hf
  · simp at hf
  · split at hf
    · simp at hf
    · split at hf
      · simp at hf
      · rename_i hne
        simp only [Option.some.injEq] at hf
        subst hf; exact hne

/-- The loop with a match cap, file by file. -/
theorem searchLoop_capFiles {Q : Type} (opt : SearchOptions) (re : Compiled Q)
    (fre excludeFre : Option (Compiled Q)) (ix : IndexView Q) (hM : opt.maxResults > 0)
    (files : List Nat) (st : SearchState) (hread : Readable fre excludeFre ix files) :
    let hits := fileHits opt.linesOfContext re fre excludeFre ix files
    let pg := restPage opt st.filesFound st.filesCollected hits
    let k := opt.maxResults.toNat - st.matchesCollected
    ∃ st', searchLoop opt re fre excludeFre ix files st = .ok st' ∧
      st'.results = st.results ++ capFiles k pg ∧
      ((flat pg).length < k → st'.filesFound = st.filesFound + hits.length) ∧
      (opt.offset ≤ st.filesFound → k ≤ (flat pg).length →
        st'.filesFound = st.filesFound + (capFiles k pg).length) := by
  induction files generalizing st with
  | nil => exact ⟨st, by simp [searchLoop, fileHits, restPage_nil, capFiles]⟩
  | cons f files ih =>
    intro hits pg k
    by_cases hcap : opt.maxResults > 0 ∧ (st.matchesCollected : Int) ≥ opt.maxResults
    · refine ⟨st, searchLoop_full opt re fre excludeFre ix _ st hcap, ?_⟩
      have : k = 0 := by simp only [k]; omega
      simp [this, capFiles_zero]
    · obtain ⟨hr1, hr2⟩ := hread.cons
      obtain ⟨op, hstep⟩ := searchFile_eq opt re fre excludeFre ix st f hcap hr1
      have hk : 0 < k := by simp only [k]; omega
      have hh : hits = fileHits opt.linesOfContext re fre excludeFre ix [f] ++
        fileHits opt.linesOfContext re fre excludeFre ix files := fileHits_cons ..
      have hpg : pg = restPage opt st.filesFound st.filesCollected hits := rfl
      rw [hh] at hpg ⊢
      simp only [searchLoop, hstep]
      rcases fileHits_single opt.linesOfContext re fre excludeFre ix f with h0 | ⟨fm, h1⟩
      · simp only [h0, List.nil_append] at hpg ⊢
        obtain ⟨st', e1, e2, e3, e4⟩ := ih { st with filesOpened := op } hr2
        refine ⟨st', e1, ?_, ?_, ?_⟩
        · rw [e2, hpg]
        · rw [hpg]; exact e3
        · rw [hpg]; exact e4
      · simp only [h1, List.singleton_append] at hpg ⊢
        have hfm : fm.matches_ ≠ [] :=
          fileHits_ne opt.linesOfContext re fre excludeFre ix [f] fm (by rw [h1]; simp)
        by_cases ho : outsidePage opt st.filesFound st.filesCollected
        · simp only [if_pos ho]
          rw [restPage_outside ho] at hpg
          obtain ⟨st', e1, e2, e3, e4⟩ :=
            ih { st with filesOpened := op, filesFound := st.filesFound + 1 } hr2
          refine ⟨st', e1, ?_, ?_, ?_⟩
          · rw [e2, hpg]
          · intro hlt; rw [hpg] at hlt; rw [e3 hlt]; simp; omega
          · intro hoff hle
            exfalso
            -- past the offset, so the page is full and nothing is left of it
            have hlim : opt.limit > 0 ∧ (st.filesCollected : Int) ≥ opt.limit := by
              rcases ho with h | h
              · omega
              · exact h
            have : pg = [] := by
              rw [hpg]; unfold restPage
              simp only [if_pos hlim.1]
              rw [show (opt.limit - st.filesCollected).toNat = 0 by omega, List.take_zero]
            rw [this] at hle
            simp [flat] at hle; omega
        · simp only [if_neg ho]
          rw [restPage_inside ho] at hpg
          obtain ⟨st', e1, e2, e3, e4⟩ := ih _ hr2
          refine ⟨st', e1, ?_⟩
          simp only at e2 e3 e4
          have eu : underCap opt st.matchesCollected fm.matches_ = fm.matches_.take k := by
            simp [underCap, hM, k]
          rw [eu] at e2 e3 e4
          have hk2 : opt.maxResults.toNat - (st.matchesCollected + (fm.matches_.take k).length) =
              k - fm.matches_.length := by
            rw [List.length_take]; simp only [k]; omega
          rw [hk2] at e2 e3 e4
          have efl : (flat pg).length = fm.matches_.length + (flat (restPage opt (st.filesFound + 1)
              (st.filesCollected + 1) (fileHits opt.linesOfContext re fre excludeFre ix files))).length := by
            rw [hpg]; simp [flat]
          have ecf : capFiles k pg = { fm with matches_ := fm.matches_.take k } ::
              capFiles (k - fm.matches_.length) (restPage opt (st.filesFound + 1)
              (st.filesCollected + 1) (fileHits opt.linesOfContext re fre excludeFre ix files)) := by
            rw [hpg]; simp only [capFiles]; rw [if_neg (by omega)]
          refine ⟨?_, ?_, ?_⟩
          · rw [e2, ecf]; simp
          · intro hlt
            rw [e3 (by omega)]; simp; omega
          · intro hoff hle
            rw [e4 (by omega) (by omega), ecf]; simp; omega

theorem capFiles_part (k : Nat) (l : List FileMatch) (hne : ∀ fm ∈ l, fm.matches_ ≠ []) :
    ∃ m, m ≤ l.length ∧ Each PartOf (capFiles k l) (l.take m) ∧ (0 < k → l ≠ [] → 0 < m) := by
  induction l generalizing k with
  | nil => exact ⟨0, by simp, .nil, by simp⟩
  | cons fm l ih =>
    by_cases hk : k = 0
    · subst hk
      exact ⟨0, by simp, by rw [capFiles_zero]; exact .nil, by simp⟩
    · obtain ⟨m, h1, h2, -⟩ := ih (k - fm.matches_.length) (fun x hx => hne x (by simp [hx]))
      refine ⟨m + 1, by simp; omega, ?_, by omega⟩
      rw [List.take_succ_cons]
      unfold capFiles
      rw [if_neg hk]
      refine .cons ⟨rfl, rfl, ?_, List.take_prefix _ _⟩ h2
      have := List.length_pos_iff.2 (hne fm (by simp))
      intro h
      have := congrArg List.length h
      simp only [List.length_take, List.length_nil] at this
      omega

theorem each_part_refl (l : List FileMatch) (hne : ∀ fm ∈ l, fm.matches_ ≠ []) : Each PartOf l l := by
  induction l with
  | nil => exact .nil
  | cons a l ih =>
    exact .cons ⟨rfl, rfl, hne a (by simp), List.prefix_refl _⟩ (ih fun x hx => hne x (by simp [hx]))

theorem each_append {α β : Type} {R : α → β → Prop} {a c : List α} {b d : List β} (h : Each R a b)
    (h' : Each R c d) : Each R (a ++ c) (b ++ d) := by
  induction h with
  | nil => exact h'
  | cons hr _ ih => exact .cons hr ih

theorem each_length {α β : Type} {R : α → β → Prop} {a : List α} {b : List β} (h : Each R a b) :
    a.length = b.length := by
  induction h with
  | nil => rfl
  | cons _ _ ih => simp [ih]

variable {Q : Type} {compile : Bytes → Option (Compiled Q)} {quoteMeta : Bytes → Bytes}
  {ix : IndexView Q} {pat : Bytes} {opt : SearchOptions} {r : SearchResponse}

/-- Everything about one page under any cap, relative to the full result `r0`. -/
theorem search_page {r0 : SearchResponse}
    (hread : CandidatesReadable compile quoteMeta ix pat opt)
    (h0 : search compile quoteMeta ix pat { opt with offset := 0, limit := 0, maxResults := 0 } = .ok r0) :
    (∀ fm ∈ r0.matches_, fm.matches_ ≠ []) ∧
    ∃ r, search compile quoteMeta ix pat opt = .ok r ∧
    (∃ m, m ≤ (page opt.offset opt.limit r0.matches_).length ∧
      Each PartOf r.matches_ ((page opt.offset opt.limit r0.matches_).take m) ∧
      (page opt.offset opt.limit r0.matches_ ≠ [] → 0 < m)) ∧
    (opt.maxResults ≤ 0 ∨ ((allMatches (page opt.offset opt.limit r0.matches_)).length : Int) ≤ opt.maxResults →
      r.matches_ = page opt.offset opt.limit r0.matches_) ∧
    (opt.maxResults ≤ 0 ∨ ((allMatches (page opt.offset opt.limit r0.matches_)).length : Int) < opt.maxResults →
      r.filesWithMatch = r0.matches_.length) ∧
    (opt.offset ≤ 0 → 0 < opt.maxResults →
      opt.maxResults ≤ (allMatches (page opt.offset opt.limit r0.matches_)).length →
      r.filesWithMatch = r.matches_.length) := by
  obtain ⟨re, fre, ex, st0, hre, hfre, hex, hst0, rfl⟩ := search_unfold h0
  have hr : Readable fre ex ix (ix.postingQuery re.query) := fun f hf _ => hread re hre f hf
  obtain ⟨s0, e0, f0, g0⟩ := searchLoop_uncapped { opt with offset := 0, limit := 0, maxResults := 0 } re fre ex ix
    (by simp) _ {} hr
  rw [hst0] at e0
  obtain rfl := Except.ok.inj e0
  have hfull : st0.results = fileHits opt.linesOfContext re fre ex ix (ix.postingQuery re.query) := by
    rw [f0]; simp [restPage]
  have hne : ∀ fm ∈ st0.results, fm.matches_ ≠ [] := by rw [hfull]; exact fileHits_ne _ _ _ _ _ _
  have hpg : page opt.offset opt.limit st0.results =
      restPage opt 0 0 (fileHits opt.linesOfContext re fre ex ix (ix.postingQuery re.query)) := by
    rw [hfull]; simp [restPage, page]
  have hnep : ∀ fm ∈ page opt.offset opt.limit st0.results, fm.matches_ ≠ [] := by
    intro fm hfm
    apply hne
    unfold page at hfm
    split at hfm
    · exact List.mem_of_mem_drop (List.mem_of_mem_take hfm)
    · exact List.mem_of_mem_drop hfm
  refine ⟨hne, ?_⟩
  have hall : ∀ l : List FileMatch, allMatches l = flat l := fun _ => rfl
  by_cases hM : opt.maxResults > 0
  · obtain ⟨s1, e1, f1, g1, k1⟩ := searchLoop_capFiles opt re fre ex ix hM _ {} hr
    refine ⟨_, search_fold hre hfre hex e1, ?_⟩
    simp only [List.nil_append, Nat.sub_zero, Nat.zero_add] at f1 g1 k1
    rw [← hpg] at f1 g1 k1
    simp only [hall]
    refine ⟨?_, ?_, ?_, ?_⟩
    · obtain ⟨m, h1, h2, h3⟩ := capFiles_part opt.maxResults.toNat _ hnep
      exact ⟨m, h1, by rw [f1]; exact h2, fun hn => h3 (by omega) hn⟩
    · intro h
      rw [f1]
      exact capFiles_all _ _ (by omega) hnep
    · intro h
      rw [g1 (by omega), ← hfull]
    · intro h1 _ h2
      rw [k1 (by simpa using h1) (by omega), f1]
  · obtain ⟨s1, e1, f1, g1⟩ := searchLoop_uncapped opt re fre ex ix hM _ {} hr
    refine ⟨_, search_fold hre hfre hex e1, ?_⟩
    simp only [List.nil_append, Nat.zero_add] at f1 g1
    rw [← hpg] at f1
    refine ⟨⟨_, Nat.le_refl _, ?_, fun h => List.length_pos_iff.2 h⟩, fun _ => f1, fun _ => ?_, ?_⟩
    · rw [List.take_length, f1]; exact each_part_refl _ hnep
    · rw [g1, ← hfull]
    · intro _ h; exact absurd h hM

end Hound
