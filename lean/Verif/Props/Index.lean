import Verif.Proofs.BuildIndex
import Verif.Proofs.RatioEdge
import Verif.Props.RegexpQuery

/-!
# C10, C11, C12, C20, C44: writing, opening and querying an index

`buildIndex cfg paths files` is `Create`, `AddPaths`, one `Add` per file and `Flush`; its result is what
the calls of `Add` returned and the content of the index file. `RIndex.open` and the functions after it
read such a file. `none` anywhere is the end of the program.
-/

namespace Hound
open Spec

variable {cfg : IWConfig} {paths : List Bytes} {files : List (Bytes × Reader)}
  {answers : List (Option SkipReason)} {data : Bytes}

/-! ## C11 -/

/-- **C11, names.** The file opens; every file that was indexed has its number, in the order of the
calls of `Add`, and its name comes back; so do the paths. -/
theorem index_names (hc : 0 < cfg.npost) (h : buildIndex cfg paths files = some (answers, data)) :
    ∃ ix, RIndex.open data = some ix ∧
      ix.numName = (indexedFiles files answers).length ∧
      (∀ (i : Nat) (name content : Bytes), (indexedFiles files answers)[i]? = some (name, content) →
        ix.name i = some name) ∧
      ((∀ p ∈ paths, p ≠ [] ∧ (0 : UInt8) ∉ p) → ix.paths = some paths) := by
  obtain ⟨h1, h2, h3, h4, h5⟩ := buildIndex_some hc h
  subst h4 h5
  rw [indexedFiles_eq]
  refine ⟨_, RIndex.open_sections h3, rfl, ?_, ?_⟩
  · intro i name content hi
    obtain ⟨hlt, hg⟩ := List.getElem?_eq_some_iff.1 hi
    have hsplit : indexedOf files = (indexedOf files).take i ++ (name, content) :: (indexedOf files).drop (i + 1) := by
      conv => lhs; rw [← List.take_append_drop i (indexedOf files)]
      rw [List.drop_eq_getElem_cons hlt, hg]
    have hl : ((indexedOf files).take i).length = i := by rw [List.length_take]; omega
    have hns : (indexedOf files).map (·.1) ++ [([] : Bytes)] =
        ((indexedOf files).take i).map (·.1) ++ name :: (((indexedOf files).drop (i + 1)).map (·.1) ++ [[]]) := by
      conv => lhs; rw [hsplit]
      simp
    have := RIndex.name_at (s := sectionsOf paths (indexedOf files)) (nf := (indexedOf files).length)
      (np := (groupsOf (indexedOf files)).length + 1) h3
      (ns := ((indexedOf files).take i).map (·.1)) (n := name)
      (ms := ((indexedOf files).drop (i + 1)).map (·.1) ++ [[]])
      (by simp only [sectionsOf]; rw [hns]) (by simp only [sectionsOf]; rw [hns])
      (addsOk_names h1 (name, content) (List.mem_of_getElem? hi))
    rw [List.length_map, hl] at this
    exact this
  · intro hp
    exact RIndex.paths_at h3 (by simp only [sectionsOf]) hp

/-- **C11, posting lists.** For every block of three bytes, the posting list is the list of the indexed files
that contain it, ascending. -/
theorem index_postings (hc : 0 < cfg.npost) (h : buildIndex cfg paths files = some (answers, data)) :
    ∃ ix, RIndex.open data = some ix ∧ ∀ a b c : UInt8,
      ∃ l, ix.postingList (triVal a b c) none = some l ∧ l.Pairwise (· < ·) ∧
        ∀ i, i ∈ l ↔ ∃ name content, (indexedFiles files answers)[i]? = some (name, content) ∧
          [a, b, c] <:+: content := by
  obtain ⟨h1, h2, h3, h4, h5⟩ := buildIndex_some hc h
  subst h4 h5
  rw [indexedFiles_eq]
  refine ⟨_, RIndex.open_sections h3, fun a b c => ?_⟩
  have hk := RIndex.knows_sections h3 (by omega) indexedOf_tri
  obtain ⟨n, l, e1, e2, e3⟩ := hk.tri (t := [a, b, c]) rfl (restrict := none) trivial
  rw [RIndex.triVal_eq_getTrigram] at e1
  injection e1 with e1
  subst e1
  refine ⟨l, e2, e3.1, fun i => (e3.2 i).trans ?_⟩
  constructor
  · rintro ⟨_, f, hf, hh⟩
    obtain ⟨x, y, e⟩ := hh.2
    exact ⟨f.1, f.2, hf, x, y, e.symm⟩
  · rintro ⟨nm, ct, hf, x, y, e⟩
    exact ⟨trivial, (nm, ct), hf, rfl, x, y, e.symm⟩

/-! ## C12 -/

/-- **C12, buffers.** Neither what `Add` returns nor the file depends on the size of the posting buffer (how often
it overflowed into temporary files) or of the write buffers. -/
theorem index_buffering {cfg' : IWConfig} (hc : 0 < cfg.npost) (hc' : 0 < cfg'.npost) (paths : List Bytes)
    (files : List (Bytes × Reader)) : buildIndex cfg paths files = buildIndex cfg' paths files := by
  obtain ⟨a1, a2⟩ := buildIndex_spec hc paths files
  obtain ⟨b1, b2⟩ := buildIndex_spec hc' paths files
  by_cases hh : AddsOk [] files ∧ (indexedOf files).length + 1 < 2 ^ 30 ∧
        (sectionsOf paths (indexedOf files)).bytes.length < 2 ^ 32
  · rw [a1 hh, b1 hh]
  · rw [a2 hh, b2 hh]

/-- **C12, reads.** For files that can be read, only names and contents matter, not the pieces in which the
operating system delivers them. -/
theorem index_chunking (hc : 0 < cfg.npost) (paths : List Bytes) {files files' : List (Bytes × Reader)}
    (h : files.map (fun f => (f.1, f.2.content)) = files'.map (fun f => (f.1, f.2.content)))
    (hok : ∀ f ∈ files, f.2.Ok) (hok' : ∀ f ∈ files', f.2.Ok) :
    buildIndex cfg paths files = buildIndex cfg paths files' := by
  have key : indexedOf files = indexedOf files' ∧
      files.map (fun f => addAnswer f.2) = files'.map (fun f => addAnswer f.2) ∧
      ∀ before, AddsOk before files ↔ AddsOk before files' := by
    induction files generalizing files' with
    | nil =>
      cases files' with
      | nil => exact ⟨rfl, rfl, fun _ => Iff.rfl⟩
      | cons _ _ => simp at h
    | cons f fs ih =>
      cases files' with
      | nil => simp at h
      | cons g gs =>
        rw [List.map_cons, List.map_cons] at h
        injection h with e1 e2
        injection e1 with e3 e4
        obtain ⟨i1, i2, i3⟩ := ih e2 (fun x hx => hok x (by simp [hx])) (fun x hx => hok' x (by simp [hx]))
        have of := hok f (by simp)
        have og := hok' g (by simp)
        have j : indexedOf [f] = indexedOf [g] := by
          simp only [indexedOf, List.filterMap_cons, List.filterMap_nil, of, og, true_and, e3, e4]
        refine ⟨?_, ?_, fun before => ?_⟩
        · rw [indexedOf_cons, indexedOf_cons g, i1, j]
        · rw [List.map_cons, List.map_cons, i2]
          congr 1
          unfold addAnswer
          rw [if_pos of, if_pos og, e4]
        · unfold AddsOk
          rw [i3, j]
          simp only [of, og, true_and, e3, e4]
  obtain ⟨k1, k2, k3⟩ := key
  obtain ⟨a1, a2⟩ := buildIndex_spec hc paths files
  obtain ⟨b1, b2⟩ := buildIndex_spec hc paths files'
  rw [k1, k2, k3] at a1
  rw [k1, k3] at a2
  by_cases hh : AddsOk [] files' ∧ (indexedOf files').length + 1 < 2 ^ 30 ∧
        (sectionsOf paths (indexedOf files')).bytes.length < 2 ^ 32
  · rw [a1 hh, b1 hh]
  · rw [a2 hh, b2 hh]

/-! ## C44 -/

mutual
/-- AND nodes without operands replaced by NONE. -/
def fixQ : Query → Query
  | .mk op t s => if op = .and ∧ t = [] ∧ s = [] then .noneQ else .mk op t (fixL s)
def fixL : List Query → List Query
  | [] => []
  | q :: qs => fixQ q :: fixL qs
end

mutual
theorem noEmptyAnd_fixQ : ∀ q : Query, NoEmptyAnd (fixQ q)
  | .mk op t s => by
    unfold fixQ
    split
    · simp [Query.noneQ, NoEmptyAnd, NoEmptyAndL]
    · rename_i hn
      unfold NoEmptyAnd
      refine ⟨fun ho => ?_, noEmptyAndL_fixL s⟩
      cases s with
      | nil => exact Or.inl fun ht => hn ⟨ho, ht, rfl⟩
      | cons q qs => exact Or.inr (by simp [fixL])
theorem noEmptyAndL_fixL : ∀ qs : List Query, NoEmptyAndL (fixL qs)
  | [] => by simp [fixL, NoEmptyAndL]
  | q :: qs => by
    unfold fixL NoEmptyAndL
    exact ⟨noEmptyAnd_fixQ q, noEmptyAndL_fixL qs⟩
end

mutual
theorem threeByte_fixQ : ∀ q : Query, ThreeByte q → ThreeByte (fixQ q)
  | .mk op t s, h => by
    unfold fixQ
    unfold ThreeByte at h
    split
    · simp [Query.noneQ, ThreeByte, ThreeByteL]
    · unfold ThreeByte
      exact ⟨h.1, threeByteL_fixL s h.2⟩
theorem threeByteL_fixL : ∀ qs : List Query, ThreeByteL qs → ThreeByteL (fixL qs)
  | [], _ => by simp [fixL, ThreeByteL]
  | q :: qs, h => by
    unfold ThreeByteL at h
    unfold fixL ThreeByteL
    exact ⟨threeByte_fixQ q h.1, threeByteL_fixL qs h.2⟩
end

mutual
theorem postingQuery_fixQ (ix : RIndex) : ∀ (q : Query) (restrict : Option (List Nat)),
    ix.postingQuery (fixQ q) restrict = ix.postingQuery q restrict
  | .mk .none t s, r => by rw [fixQ, if_neg (by simp), RIndex.postingQuery, RIndex.postingQuery]
  | .mk .all t s, none => by rw [fixQ, if_neg (by simp), RIndex.postingQuery, RIndex.postingQuery]
  | .mk .all t s, some r => by rw [fixQ, if_neg (by simp), RIndex.postingQuery, RIndex.postingQuery]
  | .mk .and t s, r => by
    rw [fixQ]
    split
    · rename_i hh
      obtain ⟨-, rfl, rfl⟩ := hh
      rw [Query.noneQ, RIndex.postingQuery, RIndex.postingQuery, RIndex.andTrigrams]
      simp [RIndex.andSubs]
    · rw [RIndex.postingQuery, RIndex.postingQuery]
      simp only [andSubs_fixL ix s]
  | .mk .or t s, r => by
    rw [fixQ, if_neg (by simp), RIndex.postingQuery, RIndex.postingQuery]
    simp only [orSubs_fixL ix s]
theorem andSubs_fixL (ix : RIndex) : ∀ (qs : List Query) (restrict list : Option (List Nat)),
    ix.andSubs restrict list (fixL qs) = ix.andSubs restrict list qs
  | [], _, _ => by rw [fixL]
  | q :: qs, restrict, list => by
    rw [fixL, RIndex.andSubs, RIndex.andSubs, postingQuery_fixQ ix q]
    simp only [andSubs_fixL ix qs]
theorem orSubs_fixL (ix : RIndex) : ∀ (qs : List Query) (restrict : Option (List Nat)) (list : List Nat),
    ix.orSubs restrict list (fixL qs) = ix.orSubs restrict list qs
  | [], _, _ => by rw [fixL]
  | q :: qs, restrict, list => by
    rw [fixL, RIndex.orSubs, RIndex.orSubs, postingQuery_fixQ ix q]
    simp only [orSubs_fixL ix qs]
end

/-- **C44.** A file the writer produced can be opened, and then every query made of three-byte trigrams is
answered, every posting list read, every name and the list of paths found: nothing ends the program. -/
theorem index_never_aborts (hc : 0 < cfg.npost) (h : buildIndex cfg paths files = some (answers, data))
    (hp : ∀ p ∈ paths, p ≠ [] ∧ (0 : UInt8) ∉ p) :
    ∃ ix, RIndex.open data = some ix ∧
      (∀ q, ThreeByte q → ix.postingQuery q none ≠ none) ∧
      (∀ t < 2 ^ 24, ix.postingList t none ≠ none) ∧
      (∀ i : Nat, (i : Int) < ix.numName → ix.name i ≠ none) ∧
      ix.paths ≠ none := by
  obtain ⟨ix, o1, o2, o3, o4⟩ := index_names hc h
  obtain ⟨h1, h2, h3, h4, h5⟩ := buildIndex_some hc h
  subst h4 h5
  rw [RIndex.open_sections h3] at o1
  injection o1 with o1
  subst o1
  have hk := RIndex.knows_sections h3 (by omega) indexedOf_tri
  refine ⟨_, RIndex.open_sections h3, fun q hq => ?_, fun t ht => ?_, fun i hi => ?_, ?_⟩
  · obtain ⟨l, hl, _⟩ := RIndex.postingQuery_spec hk (fixQ q) none (threeByte_fixQ q hq) (noEmptyAnd_fixQ q) trivial
      (fun _ hr => by simp at hr)
    rw [← postingQuery_fixQ, hl]
    simp
  · obtain ⟨l, hl, _⟩ := hk.posts t none ht trivial
    unfold RIndex.postingList
    rw [hl]
    simp
  · rw [o2] at hi
    have hi : i < (indexedFiles files (files.map fun f => addAnswer f.2)).length := by omega
    have := o3 i _ _ (List.getElem?_eq_getElem hi)
    rw [this]
    simp
  · rw [o4 hp]
    simp

/-! ## C10 -/

/-- **C10**, the full claim: the answer to a query is the list of the indexed files whose contents satisfy it,
ascending and without duplicates. -/
def PostingQueryFull : Prop :=
  ∀ (cfg : IWConfig) (paths : List Bytes) (files : List (Bytes × Reader)) (answers : List (Option SkipReason))
    (data : Bytes) (ix : RIndex) (q : Query), 0 < cfg.npost →
    buildIndex cfg paths files = some (answers, data) → RIndex.open data = some ix → ThreeByte q →
    ∃ l, ix.postingQuery q none = some l ∧ l.Pairwise (· < ·) ∧
      ∀ i, i ∈ l ↔ ∃ name content, (indexedFiles files answers)[i]? = some (name, content) ∧
        Sat (HasTrigram content) q

/-- C10 for queries in which no AND is without operands. Missing: such an AND is true of every file, but the
program answers with no file. Queries made from regular expressions have no such AND
(`regexpQuery_posting`). -/
theorem postingQuery_partial (hc : 0 < cfg.npost) (h : buildIndex cfg paths files = some (answers, data))
    {ix : RIndex} (ho : RIndex.open data = some ix) {q : Query} (h3 : ThreeByte q) (hne : NoEmptyAnd q) :
    ∃ l, ix.postingQuery q none = some l ∧ l.Pairwise (· < ·) ∧
      ∀ i, i ∈ l ↔ ∃ name content, (indexedFiles files answers)[i]? = some (name, content) ∧
        Sat (HasTrigram content) q := by
  obtain ⟨h1, h2, hb, h4, h5⟩ := buildIndex_some hc h
  subst h4 h5
  rw [indexedFiles_eq]
  rw [RIndex.open_sections hb] at ho
  injection ho with ho
  subst ho
  have hk := RIndex.knows_sections hb (by omega) indexedOf_tri
  obtain ⟨l, hl, ha⟩ := RIndex.postingQuery_spec hk q none h3 hne trivial (fun _ hr => by simp at hr)
  refine ⟨l, hl, ha.1, fun i => (ha.2 i).trans ?_⟩
  constructor
  · rintro ⟨_, f, hf, hs⟩
    exact ⟨f.1, f.2, hf, hs⟩
  · rintro ⟨nm, ct, hf, hs⟩
    exact ⟨trivial, (nm, ct), hf, hs⟩

/-- C10 for the queries the search makes. -/
theorem regexpQuery_posting {grow : Nat → Nat → Nat} {orbit : Rune → List Rune} {re : Re}
    (hc : 0 < cfg.npost) (h : buildIndex cfg paths files = some (answers, data))
    {ix : RIndex} (ho : RIndex.open data = some ix) :
    ∃ l, ix.postingQuery (HInfo.regexpQuery grow orbit re).1 none = some l ∧ l.Pairwise (· < ·) ∧
      ∀ i, i ∈ l ↔ ∃ name content, (indexedFiles files answers)[i]? = some (name, content) ∧
        Sat (HasTrigram content) (HInfo.regexpQuery grow orbit re).1 :=
  postingQuery_partial hc h ho regexpQuery_threeByte regexpQuery_noEmptyAnd

/-- An empty file. -/
def emptyFile : Reader := ⟨[], false⟩

theorem emptyFile_answer : addAnswer emptyFile = none := by decide

/-- C10 as stated is false: an AND without operands. -/
theorem not_postingQueryFull : ¬ PostingQueryFull := by
  intro hf
  obtain ⟨answers, data, h⟩ := buildIndex_succeeds (cfg := goConfig) (by decide) (paths := [])
    (files := [(b!"a", emptyFile)]) (by decide) (by decide)
  obtain ⟨ix, ho, _⟩ := index_names (by decide) h
  obtain ⟨l, hl, _, hi⟩ := hf goConfig [] _ answers data ix (.mk .and [] []) (by decide) h ho
    ⟨by simp, trivial⟩
  obtain ⟨_, _, _, h4, _⟩ := buildIndex_some (by decide) h
  subst h4
  have hl' : ix.postingQuery (.mk .and [] []) none = some [] := by
    rw [RIndex.postingQuery, RIndex.andTrigrams]
    simp [RIndex.andSubs]
  rw [hl'] at hl
  injection hl with hl
  subst hl
  have := (hi 0).2 ⟨b!"a", [], by rw [List.map_cons, emptyFile_answer]; decide, by simp [Sat, SatAll]⟩
  simp at this

/-! ## C20 -/

/-- **C20**, the full claim for files that can be read: a reason is returned exactly when a rule is broken, and it
names a broken rule. -/
def SkipReasonsFull : Prop :=
  ∀ (cfg : IWConfig) (paths : List Bytes) (files : List (Bytes × Reader)) (answers : List (Option SkipReason))
    (data : Bytes) (i : Nat) (name : Bytes) (r : Reader) (answer : Option SkipReason), 0 < cfg.npost →
    buildIndex cfg paths files = some (answers, data) → files[i]? = some (name, r) → answers[i]? = some answer →
    r.Ok →
    (∀ reason, answer = some reason → BreaksRule r.content reason) ∧
    (answer = none → ∀ reason, ¬ BreaksRule r.content reason)

theorem trigramsOf_small {w : Bytes} (h : looksUtf8 0 w = true) : (trigramsOf w).length < 2 ^ 24 := by
  have := SSet.length_le_of_nodup_bound (2 ^ 24 - 1) (trigramsOf w) (nodup_firsts _) (trigram_bound h)
  omega

theorem addAnswer_at (hc : 0 < cfg.npost) (h : buildIndex cfg paths files = some (answers, data)) {i : Nat}
    {name : Bytes} {r : Reader} {answer : Option SkipReason} (hf : files[i]? = some (name, r))
    (ha : answers[i]? = some answer) : answer = addAnswer r ∧ (r.Ok → answer = none →
      (name, r.content) ∈ indexedFiles files answers) := by
  obtain ⟨_, _, _, h4, _⟩ := buildIndex_some hc h
  subst h4
  rw [List.getElem?_map, hf] at ha
  simp only [Option.map_some, Option.some.injEq] at ha
  refine ⟨ha.symm, fun hok hn => ?_⟩
  rw [indexedFiles_eq, mem_indexedOf]
  refine ⟨r, List.mem_of_getElem? hf, hok, ?_, rfl⟩
  rw [← ha] at hn
  unfold addAnswer at hn
  rwa [if_pos hok] at hn

/-- **C20**, partial: for every file that can be read, every reason given is true, and a file without a reason is
indexed and breaks no rule, with one exception, which is stated: the size is above 16 MiB, one less than ten times
the number of different trigrams, and leaves 3 when divided by 4. For these the full statement is false
(`not_skipReasonsFull`), since the program rounds the size to a `float32`. -/
theorem skipReasons_partial (hc : 0 < cfg.npost) (h : buildIndex cfg paths files = some (answers, data)) {i : Nat}
    {name : Bytes} {r : Reader} {answer : Option SkipReason} (hf : files[i]? = some (name, r))
    (ha : answers[i]? = some answer) (hok : r.Ok) :
    (∀ reason, answer = some reason → BreaksRule r.content reason) ∧
    (answer = none → (name, r.content) ∈ indexedFiles files answers ∧
      ∀ reason, BreaksRule r.content reason → reason = .trigramRatio ∧ 2 ^ 24 < r.content.length ∧
        r.content.length % 4 = 3 ∧ r.content.length + 1 = 10 * (trigramsOf r.content).length) := by
  obtain ⟨h1, h2⟩ := addAnswer_at hc h hf ha
  unfold addAnswer at h1
  rw [if_pos hok] at h1
  generalize hw : r.content = w at *
  unfold verdict at h1
  split at h1
  · rename_i hu
    refine ⟨fun reason hr => ?_, fun hr => ?_⟩
    · rw [h1] at hr; injection hr with hr; subst hr; exact hu
    · rw [h1] at hr; simp at hr
  rename_i hu
  split at h1
  · rename_i hl
    refine ⟨fun reason hr => ?_, fun hr => ?_⟩
    · rw [h1] at hr; injection hr with hr; subst hr; exact hl
    · rw [h1] at hr; simp at hr
  rename_i hl
  have hu' := hu
  rw [List.take_of_length_le (by omega)] at hu'
  have hx := ratioAboveTenth_iff (a := (trigramsOf w).length) (b := w.length) (by omega)
    (trigramsOf_small (by simpa using hu'))
  split at h1
  · rename_i ht
    refine ⟨fun reason hr => ?_, fun hr => ?_⟩
    · rw [h1] at hr; injection hr with hr; subst hr
      exact ⟨ht.2, (hx.1 ht.1).1⟩
    · rw [h1] at hr; simp at hr
  rename_i ht
  split at h1
  · rename_i hg
    refine ⟨fun reason hr => ?_, fun hr => ?_⟩
    · rw [h1] at hr; injection hr with hr; subst hr; exact hg
    · rw [h1] at hr; simp at hr
  · rename_i hg
    refine ⟨fun reason hr => ?_, fun hr => ⟨h2 hok hr, fun reason hb => ?_⟩⟩
    · rw [h1] at hr; simp at hr
    · cases reason with
      | invalidUTF8 => exact absurd hb hu
      | tooLong => exact absurd hb hl
      | longLines => exact absurd hb hg
      | trigramRatio =>
        by_cases he : 2 ^ 24 < w.length ∧ w.length % 4 = 3 ∧ w.length + 1 = 10 * (trigramsOf w).length
        · exact ⟨rfl, he⟩
        · exact absurd ⟨hx.2 ⟨hb.2, he⟩, hb.1⟩ ht

/-- The full statement is false: there is a file of 16777219 bytes and 1677722 different trigrams, which is more than
10%, that is indexed. -/
theorem not_skipReasonsFull : ¬ SkipReasonsFull := by
  intro hfull
  obtain ⟨w, hlen, htri, hutf, hlong⟩ := edge_text
  have hcont : (⟨[w], false⟩ : Reader).content = w := by simp [Reader.content]
  have hne : w ≠ [] := by intro e; rw [e] at hlen; simp at hlen
  have hok : (⟨[w], false⟩ : Reader).Ok := ⟨rfl, by simpa using hne⟩
  obtain ⟨answers, data, hb⟩ := buildIndex_succeeds (cfg := goConfig) (by decide) (paths := [])
    (files := [(b!"f", ⟨[w], false⟩)]) (by intro f hf; rw [List.mem_singleton.1 hf]; simp only; decide)
    (by simp only [List.map_cons, List.map_nil, hcont, hlen]; decide)
  obtain ⟨_, _, _, h4, _⟩ := buildIndex_some (by decide) hb
  have hv : addAnswer ⟨[w], false⟩ = none := by
    unfold addAnswer
    rw [if_pos hok, hcont]
    unfold verdict
    rw [List.take_of_length_le (by omega), if_neg (by rw [hutf]; simp), if_neg (by omega), hlong, if_neg, if_neg (by simp)]
    rintro ⟨h1, -⟩
    rw [ratioAboveTenth_iff (by omega) (by omega), hlen, htri] at h1
    omega
  have := (hfull goConfig [] _ answers data 0 b!"f" ⟨[w], false⟩ none (by decide) hb rfl
    (by rw [h4]; simp [hv]) hok).2 rfl .trigramRatio
  apply this
  rw [hcont]
  simp only [BreaksRule, hlen, htri]
  omega

/-- **A file that cannot be read to its end is never indexed**; the only reasons returned for it concern the bytes
that were delivered, and mostly none is returned at all: such a file is neither indexed nor excluded. -/
theorem unreadable_not_indexed (hc : 0 < cfg.npost) (h : buildIndex cfg paths files = some (answers, data)) {i : Nat}
    {name : Bytes} {r : Reader} {answer : Option SkipReason} (hf : files[i]? = some (name, r))
    (ha : answers[i]? = some answer) (hok : ¬ r.Ok) :
    (∀ reason, answer = some reason → (reason = .invalidUTF8 ∨ reason = .tooLong) ∧ BreaksRule r.delivered reason) ∧
    (answer = none → ¬ BreaksRule r.delivered .invalidUTF8 ∧ ¬ BreaksRule r.delivered .tooLong) := by
  obtain ⟨h1, -⟩ := addAnswer_at hc h hf ha
  unfold addAnswer at h1
  rw [if_neg hok] at h1
  unfold badVerdict at h1
  split at h1
  · rename_i hu
    refine ⟨fun reason hr => ?_, fun hr => ?_⟩
    · rw [h1] at hr; injection hr with hr; subst hr; exact ⟨Or.inl rfl, hu⟩
    · rw [h1] at hr; simp at hr
  rename_i hu
  split at h1
  · rename_i hl
    refine ⟨fun reason hr => ?_, fun hr => ?_⟩
    · rw [h1] at hr; injection hr with hr; subst hr; exact ⟨Or.inr rfl, hl⟩
    · rw [h1] at hr; simp at hr
  rename_i hl
  refine ⟨fun reason hr => ?_, fun hr => ⟨hu, hl⟩⟩
  rw [h1] at hr; simp at hr

/-! ## A case -/

/-- Three files in odd pieces, one of them with a byte that is not UTF-8 and one unreadable. -/
def someFiles : List (Bytes × Reader) :=
  [(b!"a.go", ⟨[b!"pack", b!"age x\n"], false⟩), (b!"bad", ⟨[[0xff, 0x41]], false⟩),
   (b!"gone", ⟨[b!"abc"], true⟩), (b!"b.go", ⟨[b!"package y\n"], false⟩)]

/-- The writer handles them. -/
theorem someFiles_built : ∃ answers data, buildIndex goConfig [b!"/src"] someFiles = some (answers, data) :=
  buildIndex_succeeds (by decide) (by decide) (by decide)

example : ∀ p ∈ [b!"/src"], p ≠ [] ∧ (0 : UInt8) ∉ p := by decide

/-- `[pac]` is in the first and the last of the files that are indexed. -/
example {answers : List (Option SkipReason)} {data : Bytes} (h : buildIndex goConfig [b!"/src"] someFiles = some (answers, data)) :
    indexedFiles someFiles answers = [(b!"a.go", b!"package x\n"), (b!"b.go", b!"package y\n")] ∧
    answers = [none, some .invalidUTF8, none, none] := by
  obtain ⟨_, _, _, h4, _⟩ := buildIndex_some (by decide) h
  have : answers = [none, some .invalidUTF8, none, none] := by
    rw [h4]; decide
  exact ⟨by rw [this]; decide, this⟩

example : ThreeByte (.mk .and [b!"pac"] [.mk .or [b!"e x", b!"e y"] []]) ∧
    NoEmptyAnd (.mk .and [b!"pac"] [.mk .or [b!"e x", b!"e y"] []]) := by
  simp [ThreeByte, ThreeByteL, NoEmptyAnd, NoEmptyAndL]

end Hound
