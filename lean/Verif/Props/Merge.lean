import Verif.Proofs.MergeOrder
import Verif.Props.Index

/-!
# C42: merging two indexes

`Merge.merge cap data1 data2` is `Merge`: from the contents of two index files the content of the third.
-/

namespace Hound
namespace Merge
open Spec

theorem Holds.posting {ix : RIndex} {paths : List Bytes} {docs : List Doc} (hk : Holds ix paths docs) (a b c : UInt8) :
    ∃ l, ix.postingList (triVal a b c) none = some l ∧ l.Pairwise (· < ·) ∧
      ∀ i, i ∈ l ↔ ∃ name content, docs[i]? = some (name, content) ∧ [a, b, c] <:+: content := by
  obtain ⟨n, l, e1, e2, e3⟩ := hk.knows.tri (t := [a, b, c]) rfl (restrict := none) trivial
  rw [RIndex.triVal_eq_getTrigram] at e1
  injection e1 with e1
  subst e1
  refine ⟨l, e2, e3.1, fun i => (e3.2 i).trans ?_⟩
  constructor
  · rintro ⟨_, f, hf, hh⟩
    obtain ⟨x, y, e⟩ := hh.2
    exact ⟨f.1, f.2, hf, x, y, e.symm⟩
  · rintro ⟨nm, ct, hf, x, y, e⟩
    exact ⟨trivial, (nm, ct), hf, rfl, x, y, e.symm⟩

theorem Layout.serves {data : Bytes} {paths : List Bytes} {docs : List Doc} (h : Layout data paths docs) :
    Serves data paths docs := by
  obtain ⟨ix, _, o, a, _, _⟩ := h.open_
  exact ⟨ix, o, a.numName, fun i name content hi => a.name i _ hi, a.paths, a.posting⟩

theorem layouts_merge {cap : Nat} {data1 data2 : Bytes} {paths1 paths2 paths : List Bytes} {docs1 docs2 docs : List Doc}
    (h1 : Layout data1 paths1 docs1) (h2 : Layout data2 paths2 docs2) (o1 : Orderly paths1 docs1)
    (o2 : Orderly paths2 docs2) (hc : Covered paths2 docs2) (hp : MergedPaths paths1 paths2 paths)
    (hd : MergedDocs docs1 docs2 paths2 docs) (hs : Small paths docs) :
    ∃ data, merge cap data1 data2 = some data ∧ Layout data paths docs := by
  obtain ⟨w1, w2⟩ := weave_spec paths2 docs1 docs2 o1.names o2.names o2.inOrder o2.ascii hc
  have ed := mergedDocs_unique hd w1
  have hn : ∀ p, p ∈ paths1 ∨ p ∈ paths2 → p ≠ [] ∧ (0 : UInt8) ∉ p := by
    rintro p (h | h)
    · exact h1.paths p h
    · exact h2.paths p h
  have ep := mergedPaths_unique hp (mergedPaths_keep o1.inOrder o2.inOrder hn)
  subst ed ep
  obtain ⟨a, b⟩ := merge_spec (cap := cap) h1 h2 w2 (mergedSections_small (by
      have := length_le_of_small hs
      omega)
    (fun f hf => by
      rcases mem_weave hf with hx | hx
      · exact h1.tri f hx
      · exact h2.tri f hx) hs)
  exact ⟨_, a, b⟩

theorem made_layout {data : Bytes} {paths : List Bytes} {docs : List Doc} (h : Made data paths docs) :
    Layout data paths docs := by
  induction h with
  | write h1 h2 h3 => exact layout_build h1 h2 h3
  | merge _ _ o1 o2 hc hp hd hs hm ih1 ih2 =>
    obtain ⟨data', a, b⟩ := layouts_merge ih1 ih2 o1 o2 hc hp hd hs
    rw [a] at hm
    injection hm with hm
    subst hm
    exact b

variable {cap : Nat} {data data1 data2 : Bytes} {paths paths1 paths2 : List Bytes} {docs docs1 docs2 : List (Bytes × Bytes)}

/-- **C42, in part.** Two indexes, each made by the index writer or by merging, whose documents and paths are in
byte order, whose paths end in an ASCII character other than DEL, and of which the second has only documents under
its paths: merging them succeeds, and the result holds exactly the documents of the first that are not under a path
of the second and those of the second, in order, the paths of both without those under another, and the posting
lists of these documents. Missing: "under a path" means that the name begins with the path (`not_mergeFull`), and
the conditions are needed (`not_mergeAnyOrder`, `not_mergeAnyPath`). -/
theorem merge_partial (m1 : Made data1 paths1 docs1) (m2 : Made data2 paths2 docs2) (o1 : Orderly paths1 docs1)
    (o2 : Orderly paths2 docs2) (hc : Covered paths2 docs2) (hp : MergedPaths paths1 paths2 paths)
    (hd : MergedDocs docs1 docs2 paths2 docs) (hs : Small paths docs) :
    ∃ data, merge cap data1 data2 = some data ∧ Serves data paths docs := by
  obtain ⟨data, a, b⟩ := layouts_merge (cap := cap) (made_layout m1) (made_layout m2) o1 o2 hc hp hd hs
  exact ⟨data, a, b.serves⟩

/-- **C42, histories.** Whatever sequence of writing and merging made it, an index holds the paths and documents it is
to hold, and answers every trigram query with the documents that satisfy it. -/
theorem made_serves (m : Made data paths docs) : Serves data paths docs ∧
    ∃ ix, RIndex.open data = some ix ∧ ∀ q, ThreeByte q → NoEmptyAnd q →
      ∃ l, ix.postingQuery q none = some l ∧ l.Pairwise (· < ·) ∧
        ∀ i, i ∈ l ↔ ∃ name content, docs[i]? = some (name, content) ∧ Sat (HasTrigram content) q := by
  refine ⟨(made_layout m).serves, ?_⟩
  obtain ⟨ix, _, o, a, _, _⟩ := (made_layout m).open_
  refine ⟨ix, o, fun q h3 hne => ?_⟩
  obtain ⟨l, e1, e2, e3⟩ := RIndex.postingQuery_spec a.knows q none h3 hne trivial (by simp)
  refine ⟨l, e1, e2, fun i => (e3 i).trans ?_⟩
  constructor
  · rintro ⟨_, f, hf, hh⟩
    exact ⟨f.1, f.2, hf, hh⟩
  · rintro ⟨nm, ct, hf, hh⟩
    exact ⟨trivial, (nm, ct), hf, hh⟩

/-- The paths and documents a merged index is to hold exist and are unique, and are in order again. -/
theorem merged_exists (m1 : Made data1 paths1 docs1) (m2 : Made data2 paths2 docs2) (o1 : Orderly paths1 docs1)
    (o2 : Orderly paths2 docs2) (hc : Covered paths2 docs2) :
    ∃ paths docs, MergedPaths paths1 paths2 paths ∧ MergedDocs docs1 docs2 paths2 docs ∧ Orderly paths docs ∧
      (Covered paths1 docs1 → Covered paths docs) ∧
      (∀ paths' docs', MergedPaths paths1 paths2 paths' → MergedDocs docs1 docs2 paths2 docs' →
        paths' = paths ∧ docs' = docs) := by
  obtain ⟨w1, w2⟩ := weave_spec paths2 docs1 docs2 o1.names o2.names o2.inOrder o2.ascii hc
  have hn : ∀ p, p ∈ paths1 ∨ p ∈ paths2 → p ≠ [] ∧ (0 : UInt8) ∉ p := by
    rintro p (h | h)
    · exact (made_layout m1).paths p h
    · exact (made_layout m2).paths p h
  have hp := mergedPaths_keep o1.inOrder o2.inOrder hn
  refine ⟨_, _, hp, w1, ⟨w1.1, hp.1.imp Or.inl, fun p h => ?_⟩, fun hc1 d hd => ?_, fun _ _ hp' hd' =>
    ⟨mergedPaths_unique hp' hp, mergedDocs_unique hd' w1⟩⟩
  · rcases ((hp.2 p).1 h).1 with h | h
    · exact o1.ascii p h
    · exact o2.ascii p h
  · -- the shortest path the name begins with is kept
    have key : ∀ (n : Nat) (q : Bytes), q.length ≤ n → (q ∈ paths1 ∨ q ∈ paths2) → q <+: d.1 →
        ∃ p ∈ keepPaths [0] (allPaths paths1 paths2), p <+: d.1 := by
      intro n
      induction n with
      | zero =>
        intro q hq hm _
        exact absurd (List.length_eq_zero_iff.1 (by omega)) (hn q hm).1
      | succ n ih =>
        intro q hq hm hqd
        by_cases hmin : ∀ r, (r ∈ paths1 ∨ r ∈ paths2) → r <+: q → r = q
        · exact ⟨q, (hp.2 q).2 ⟨hm, hmin⟩, hqd⟩
        · simp only [Classical.not_forall] at hmin
          obtain ⟨r, hr1, hr2, hr3⟩ := hmin
          have hl := hr2.length_le
          have hne : r.length ≠ q.length := fun he => hr3 (hr2.eq_of_length he)
          exact ih r (by omega) hr1 (hr2.trans hqd)
    rcases (w1.2 d).1 hd with ⟨h1, _⟩ | h1
    · obtain ⟨q, hq, hqd⟩ := hc1 d h1
      exact key _ q (Nat.le_refl _) (Or.inl hq) hqd
    · obtain ⟨q, hq, hqd⟩ := hc d h1
      exact key _ q (Nat.le_refl _) (Or.inr hq) hqd

/-! ## What does not hold -/

/-- A merge keeps the documents of the first index that are not under a path of the second, and those of the second,
whenever the indexes meet the condition `H` and the documents of the second are under its paths. -/
def MergeClaim (Under : Bytes → Bytes → Prop)
    (H : List Bytes → List (Bytes × Bytes) → List Bytes → List (Bytes × Bytes) → Prop) : Prop :=
  ∀ (cap : Nat) (data1 data2 : Bytes) (paths1 paths2 : List Bytes) (docs1 docs2 : List (Bytes × Bytes)),
    Made data1 paths1 docs1 → Made data2 paths2 docs2 → H paths1 docs1 paths2 docs2 →
    (∀ d ∈ docs2, ∃ p ∈ paths2, Under p d.1) → Small (paths1 ++ paths2) (docs1 ++ docs2) →
    ∃ data paths docs, merge cap data1 data2 = some data ∧ Serves data paths docs ∧
      ∀ d, d ∈ docs ↔ (d ∈ docs1 ∧ ∀ p ∈ paths2, ¬ Under p d.1) ∨ d ∈ docs2

/-- The file is the path, or in the directory with this path. -/
def InDir (p n : Bytes) : Prop := n = p ∨ (p ++ b!"/") <+: n

/-- **C42**, the full claim. -/
def MergeFull : Prop := MergeClaim InDir (fun _ _ _ _ => True)

theorem indexedOf_good : ∀ {files : List (Bytes × Reader)}, (∀ f ∈ files, f.2.Ok ∧ verdict f.2.content = none) →
    indexedOf files = files.map (fun f => (f.1, f.2.content))
  | [], _ => rfl
  | f :: fs, h => by
    rw [indexedOf_cons, indexedOf_good (files := fs) (fun g hg => h g (by simp [hg]))]
    have hx : indexedOf [f] = [(f.1, f.2.content)] := by
      unfold indexedOf
      rw [List.filterMap_cons, if_pos (h f (by simp))]
      rfl
    rw [hx]
    rfl

/-- Files that can be read and indexed make an index. -/
theorem made_files {paths : List Bytes} {files : List (Bytes × Reader)} (hp : ∀ p ∈ paths, p ≠ [] ∧ (0 : UInt8) ∉ p)
    (hn : ∀ f ∈ files, (0 : UInt8) ∉ f.1) (hok : ∀ f ∈ files, f.2.Ok ∧ verdict f.2.content = none)
    (hs : (paths.map (fun p => p.length + 1)).sum +
      (files.map (fun f => f.1.length + 5 + 20 * f.2.content.length)).sum + 73 < 2 ^ 32) :
    ∃ data, Made data paths (files.map (fun f => (f.1, f.2.content))) := by
  obtain ⟨answers, data, h⟩ := buildIndex_succeeds (cfg := goConfig) (by decide) hn hs
  have := Made.write (by decide) h hp
  obtain ⟨_, _, _, h4, _⟩ := buildIndex_some (by decide) h
  rw [h4, indexedFiles_eq, indexedOf_good hok] at this
  exact ⟨data, this⟩

theorem made_empty {paths : List Bytes} {names : List Bytes} (hp : ∀ p ∈ paths, p ≠ [] ∧ (0 : UInt8) ∉ p)
    (hn : ∀ n ∈ names, (0 : UInt8) ∉ n)
    (hs : (paths.map (fun p => p.length + 1)).sum + (names.map (fun n => n.length + 5)).sum + 73 < 2 ^ 32) :
    ∃ data, Made data paths (names.map (fun n => (n, []))) := by
  obtain ⟨data, h⟩ := made_files (files := names.map (fun n => (n, emptyFile))) hp
    (by
      intro f hf
      obtain ⟨n, hn', rfl⟩ := List.mem_map.1 hf
      exact hn n hn')
    (by
      intro f hf
      obtain ⟨n, hn', rfl⟩ := List.mem_map.1 hf
      show emptyFile.Ok ∧ verdict emptyFile.content = none
      decide)
    (by rw [List.map_map]; exact hs)
  rw [List.map_map] at h
  exact ⟨data, h⟩

/-- A merge that loses a document refutes a claim. -/
theorem claim_refuted {Under : Bytes → Bytes → Prop}
    {H : List Bytes → List (Bytes × Bytes) → List Bytes → List (Bytes × Bytes) → Prop} (hf : MergeClaim Under H)
    (paths1 paths2 names1 names2 : List Bytes) (hp1 : ∀ p ∈ paths1, p ≠ [] ∧ (0 : UInt8) ∉ p)
    (hp2 : ∀ p ∈ paths2, p ≠ [] ∧ (0 : UInt8) ∉ p) (hn1 : ∀ n ∈ names1, (0 : UInt8) ∉ n)
    (hn2 : ∀ n ∈ names2, (0 : UInt8) ∉ n)
    (hs : Small (paths1 ++ paths2) (names1.map (fun n => (n, [])) ++ names2.map (fun n => (n, []))))
    (hH : H paths1 (names1.map (fun n => (n, []))) paths2 (names2.map (fun n => (n, []))))
    (hu : ∀ n ∈ names2, ∃ p ∈ paths2, Under p n) (lost : Bytes) (hl : lost ∈ names1) (hl' : ∀ p ∈ paths2, ¬ Under p lost)
    (hw : weave (names1.map (fun n => (n, []))) (names2.map (fun n => (n, []))) paths2 = names2.map (fun n => (n, [])))
    (hnod : names2.Nodup) (hl2 : lost ∉ names2)
    (hfit : Fits (names2.map (fun n => (n, []))) paths2)
    (hs3 : Small (keepPaths [0] (allPaths paths1 paths2)) (names2.map (fun n => (n, [])))) : False := by
  obtain ⟨data1, m1⟩ := made_empty hp1 hn1 (by
    unfold Small at hs
    simp only [List.map_append, List.sum_append, List.map_map] at hs
    have : (names1.map (fun n => n.length + 5)).sum =
      (names1.map ((fun f : Bytes × Bytes => f.1.length + 5 + 20 * f.2.length) ∘ fun n => (n, []))).sum := rfl
    omega)
  obtain ⟨data2, m2⟩ := made_empty hp2 hn2 (by
    unfold Small at hs
    simp only [List.map_append, List.sum_append, List.map_map] at hs
    have : (names2.map (fun n => n.length + 5)).sum =
      (names2.map ((fun f : Bytes × Bytes => f.1.length + 5 + 20 * f.2.length) ∘ fun n => (n, []))).sum := rfl
    omega)
  obtain ⟨data, paths, docs, e1, ⟨ix, e2, e3, _⟩, e4⟩ := hf 0 data1 data2 _ _ _ _ m1 m2 hH
    (by
      intro d hd
      obtain ⟨n, hn, rfl⟩ := List.mem_map.1 hd
      exact hu n hn) hs
  obtain ⟨a, b⟩ := merge_spec (cap := 0) (made_layout m1) (made_layout m2) hfit (by
    rw [hw]
    refine mergedSections_small ?_ ?_ hs3
    · have := length_le_of_small hs3
      omega
    · exact (made_layout m2).tri)
  rw [hw] at a b
  rw [a] at e1
  injection e1 with e1
  subst e1
  obtain ⟨ix', o', k1, _⟩ := b.serves
  rw [o'] at e2
  injection e2 with e2
  subst e2
  rw [k1] at e3
  have hsub : (names2.map (fun n => (n, ([] : Bytes)))) ⊆ docs := fun d hd => (e4 d).2 (Or.inr hd)
  have hlost : (lost, ([] : Bytes)) ∈ docs :=
    (e4 _).2 (Or.inl ⟨List.mem_map.2 ⟨lost, hl, rfl⟩, hl'⟩)
  have hnd : ((lost, ([] : Bytes)) :: names2.map (fun n => (n, ([] : Bytes)))).Nodup := by
    rw [List.nodup_cons]
    refine ⟨?_, ?_⟩
    · intro hm
      obtain ⟨n, hn, he⟩ := List.mem_map.1 hm
      injection he with he
      subst he
      exact hl2 hn
    · rw [List.Nodup, List.pairwise_map]
      exact hnod.imp (fun {a b} h he => h (by injection he))
  have hle := hnd.length_le_of_subset (l₂ := docs) (by
    intro d hd
    rcases List.mem_cons.1 hd with rfl | hd
    · exact hlost
    · exact hsub hd)
  rw [List.length_cons] at hle
  omega

instance (paths : List Bytes) (docs : List (Bytes × Bytes)) : Decidable (Small paths docs) := by
  unfold Small; infer_instance

theorem allPaths_pair (p q : Bytes) : allPaths [p] [q] = if bytesLt q p then [q, p] else [p, q] := by
  unfold allPaths
  rw [List.cons_merge_cons]
  cases h : bytesLt q p <;> simp [List.nil_merge, List.merge]

instance (docs : List Doc) : Decidable (Fits docs []) := by unfold Fits; infer_instance

/-- The full claim is false: the path `/a/b` also stands for the files of the directory `/a/bc`, which only begins
with it. -/
theorem not_mergeFull : ¬ MergeFull := by
  intro hf
  refine claim_refuted hf [b!"/a/bc"] [b!"/a/b"] [b!"/a/bc/x"] [b!"/a/b/y"] (by decide) (by decide) (by decide) (by decide)
    (by decide) trivial ?_ b!"/a/bc/x" (by decide) ?_ (by decide) (by decide) (by decide) ?_ (by rw [allPaths_pair]; decide)
  · intro n hn
    rw [List.mem_singleton] at hn
    subst hn
    exact ⟨b!"/a/b", by simp, Or.inr (by decide)⟩
  · intro p hp
    rw [List.mem_singleton] at hp
    subst hp
    unfold InDir
    decide
  · exact ⟨by decide, by unfold Fits; decide⟩

/-- Also with "begins with the path", the order of the names is needed: in the order of a walk through directories the
file `/a/b/x` comes before `/a/b.go`, and then `/a/b.go` is lost when `/a/b/` is merged in. -/
theorem not_mergeAnyOrder : ¬ MergeClaim (fun p n => p <+: n) (fun paths1 _ paths2 docs2 =>
    paths1.Pairwise (fun p q => p < q ∨ p = q) ∧ (∀ p ∈ paths1, ∃ q c, p = q ++ [c] ∧ c < 0x7F) ∧
      Orderly paths2 docs2) := by
  intro hf
  refine claim_refuted hf [b!"/a"] [b!"/a/b/"] [b!"/a/b/x", b!"/a/b.go"] [b!"/a/b/y"] (by decide) (by decide) (by decide)
    (by decide) (by decide) ⟨by simp, ?_, ⟨by simp, by simp, ?_⟩⟩ ?_ b!"/a/b.go" (by decide) (by decide) (by decide)
    (by decide) (by decide) ?_ (by rw [allPaths_pair]; decide)
  · intro p hp
    rw [List.mem_singleton] at hp
    subst hp
    exact ⟨b!"/", 97, by decide, by decide⟩
  · intro p hp
    rw [List.mem_singleton] at hp
    subst hp
    exact ⟨b!"/a/b", 47, by decide, by decide⟩
  · intro n hn
    rw [List.mem_singleton] at hn
    subst hn
    exact ⟨b!"/a/b/", by simp, by decide⟩
  · exact ⟨by decide, by unfold Fits; decide⟩

/-- And the last character of the path matters: the path `/é` also stands for the file `/ê`. -/
theorem not_mergeAnyPath : ¬ MergeClaim (fun p n => p <+: n) (fun paths1 docs1 paths2 docs2 =>
    docs1.Pairwise (fun d e => d.1 < e.1) ∧ docs2.Pairwise (fun d e => d.1 < e.1) ∧
    paths1.Pairwise (fun p q => p < q ∨ p = q) ∧ paths2.Pairwise (fun p q => p < q ∨ p = q)) := by
  intro hf
  refine claim_refuted hf [[47, 0xC3, 0xAA]] [[47, 0xC3, 0xA9]] [[47, 0xC3, 0xAA]] [[47, 0xC3, 0xA9]] (by decide) (by decide) (by decide)
    (by decide) (by decide) ⟨by simp, by simp, by simp, by simp⟩ ?_ [47, 0xC3, 0xAA] (by decide) (by decide) (by decide)
    (by decide) (by decide) ?_ (by rw [allPaths_pair]; decide)
  · intro n hn
    rw [List.mem_singleton] at hn
    subst hn
    exact ⟨[47, 0xC3, 0xA9], by simp, by decide⟩
  · exact ⟨by decide, by unfold Fits; decide⟩

/-! ## A case that meets the conditions -/

def text (w : Bytes) : Reader := ⟨[w], false⟩

/-- Files under `/src/lib` indexed anew and merged into an index of `/src`: there are two indexes that meet the
conditions of `merge_partial`, one document is replaced, one is gone, one is new. -/
example : ∃ data1 data2 data, merge 100 data1 data2 = some data ∧
    Serves data [b!"/src"] [(b!"/src/a.go", b!"package a"), (b!"/src/lib/b.go", b!"package lib\n"),
      (b!"/src/lib/d.go", b!"package d"), (b!"/src/z.go", b!"package z")] := by
  obtain ⟨data1, m1⟩ := made_files (paths := [b!"/src"]) (files := [(b!"/src/a.go", text b!"package a"),
    (b!"/src/lib/b.go", text b!"package b"), (b!"/src/lib/c.go", text b!"package c"),
    (b!"/src/z.go", text b!"package z")]) (by decide) (by decide) (by decide +kernel) (by decide)
  obtain ⟨data2, m2⟩ := made_files (paths := [b!"/src/lib"]) (files := [(b!"/src/lib/b.go", text b!"package lib\n"),
    (b!"/src/lib/d.go", text b!"package d")]) (by decide) (by decide) (by decide +kernel) (by decide)
  have o1 : Orderly [b!"/src"] [(b!"/src/a.go", b!"package a"), (b!"/src/lib/b.go", b!"package b"),
      (b!"/src/lib/c.go", b!"package c"), (b!"/src/z.go", b!"package z")] :=
    ⟨by decide, by decide, fun p hp => ⟨b!"/sr", 99, by simpa using hp, by decide⟩⟩
  have o2 : Orderly [b!"/src/lib"] [(b!"/src/lib/b.go", b!"package lib\n"), (b!"/src/lib/d.go", b!"package d")] :=
    ⟨by decide, by decide, fun p hp => ⟨b!"/src/li", 98, by simpa using hp, by decide⟩⟩
  have hc : Covered [b!"/src/lib"] [(b!"/src/lib/b.go", b!"package lib\n"), (b!"/src/lib/d.go", b!"package d")] := by
    unfold Covered; decide
  have hd := (weave_spec _ _ _ o1.names o2.names o2.inOrder o2.ascii hc).1
  have hp := mergedPaths_keep (ps := [b!"/src"]) (qs := [b!"/src/lib"]) (by decide) (by decide) (by
    rintro p (h | h) <;> (rw [List.mem_singleton] at h; subst h; decide))
  rw [show keepPaths [0] (allPaths [b!"/src"] [b!"/src/lib"]) = [b!"/src"] by rw [allPaths_pair]; decide] at hp
  obtain ⟨data, h⟩ := merge_partial (cap := 100) m1 m2 o1 o2 hc hp hd (by decide)
  exact ⟨data1, data2, data, h⟩

end Merge
end Hound
