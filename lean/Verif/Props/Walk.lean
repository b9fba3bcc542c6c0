import Verif.Proofs.Walk
import Verif.Props.Complete
import Verif.Props.TextFile

/-!
# C19: every walked file is indexed or listed as excluded, never both

`indexAllFiles cfg opt rootName root` builds an index of the tree `root`. `Under opt R rootName root path
name m`: the names `path` lead from the root to `m`, no directory on the way being left out by the options;
`R` restricts the directories on the way.
-/

namespace Hound
open Spec

/-- The index has a file of this name: a search can look at it. -/
def Searchable (d : BuiltDir) (rel : Bytes) : Prop :=
  ∃ ix, RIndex.open d.tri = some ix ∧ ∃ i : Nat, (i : Int) < ix.numName ∧ ix.name i = some rel

/-- The file is in the list of excluded files. -/
def Excluded (d : BuiltDir) (rel : Bytes) : Prop := ∃ reason, (rel, reason) ∈ d.excluded

/-- **C19**, the full claim. -/
def AccountedFull : Prop :=
  ∀ (cfg : IWConfig) (opt : IndexOptions) (rootName : Bytes) (root : FsNode) (d : BuiltDir), 0 < cfg.npost →
    WellNamed root → indexAllFiles cfg opt rootName root = .ok d → ∀ (path : List Bytes) (name : Bytes) (m : FsNode),
    Under opt (fun _ => True) rootName root path name m → IsFile m → name ∉ opt.specialFiles →
    (Searchable d (relPath path) ∧ ¬ Excluded d (relPath path)) ∨ (¬ Searchable d (relPath path) ∧ Excluded d (relPath path))

section
variable {cfg : IWConfig} {opt : IndexOptions} {rootName : Bytes} {root : FsNode} {d : BuiltDir}

/-- What is searchable, in terms of the visited files. -/
theorem searchable_iff (hc : 0 < cfg.npost) {fs : List (Bytes × Reader)} {answers : List (Option SkipReason)}
    (hb : buildIndex cfg [] fs = some (answers, d.tri)) (rel : Bytes) :
    Searchable d rel ↔ ∃ content, (rel, content) ∈ indexedFiles fs answers := by
  obtain ⟨ix, ho, hnum, hname, _⟩ := index_names hc hb
  constructor
  · rintro ⟨ix', ho', i, hi, hn⟩
    rw [ho] at ho'
    cases ho'
    rw [hnum] at hi
    have hi : i < (indexedFiles fs answers).length := by omega
    obtain ⟨f, hf⟩ : ∃ f, (indexedFiles fs answers)[i]? = some f := ⟨_, List.getElem?_eq_getElem hi⟩
    have := hname i f.1 f.2 hf
    rw [hn] at this
    cases this
    exact ⟨f.2, List.mem_of_getElem? hf⟩
  · rintro ⟨content, hm⟩
    obtain ⟨i, hi⟩ := List.getElem?_of_mem hm
    exact ⟨ix, ho, i, by have := (List.getElem?_eq_some_iff.mp hi).1; omega, hname i _ _ hi⟩

theorem addAnswer_verdict {r : Reader} (h : r.Ok) : addAnswer r = verdict r.content := by
  unfold addAnswer; rw [if_pos h]

theorem mem_indexed {ls : List Leaf} {rel content : Bytes} :
    (rel, content) ∈ indexedFiles (ls.filterMap (addOf opt))
        ((ls.filterMap (addOf opt)).map (fun f => addAnswer f.2)) ↔
      ∃ l ∈ ls, ∃ r, addOf opt l = some (rel, r) ∧ r.Ok ∧ addAnswer r = none ∧ r.content = content := by
  rw [indexedFiles_eq, mem_indexedOf]
  constructor
  · rintro ⟨r, h1, h2, h3, h4⟩
    obtain ⟨l, hl, ha⟩ := List.mem_filterMap.mp h1
    exact ⟨l, hl, r, ha, h2, by rw [addAnswer_verdict h2]; exact h3, h4⟩
  · rintro ⟨l, hl, r, ha, h2, h3, h4⟩
    exact ⟨r, List.mem_filterMap.mpr ⟨l, hl, ha⟩, h2, by rw [← addAnswer_verdict h2]; exact h3, h4⟩

/-- **C19**, for files that can be read, in directories that can be listed. -/
theorem accounted_partial (hc : 0 < cfg.npost) (hn : WellNamed root)
    (h : indexAllFiles cfg opt rootName root = .ok d) {path : List Bytes} {name : Bytes} {m : FsNode}
    (hu : Under opt (· = true) rootName root path name m) (hm : IsFile m) (hs : name ∉ opt.specialFiles)
    (hok : ∀ o r, m = .file o r → r.Ok) :
    (Searchable d (relPath path) ∧ ¬ Excluded d (relPath path)) ∨
      (¬ Searchable d (relPath path) ∧ Excluded d (relPath path)) := by
  obtain ⟨ls, hls, hb, hex, hraw, hfine⟩ := indexAllFiles_ok hc hn h
  have hmem : ((path, name, m) : Leaf) ∈ ls := (hls _).mpr ⟨hu, by cases m <;> simp_all [IsFile, FsNode.isDir]⟩
  -- a leaf with the same path is this one
  have huniq : ∀ l ∈ ls, relPath l.1 = relPath path → l.2 = (name, m) := by
    intro l hl e
    obtain ⟨e1, e2⟩ := under_rel hn ((hls l).mp hl).1 hu e
    exact Prod.ext e1 e2
  have hS : Searchable d (relPath path) ↔ ∃ r, addOf opt (path, name, m) = some (relPath path, r) ∧ r.Ok ∧ addAnswer r = none := by
    rw [searchable_iff hc hb]
    constructor
    · rintro ⟨content, hmi⟩
      obtain ⟨l, hl, r, ha, h2, h3, h4⟩ := mem_indexed.mp hmi
      have hrel : relPath l.1 = relPath path := by
        simp only [addOf] at ha
        split at ha
        · cases ha
        · split at ha
          · split at ha <;> simp at ha; exact ha.1
          · cases ha
      have hl2 := huniq l hl hrel
      refine ⟨r, ?_, h2, h3⟩
      rw [← ha]
      obtain ⟨l1, l2⟩ := l
      simp only at hl2 hrel
      subst hl2
      simp only [addOf, hrel]
    · rintro ⟨r, h1, h2, h3⟩
      exact ⟨r.content, mem_indexed.mpr ⟨_, hmem, r, h1, h2, h3, rfl⟩⟩
  have hE : Excluded d (relPath path) ↔ ∃ reason, exOf opt (path, name, m) = some reason := by
    unfold Excluded
    rw [hex]
    constructor
    · rintro ⟨reason, hr⟩
      obtain ⟨l, hl, hx⟩ := List.mem_filterMap.mp hr
      cases he : exOf opt l with
      | none => rw [he] at hx; simp at hx
      | some x =>
        rw [he] at hx
        simp only [Option.map_some, Option.some.injEq, Prod.mk.injEq] at hx
        have hl2 := huniq l hl hx.1
        refine ⟨x, ?_⟩
        rw [← he]
        simp only [exOf, hl2]
    · rintro ⟨reason, hr⟩
      exact ⟨reason, List.mem_filterMap.mpr ⟨_, hmem, by rw [hr]; rfl⟩⟩
  rw [hS, hE]
  by_cases hd : opt.excludeDotFiles = true ∧ name.head? = some 46
  · right
    constructor
    · rintro ⟨r, h1, _⟩
      simp [addOf, LeftOut, hd] at h1
    · exact ⟨.dotFile, by simp only [exOf, if_neg hs, if_pos hd]⟩
  · have hlo : ¬ LeftOut opt name := by rintro (g | g) <;> contradiction
    cases m with
    | dir _ _ => simp [IsFile] at hm
    | gone => simp [IsFile] at hm
    | irregular =>
      right
      constructor
      · rintro ⟨r, h1, _⟩
        simp [addOf] at h1
      · exact ⟨.invalidMode, by simp only [exOf, if_neg hs, if_neg hd]⟩
    | file o r =>
      have hr := hok o r rfl
      by_cases ht : isTextFile r = some true
      · have ha : addOf opt (path, name, .file o r) = some (relPath path, r) := by simp [addOf, hlo, ht]
        have he : exOf opt (path, name, .file o r) = (addAnswer r).map .add := by
          simp only [exOf, if_neg hs, if_neg hd, if_pos ht]
        rw [ha, he]
        cases hans : addAnswer r with
        | none => left; exact ⟨⟨r, rfl, hr, hans⟩, by simp⟩
        | some x =>
          right
          refine ⟨?_, ⟨_, rfl⟩⟩
          rintro ⟨r', h1, _, h3⟩
          simp at h1
          subst h1
          rw [hans] at h3; cases h3
      · right
        constructor
        · rintro ⟨r', h1, _⟩
          simp [addOf, ht] at h1
        · exact ⟨.notText, by simp only [exOf, if_neg hs, if_neg hd, if_neg ht]⟩

/-- What a reason says about a file. -/
def ReasonHolds (opt : IndexOptions) (name : Bytes) (m : FsNode) : ExReason → Prop
  | .dotFile => opt.excludeDotFiles = true ∧ name.head? = some 46
  | .invalidMode => m = .irregular
  /- not valid UTF-8 -/
  | .notText => ∃ r, m = .file true r ∧ (r.Ok → ¬ ValidUtf8 r.content)
  /- one of the rules of `Add`; see C20 -/
  | .add reason => ∃ r, m = .file true r ∧ (r.Ok → BreaksRule r.content reason)

/-- **C19, the other direction**: what is searchable or listed is a file of the tree that was not left out; the
reason given for an exclusion is true of it. -/
theorem accounted_sound (hc : 0 < cfg.npost) (hn : WellNamed root)
    (h : indexAllFiles cfg opt rootName root = .ok d) :
    (∀ rel, Searchable d rel → ∃ path name r, rel = relPath path ∧
      Under opt (· = true) rootName root path name (.file true r) ∧ ¬ LeftOut opt name ∧ r.Ok) ∧
    ∀ rel reason, (rel, reason) ∈ d.excluded → ∃ path name m, rel = relPath path ∧
      Under opt (· = true) rootName root path name m ∧ IsFile m ∧ name ∉ opt.specialFiles ∧ ReasonHolds opt name m reason := by
  obtain ⟨ls, hls, hb, hex, hraw, hfine⟩ := indexAllFiles_ok hc hn h
  constructor
  · intro rel hs
    obtain ⟨content, hm⟩ := (searchable_iff hc hb rel).mp hs
    obtain ⟨l, hl, r, ha, hr, _, _⟩ := mem_indexed.mp hm
    simp only [addOf] at ha
    split at ha
    · cases ha
    · rename_i hlo
      split at ha
      · rename_i o r' hm'
        split at ha <;> simp at ha
        obtain ⟨rfl, rfl⟩ := ha
        have hf := (hfine l hl).2 hlo o r' hm'
        refine ⟨l.1, l.2.1, r', rfl, ?_, hlo, hr⟩
        have := ((hls l).mp hl).1
        rw [hm', hf.1] at this
        exact this
      · cases ha
  · intro rel reason hm
    rw [hex] at hm
    obtain ⟨l, hl, hx⟩ := List.mem_filterMap.mp hm
    cases he : exOf opt l with
    | none => rw [he] at hx; simp at hx
    | some x =>
      rw [he] at hx
      simp only [Option.map_some, Option.some.injEq, Prod.mk.injEq] at hx
      obtain ⟨rfl, rfl⟩ := hx
      obtain ⟨hun, hdir⟩ := (hls l).mp hl
      obtain ⟨hg, hf⟩ := hfine l hl
      have hfile : IsFile l.2.2 := by
        revert hdir hg
        cases l.2.2 <;> simp [FsNode.isDir, FsNode.isGone, IsFile]
      simp only [exOf] at he
      split at he
      · cases he
      · rename_i hs
        refine ⟨l.1, l.2.1, l.2.2, rfl, hun, hfile, hs, ?_⟩
        split at he
        · rename_i hd
          simp at he; subst he
          exact hd
        · rename_i hd
          have hlo : ¬ LeftOut opt l.2.1 := by rintro (g | g) <;> contradiction
          split at he
          · rename_i hm'
            simp at he; subst he
            exact hm'
          · rename_i o r hm'
            obtain ⟨rfl, hnn⟩ := hf hlo o r hm'
            split at he
            · rename_i ht
              cases hans : addAnswer r with
              | none => rw [hans] at he; simp at he
              | some sr =>
                rw [hans] at he
                simp at he; subst he
                refine ⟨r, hm', fun hok => ?_⟩
                have hmem : ((relPath l.1, r) : Bytes × Reader) ∈ ls.filterMap (addOf opt) :=
                  List.mem_filterMap.mpr ⟨l, hl, by simp only [addOf, if_neg hlo, hm', if_pos ht]⟩
                obtain ⟨i, hi⟩ := List.getElem?_of_mem hmem
                have := skipReasons_partial hc hb (i := i) (answer := addAnswer r) hi (by rw [List.getElem?_map, hi]; rfl) hok
                exact this.1 sr hans
            · rename_i ht
              simp at he; subst he
              refine ⟨r, hm', fun hok hv => ht (text_check_accepts hok.1 hv)⟩
          · cases he

/-! ## From a tree to the answer of a search -/

/-- The open index reads the files of a built directory. -/
def ServesDir (ix : IndexView Query) (d : BuiltDir) : Prop :=
  ∃ rix, RIndex.open d.tri = some rix ∧ (∀ q, ix.postingQuery q = (rix.postingQuery q none).getD []) ∧
    (∀ i : Nat, ix.name i = (rix.name i).getD []) ∧ ∀ name, ix.raw name = d.raw.lookup name

theorem delivered_ok {r : Reader} (h : r.Ok) : r.delivered = r.content := by
  unfold Reader.delivered Reader.content
  congr 1
  have := h.2
  generalize r.chunks = cs at this
  induction cs with
  | nil => rfl
  | cons c cs ih =>
    have hc : c ≠ [] := this c (by simp)
    rw [List.takeWhile_cons_of_pos (by simpa using hc), ih (fun x hx => this x (List.mem_cons_of_mem _ hx))]

theorem lookup_of_unique {α : Type} {l : List (Bytes × α)} {k : Bytes} {v : α} (h : (k, v) ∈ l)
    (hu : ∀ w, (k, w) ∈ l → w = v) : l.lookup k = some v := by
  induction l with
  | nil => simp at h
  | cons e l ih =>
    obtain ⟨k', v'⟩ := e
    by_cases hk : k = k'
    · subst hk
      simp [List.lookup, hu v' (by simp)]
    · have : (k == k') = false := by simpa using hk
      simp only [List.lookup, this]
      refine ih ?_ (fun w hw => hu w (List.mem_cons_of_mem _ hw))
      rcases List.mem_cons.mp h with h | h
      · cases h; exact absurd rfl hk
      · exact h

/-- A directory built from a tree serves its files: exactly those of the tree that are not left out, pass the text
check and break no rule of `Add`, with their contents. -/
theorem tree_serves (hc : 0 < cfg.npost) (hn : WellNamed root)
    (h : indexAllFiles cfg opt rootName root = .ok d) {ix : IndexView Query} (hix : ServesDir ix d) :
    ∃ files answers, ServesFiles ix files answers ∧
      ∀ rel content, (rel, content) ∈ indexedFiles files answers ↔
        (Searchable d rel ∧ ∃ path name r, rel = relPath path ∧
          Under opt (· = true) rootName root path name (.file true r) ∧ content = r.content) := by
  obtain ⟨ls, hls, hb, hex, hraw, hfine⟩ := indexAllFiles_ok hc hn h
  obtain ⟨rix, ho, hq, hnm, hr⟩ := hix
  have hadd : ∀ l ∈ ls, ∀ rel r, addOf opt l = some (rel, r) →
      rel = relPath l.1 ∧ l.2.2 = .file true r ∧ Under opt (· = true) rootName root l.1 l.2.1 (.file true r) := by
    intro l hl rel r ha
    simp only [addOf] at ha
    split at ha
    · cases ha
    · rename_i hlo
      split at ha
      · rename_i o r' hm'
        split at ha <;> simp at ha
        obtain ⟨rfl, rfl⟩ := ha
        have hf := (hfine l hl).2 hlo o r' hm'
        rw [hf.1] at hm'
        refine ⟨rfl, hm', ?_⟩
        have := ((hls l).mp hl).1
        rw [hm'] at this
        exact this
      · cases ha
  refine ⟨_, _, ⟨cfg, [], d.tri, rix, hc, hb, ho, hq, hnm, ?_⟩, ?_⟩
  · rintro ⟨rel, content⟩ hf
    obtain ⟨l, hl, r, ha, hok, hans, rfl⟩ := mem_indexed.mp hf
    obtain ⟨rfl, hm, hu⟩ := hadd l hl rel r ha
    simp only
    rw [hr, hraw]
    refine lookup_of_unique ?_ ?_
    · rw [List.mem_map]
      exact ⟨(relPath l.1, r), List.mem_filterMap.mpr ⟨l, hl, ha⟩, by rw [delivered_ok hok]⟩
    · intro w hw
      rw [List.mem_map] at hw
      obtain ⟨f, hf, he⟩ := hw
      obtain ⟨l', hl', ha'⟩ := List.mem_filterMap.mp hf
      obtain ⟨e1, e2, hu'⟩ := hadd l' hl' f.1 f.2 ha'
      simp only [Prod.mk.injEq] at he
      rw [e1] at he
      have := (under_rel hn hu' hu he.1).2
      simp only [FsNode.file.injEq, true_and] at this
      rw [← he.2, this, delivered_ok hok]
  · intro rel content
    rw [searchable_iff hc hb]
    constructor
    · intro hm
      refine ⟨⟨content, hm⟩, ?_⟩
      obtain ⟨l, hl, r, ha, hok, hans, rfl⟩ := mem_indexed.mp hm
      obtain ⟨rfl, hm, hu⟩ := hadd l hl rel r ha
      exact ⟨l.1, l.2.1, r, rfl, hu, rfl⟩
    · rintro ⟨⟨c', hm⟩, path, name, r, rfl, hu, rfl⟩
      obtain ⟨l, hl, r', ha, hok, hans, rfl⟩ := mem_indexed.mp hm
      obtain ⟨e, hm', hu'⟩ := hadd l hl _ r' ha
      have := (under_rel hn hu' hu e.symm).2
      simp only [FsNode.file.injEq, true_and] at this
      rw [← this]
      exact hm

/-- **C01 and C19 together, from the tree to the answer.** Take any file of the tree that can be read, is not left out by
the options and is not in the list of excluded files, and any line of it with a match of the pattern: a plain search
of the index built from the tree reports that line, under the file's path and the line's number. With the provisos of C01
on the pattern. -/
theorem tree_search_partial (hc : 0 < cfg.npost) (hn : WellNamed root)
    (h : indexAllFiles cfg opt rootName root = .ok d) {ix : IndexView Query} (hix : ServesDir ix d)
    {grow : Nat → Nat → Nat} {orbit : Rune → List Rune} {re : Re} {p : Prog} {c : Compiled Query}
    {compile : Bytes → Option (Compiled Query)} {quoteMeta : Bytes → Bytes} {pat : Bytes} {sopt : SearchOptions}
    (hf : AsciiFolds orbit) (hcf : CompiledFrom grow orbit re p c)
    (hz : (HInfo.regexpQuery grow orbit re).2 = false) (hok : ∀ i ∈ p.inst, RuneOK orbit i)
    (hcomp : compile (fullPattern quoteMeta pat sopt) = some c) (ho : Plain sopt)
    {path : List Bytes} {name : Bytes} {r : Reader}
    (hu : Under opt (· = true) rootName root path name (.file true r)) (hlo : ¬ LeftOut opt name) (hr : r.Ok)
    (hex : ¬ Excluded d (relPath path)) {s e : Nat} (hline : LineAt r.content s e) (hs : s < r.content.length)
    (hm : MatchWithin orbit re r.content s e) :
    Reports (search compile quoteMeta ix pat sopt) (relPath path) ((r.content.take s).count NL + 1) (slice r.content s e) := by
  obtain ⟨files, answers, hsf, hmem⟩ := tree_serves hc hn h hix
  have hsearch : Searchable d (relPath path) := by
    rcases accounted_partial hc hn h hu trivial (fun g => hlo (.inl g)) (fun o r' e => by cases e; exact hr) with g | g
    · exact g.1
    · exact absurd g.2 hex
  exact search_complete_partial hf hcf hz hok hsf hcomp ho
    ((hmem _ _).mpr ⟨hsearch, path, name, r, rfl, hu, rfl⟩) hline hs hm

end

/-! ## The counterexamples, and a case in which everything is met -/

/-- A text file, a dot file, a link, a binary file and a directory with a file, below a root called `r`. -/
def sampleTree : FsNode :=
  .dir true (.cons b!"a" (.file true ⟨[b!"hello\n"], false⟩)
    (.cons b!".b" (.file true ⟨[b!"x"], false⟩)
    (.cons b!"c" .irregular
    (.cons b!"d" (.file true ⟨[[0xFF]], false⟩)
    (.cons b!"e" (.dir true (.cons b!"f" (.file true ⟨[b!"deep\n"], false⟩) .nil)) .nil)))))

/-- A directory that cannot be listed, with a file in it. -/
def hiddenTree : FsNode := .dir true (.cons b!"d" (.dir false (.cons b!"f" (.file true ⟨[b!"x"], false⟩) .nil)) .nil)

/-- A file whose reading fails after 2048 bytes. -/
def brokenReader : Reader := ⟨[List.replicate 2048 97], true⟩

/-- A directory with that file. -/
def brokenTree : FsNode := .dir true (.cons b!"f" (.file true brokenReader) .nil)

/-- The build succeeds for every tree in which the files can be opened and the text check can read them, and which is not too
large. -/
theorem build_succeeds {cfg : IWConfig} (hc : 0 < cfg.npost) {opt : IndexOptions} {rootName : Bytes} {root : FsNode}
    (hn : WellNamed root)
    (hf : ∀ path name m, Under opt (· = true) rootName root path name m → m ≠ .gone ∧
      (¬ LeftOut opt name → ∀ o r, m = .file o r → o = true ∧ (r.fails = true → 2048 ≤ r.content.length)))
    (h0 : ∀ path name o r, Under opt (· = true) rootName root path name (.file o r) → (0 : UInt8) ∉ relPath path)
    (hl : (((leavesN opt [] rootName root).filterMap (addOf opt)).map
      (fun f => f.1.length + 5 + 20 * f.2.content.length)).sum + 73 < 2 ^ 32) :
    ∃ d, indexAllFiles cfg opt rootName root = .ok d := by
  have hmem : ∀ l, l ∈ leavesN opt [] rootName root ↔
      Under opt (· = true) rootName root l.1 l.2.1 l.2.2 ∧ l.2.2.isDir = false := by
    intro l
    rw [mem_leavesN]
    simp
  obtain ⟨ress, data, hb⟩ := buildIndex_succeeds hc (paths := [])
    (files := (leavesN opt [] rootName root).filterMap (addOf opt)) (by
      intro f hfm
      obtain ⟨l, hl, ha⟩ := List.mem_filterMap.mp hfm
      simp only [addOf] at ha
      split at ha
      · cases ha
      · split at ha
        · rename_i o r hm
          split at ha <;> simp at ha
          rw [← ha]
          have := ((hmem l).mp hl).1
          rw [hm] at this
          exact h0 _ _ _ _ this
        · cases ha) (by simpa using hl)
  obtain ⟨s, hs⟩ := walkNode_fine (opt := opt) [] (by simp) rootName root hn { ix := IW.create cfg } (wInv_create hc [])
    (by
      intro l hl
      obtain ⟨h1, h2⟩ := hf _ _ _ ((hmem l).mp hl).1
      refine ⟨?_, fun hlo o r hm => ?_⟩
      · revert h1
        cases l.2.2 <;> simp [FsNode.isGone]
      · obtain ⟨h3, h4⟩ := h2 hlo o r hm
        refine ⟨h3, fun he => ?_⟩
        have := text_check_error.mp he
        have := h4 this.1
        omega)
    (buildIndex_some hc hb).1
  have hspec := walkNode_spec (opt := opt) [] (by simp) rootName root hn { ix := IW.create cfg } (wInv_create hc [])
  have ha : After opt (leavesN opt [] rootName root) [] { ix := IW.create cfg } s :=
    hs.elim (hspec.1 s) (fun h => (hspec.2 s h).2)
  have hrun := ha.run
  simp only [buildIndex] at hb
  have hp : (IW.create cfg).addPaths [] = IW.create cfg := rfl
  simp only at hrun
  rw [hp, hrun] at hb
  simp only at hb
  have hrel : relPath [] = [46] := rfl
  rw [hrel] at hs
  cases hfl : s.ix.flush with
  | none => rw [hfl] at hb; cases hb
  | some tri =>
    refine ⟨⟨tri, s.excluded, s.raw⟩, ?_⟩
    simp only [indexAllFiles]
    rcases hs with hs | hs <;> rw [hs] <;> simp only [hfl]

theorem under_leaves {opt : IndexOptions} {top : Bytes} {n : FsNode} {path : List Bytes} {name : Bytes} {m : FsNode}
    (h : Under opt (· = true) top n path name m) (hd : m.isDir = false) : (path, name, m) ∈ leavesN opt [] top n :=
  (mem_leavesN [] top n (path, name, m)).mpr ⟨path, by simp, h, hd⟩

/-- Builds of trees whose visited files are known. -/
theorem build_of_leaves {opt : IndexOptions} {rootName : Bytes} {root : FsNode} (hn : WellNamed root)
    (hf : ∀ l ∈ leavesN opt [] rootName root, l.2.2 ≠ .gone ∧ (0 : UInt8) ∉ relPath l.1 ∧
      ∀ o r, l.2.2 = .file o r → o = true ∧ (r.fails = true → 2048 ≤ r.content.length))
    (hl : (((leavesN opt [] rootName root).filterMap (addOf opt)).map
      (fun f => f.1.length + 5 + 20 * f.2.content.length)).sum + 73 < 2 ^ 32) :
    ∃ d, indexAllFiles goConfig opt rootName root = .ok d := by
  refine build_succeeds (by decide) hn ?_ ?_ hl
  · intro path name m hu
    cases hd : m.isDir with
    | true => cases m <;> simp_all [FsNode.isDir]
    | false =>
      obtain ⟨h1, _, h3⟩ := hf _ (under_leaves hu hd)
      exact ⟨h1, fun _ => h3⟩
  · intro path name o r hu
    exact (hf _ (under_leaves hu rfl)).2.1

theorem goodName_of (name : Bytes) (h : (!name.isEmpty && !name.contains 47 && name != [46]) = true) : GoodName name := by
  simp only [Bool.and_eq_true, Bool.not_eq_true', List.isEmpty_eq_false_iff, bne_iff_ne] at h
  refine ⟨h.1.1, ?_, h.2⟩
  have := h.1.2
  simpa using this

def noDots : IndexOptions := ⟨true, [b!".git"]⟩

theorem sample_wellNamed : WellNamed sampleTree := by
  simp only [sampleTree, WellNamed, WellNamedAll, entriesOf]
  refine ⟨goodName_of _ rfl, by simp, trivial, goodName_of _ rfl, by simp, trivial, goodName_of _ rfl, by simp, trivial,
    goodName_of _ rfl, by simp, trivial, goodName_of _ rfl, by simp, ⟨goodName_of _ rfl, by simp, trivial, trivial⟩, trivial⟩

theorem sample_builds : ∃ d, indexAllFiles goConfig noDots b!"r" sampleTree = .ok d := by
  refine build_of_leaves sample_wellNamed ?_ (by decide +kernel)
  have : leavesN noDots [] b!"r" sampleTree = [([b!"a"], b!"a", .file true ⟨[b!"hello\n"], false⟩),
      ([b!".b"], b!".b", .file true ⟨[b!"x"], false⟩), ([b!"c"], b!"c", .irregular), ([b!"d"], b!"d", .file true ⟨[[0xFF]], false⟩),
      ([b!"e", b!"f"], b!"f", .file true ⟨[b!"deep\n"], false⟩)] := by
    rfl
  rw [this]
  intro l hl
  simp only [List.mem_cons, List.not_mem_nil, or_false] at hl
  rcases hl with rfl | rfl | rfl | rfl | rfl <;> simp [relPath]

theorem sample_deep : Under noDots (· = true) b!"r" sampleTree [b!"e", b!"f"] b!"f" (.file true ⟨[b!"deep\n"], false⟩) :=
  .step (n := .dir true (.cons b!"f" (.file true ⟨[b!"deep\n"], false⟩) .nil)) (by decide) rfl (by simp [entriesOf])
    (.step (n := .file true ⟨[b!"deep\n"], false⟩) (by decide) rfl (by simp [entriesOf]) (.here _ _))

theorem sample_dot : Under noDots (· = true) b!"r" sampleTree [b!".b"] b!".b" (.file true ⟨[b!"x"], false⟩) :=
  .step (n := .file true ⟨[b!"x"], false⟩) (by decide) rfl (by simp [entriesOf]) (.here _ _)

/-- Every file of the sample is accounted for: the theorem applies to it. -/
example : ∃ d, indexAllFiles goConfig noDots b!"r" sampleTree = .ok d ∧
    ((Searchable d b!"e/f" ∧ ¬ Excluded d b!"e/f") ∨ (¬ Searchable d b!"e/f" ∧ Excluded d b!"e/f")) ∧
    ((Searchable d b!".b" ∧ ¬ Excluded d b!".b") ∨ (¬ Searchable d b!".b" ∧ Excluded d b!".b")) := by
  obtain ⟨d, hd⟩ := sample_builds
  refine ⟨d, hd, ?_, ?_⟩
  · exact accounted_partial (path := [b!"e", b!"f"]) (by decide) sample_wellNamed hd
      sample_deep
      trivial (by decide) (by intro o r h; cases h; decide)
  · exact accounted_partial (path := [b!".b"]) (by decide) sample_wellNamed hd
      sample_dot
      trivial (by decide) (by intro o r h; cases h; decide)

theorem hidden_wellNamed : WellNamed hiddenTree := by
  simp only [hiddenTree, WellNamed, WellNamedAll, entriesOf]
  exact ⟨goodName_of _ rfl, by simp, ⟨goodName_of _ rfl, by simp, trivial, trivial⟩, trivial⟩

theorem hidden_file : Under noDots (fun _ => True) b!"r" hiddenTree [b!"d", b!"f"] b!"f" (.file true ⟨[b!"x"], false⟩) :=
  .step (n := .dir false (.cons b!"f" (.file true ⟨[b!"x"], false⟩) .nil)) (by decide) trivial (by simp [entriesOf])
    (.step (n := .file true ⟨[b!"x"], false⟩) (by decide) trivial (by simp [entriesOf]) (.here _ _))

/-- The full claim fails: a directory that cannot be listed is passed over in silence. -/
theorem not_accountedFull : ¬ AccountedFull := by
  intro h
  obtain ⟨d, hd⟩ := build_of_leaves (opt := noDots) (rootName := b!"r") hidden_wellNamed (by
    have : leavesN noDots [] b!"r" hiddenTree = [] := rfl
    rw [this]; simp) (by decide +kernel)
  have := h goConfig noDots b!"r" hiddenTree d (by decide) hidden_wellNamed hd [b!"d", b!"f"] b!"f" _
    hidden_file trivial (by decide)
  obtain ⟨hs, he⟩ := accounted_sound (by decide) hidden_wellNamed hd
  have hno : ∀ path name m, Under noDots (· = true) b!"r" hiddenTree path name m → m.isDir = false → False := by
    intro path name m hu hdm
    have := under_leaves hu hdm
    have hl : leavesN noDots [] b!"r" hiddenTree = [] := rfl
    rw [hl] at this
    simp at this
  rcases this with ⟨g, _⟩ | ⟨_, reason, g⟩
  · obtain ⟨path, name, r, _, hu, _⟩ := hs _ g
    exact hno path name _ hu rfl
  · obtain ⟨path, name, m, _, hu, hf, _⟩ := he _ _ g
    refine hno path name m hu ?_
    cases m <;> simp_all [IsFile, FsNode.isDir]

theorem broken_wellNamed : WellNamed brokenTree := by
  simp only [brokenTree, WellNamed, WellNamedAll, entriesOf]
  exact ⟨goodName_of _ rfl, by simp, trivial, trivial⟩

/-- Neither does it hold for a file whose reading fails after the bytes of the text check: it is not indexed and not
listed, and the build succeeds. -/
theorem unreadable_not_accounted : ∃ d, indexAllFiles goConfig noDots b!"r" brokenTree = .ok d ∧
    ¬ Searchable d b!"f" ∧ ¬ Excluded d b!"f" := by
  have hl : leavesN noDots [] b!"r" brokenTree = [([b!"f"], b!"f", .file true brokenReader)] := rfl
  obtain ⟨d, hd⟩ := build_of_leaves (opt := noDots) (rootName := b!"r") broken_wellNamed (by
    rw [hl]
    intro l hl
    simp only [List.mem_singleton] at hl
    subst hl
    refine ⟨by simp, by simp [relPath], ?_⟩
    intro o r h
    simp only [FsNode.file.injEq] at h
    obtain ⟨rfl, rfl⟩ := h
    exact ⟨rfl, fun _ => by decide +kernel⟩) (by decide +kernel)
  refine ⟨d, hd, ?_, ?_⟩
  · intro hs
    obtain ⟨path, name, r, _, hu, _, hok⟩ := (accounted_sound (by decide) broken_wellNamed hd).1 _ hs
    have := under_leaves hu rfl
    rw [hl] at this
    simp only [List.mem_singleton, Prod.mk.injEq, FsNode.file.injEq, true_and] at this
    rw [this.2.2] at hok
    exact absurd hok.1 (by decide)
  · rintro ⟨reason, hr⟩
    obtain ⟨ls, hls, hb, hex, hraw, hfine⟩ := indexAllFiles_ok (by decide) broken_wellNamed hd
    rw [hex] at hr
    obtain ⟨l, hl', hx⟩ := List.mem_filterMap.mp hr
    have hm := (hls l).mp hl'
    have := under_leaves hm.1 hm.2
    rw [hl, List.mem_singleton] at this
    have e : exOf noDots ([b!"f"], b!"f", .file true brokenReader) = none := by
      have h1 : isTextFile brokenReader = some true := by decide +kernel
      have h2 : addAnswer brokenReader = none := by decide +kernel
      have h3 : ¬ (noDots.excludeDotFiles = true ∧ (b!"f").head? = some 46) := by decide
      have h4 : b!"f" ∉ noDots.specialFiles := by decide
      simp only [exOf, if_neg h4, if_neg h3, if_pos h1, h2]; rfl
    have he : exOf noDots l = none := by
      obtain ⟨l1, l2, l3⟩ := l
      simp only [Prod.mk.injEq] at this
      obtain ⟨rfl, rfl, rfl⟩ := this
      exact e
    rw [he] at hx
    simp at hx

end Hound
