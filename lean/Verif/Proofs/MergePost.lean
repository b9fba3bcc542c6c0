import Verif.Proofs.IndexWrite
import Verif.Proofs.PostHeap
import Verif.Props.SortPost

namespace Hound
open Spec

/-! ## `mergePost` on a sorted list of entries -/

/-- The entry `next` returns for an empty heap. -/
def sentinel : Nat := makePostEntry (1 <<< 24 - 1) 0

/-- The pair (current entry, heap) stands for the sorted list `L` of entries still to come. -/
def Rep (p : Nat × PostHeap) (L : List Nat) : Prop :=
  PostHeap.Inv p.2 ∧
    ((L = [] ∧ p.1 = sentinel ∧ PostHeap.entries p.2 = []) ∨
     ∃ L', L = p.1 :: L' ∧ L'.Perm (PostHeap.entries p.2) ∧ L'.Pairwise (· ≤ ·))

theorem heapNext_rep {h : PostHeap} (hi : PostHeap.Inv h) {L : List Nat}
    (hp : L.Perm (PostHeap.entries h)) (hs : L.Pairwise (· ≤ ·)) : Rep (IW.heapNext h) L := by
  have hn := PostHeap.next_spec hi
  unfold IW.heapNext
  cases hx : h.next with
  | none =>
    rw [hx] at hn
    have hn : PostHeap.entries h = [] := hn
    rw [hn] at hp
    exact ⟨hi, Or.inl ⟨hp.eq_nil, rfl, hn⟩⟩
  | some p =>
    obtain ⟨e, b⟩ := p
    rw [hx] at hn
    obtain ⟨h1, h2, h3⟩ : (e :: PostHeap.entries b).Perm (PostHeap.entries h) ∧
      (∀ x ∈ PostHeap.entries h, e ≤ x) ∧ PostHeap.Inv b := hn
    refine ⟨h3, Or.inr ?_⟩
    have hL : L.Perm (e :: PostHeap.entries b) := hp.trans h1.symm
    cases L with
    | nil => exact absurd hL.symm.eq_nil (by simp)
    | cons e' L' =>
      rw [List.pairwise_cons] at hs
      have hee : e' = e := by
        have q1 := h2 e' (hp.mem_iff.1 (by simp))
        have q2 : e ∈ e' :: L' := hL.mem_iff.2 (by simp)
        rcases List.mem_cons.1 q2 with q | q
        · exact q.symm
        · have := hs.1 e q; omega
      subst hee
      exact ⟨L', rfl, hL.cons_inv, hs.2⟩

theorem Rep.nil {p : Nat × PostHeap} (h : Rep p []) : p.1 = sentinel := by
  rcases h.2 with ⟨_, h, _⟩ | ⟨_, h, _⟩
  · exact h
  · simp at h

theorem Rep.cons {p : Nat × PostHeap} {e : Nat} {L : List Nat} (h : Rep p (e :: L)) :
    p.1 = e ∧ Rep (IW.heapNext p.2) L := by
  rcases h.2 with ⟨h, _, _⟩ | ⟨L', h1, h2, h3⟩
  · simp at h
  · injection h1 with h1 h4
    subst h4
    exact ⟨h1.symm, heapNext_rep h.1 h2 h3⟩

theorem Rep.count {p : Nat × PostHeap} {L : List Nat} (h : Rep p L) : L.length ≤ p.2.count + 1 := by
  rcases h.2 with ⟨h, _, _⟩ | ⟨L', h1, h2, h3⟩
  · subst h; simp
  · subst h1
    rw [List.length_cons, h2.length_eq, PostHeap.length_entries]
    exact Nat.le_refl _

theorem entryTrigram_sentinel : entryTrigram sentinel = 1 <<< 24 - 1 := by decide

/-- The differences of successive file ids, as varints. -/
def deltas : Nat → List Nat → Bytes
  | _, [] => []
  | prev, i :: is => putUvarint ((i + 2 ^ 32 - prev) % 2 ^ 32) ++ deltas i is

theorem mergeRun_spec {t : Nat} (ht : t < 2 ^ 24 - 1) : ∀ (ids : List Nat) (R : List Nat) (fuel : Nat)
    (p : Nat × PostHeap) (out : BufWriter) (prev nfile : Nat),
    Rep p (ids.map (makePostEntry t) ++ R) → (∀ i ∈ ids, i < 2 ^ 32) →
    (∀ e R', R = e :: R' → entryTrigram e ≠ t) → ids.length < fuel →
    ∃ p' out', IW.mergeRun t fuel p.1 p.2 out prev nfile =
        some (p'.1, p'.2, out', if ids = [] then nfile else (nfile + ids.length) % 2 ^ 32) ∧
      Rep p' R ∧ BufWriter.contents out' = out.contents ++ deltas prev ids
  | _, _, 0, _, _, _, _, _, _, _, hf => by omega
  | [], R, fuel + 1, p, out, prev, nfile, hrep, hids, hR, hf => by
    refine ⟨p, out, ?_, by simpa using hrep, by simp [deltas]⟩
    unfold IW.mergeRun
    rw [if_neg, if_pos rfl]
    rintro ⟨h1, h2⟩
    simp only [List.map_nil, List.nil_append] at hrep
    cases R with
    | nil =>
      rw [hrep.nil, entryTrigram_sentinel] at h1
      have : (1 <<< 24 - 1 : Nat) = 2 ^ 24 - 1 := rfl
      omega
    | cons e R' =>
      rw [hrep.cons.1] at h1
      exact hR e R' rfl h1
  | i :: ids, R, fuel + 1, p, out, prev, nfile, hrep, hids, hR, hf => by
    simp only [List.map_cons, List.cons_append] at hrep
    have hi : i < 2 ^ 32 := hids i (by simp)
    have ht' : t < 2 ^ 32 := by omega
    obtain ⟨h1, h2⟩ := hrep.cons
    unfold IW.mergeRun
    rw [h1, entryTrigram_make ht' hi, entryFileid_make ht' hi,
      if_pos ⟨rfl, by rw [show (1 <<< 24 - 1 : Nat) = 2 ^ 24 - 1 from rfl]; omega⟩]
    obtain ⟨p', out', i1, i2, i3⟩ := mergeRun_spec ht ids R fuel (IW.heapNext p.2)
      (out.writeUvarint ((i + 2 ^ 32 - prev) % 2 ^ 32)) i ((nfile + 1) % 2 ^ 32) h2
      (fun x hx => hids x (by simp [hx])) hR (by simp at hf; omega)
    refine ⟨p', out', ?_, i2, ?_⟩
    · have hx : (if ids = [] then (nfile + 1) % 2 ^ 32 else ((nfile + 1) % 2 ^ 32 + ids.length) % 2 ^ 32) =
          (nfile + (i :: ids).length) % 2 ^ 32 := by
        by_cases hn : ids = []
        · rw [if_pos hn, hn]; rfl
        · rw [if_neg hn, List.length_cons]; omega
      rw [hx] at i1
      rw [if_neg (show ¬ i :: ids = [] by simp)]
      exact i1
    · rw [i3]; simp [deltas]

/-- The bytes of one posting list. -/
def groupBytes (g : Nat × List Nat) : Bytes := putTrigram g.1 ++ deltas (2 ^ 32 - 1) g.2 ++ putUvarint 0

/-- The posting lists without the closing one. -/
def groupsBytes (gs : List (Nat × List Nat)) : Bytes := gs.flatMap groupBytes

/-- The closing list. -/
def endBytes : Bytes := putTrigram (1 <<< 24 - 1) ++ putUvarint 0

/-- One entry of the posting list index. -/
def indexEntry (t n o : Nat) : Bytes := putTrigram t ++ putUint32 n ++ putUint32 o

/-- The posting list index; the first list starts at offset `o`. -/
def indexEntries : Nat → List (Nat × List Nat) → Bytes
  | o, [] => indexEntry (1 <<< 24 - 1) 0 o
  | o, g :: gs => indexEntry g.1 g.2.length o ++ indexEntries (o + (groupBytes g).length) gs

/-- The entries of groups, in order. -/
def groupsEntries (gs : List (Nat × List Nat)) : List Nat := gs.flatMap fun g => g.2.map (makePostEntry g.1)

/-- Groups as `mergePost` finds them. -/
structure GroupsOk (gs : List (Nat × List Nat)) : Prop where
  sorted : gs.Pairwise (fun a b => a.1 < b.1)
  tri : ∀ g ∈ gs, g.1 < 2 ^ 24 - 1
  ne : ∀ g ∈ gs, g.2 ≠ []
  ids : ∀ g ∈ gs, ∀ i ∈ g.2, i < 2 ^ 32
  few : ∀ g ∈ gs, g.2.length < 2 ^ 32

theorem GroupsOk.tail {g gs} (h : GroupsOk (g :: gs)) : GroupsOk gs where
  sorted := (List.pairwise_cons.1 h.sorted).2
  tri := fun x hx => h.tri x (by simp [hx])
  ne := fun x hx => h.ne x (by simp [hx])
  ids := fun x hx => h.ids x (by simp [hx])
  few := fun x hx => h.few x (by simp [hx])

theorem GroupsOk.head_ne {g gs} (h : GroupsOk (g :: gs)) {e R'} (he : groupsEntries gs = e :: R') :
    entryTrigram e ≠ g.1 := by
  have hm : e ∈ groupsEntries gs := by rw [he]; simp
  unfold groupsEntries at hm
  rw [List.mem_flatMap] at hm
  obtain ⟨g', hg', hm⟩ := hm
  rw [List.mem_map] at hm
  obtain ⟨i, hi, rfl⟩ := hm
  have h1 := h.tail.tri g' hg'
  rw [entryTrigram_make (by omega) (h.tail.ids g' hg' i hi)]
  have := (List.pairwise_cons.1 h.sorted).1 g' hg'
  omega

theorem mergeLoop_spec {offset0 : Nat} : ∀ (gs : List (Nat × List Nat)) (fuel : Nat) (p : Nat × PostHeap)
    (out pix : BufWriter), GroupsOk gs → Rep p (groupsEntries gs) → gs.length < fuel →
    offset0 ≤ out.contents.length →
    (out.contents.length + (groupsBytes gs).length < 2 ^ 32 →
      ∃ out' pix', IW.mergeLoop offset0 fuel p.1 p.2 out pix = some (out', pix') ∧
        BufWriter.contents out' = out.contents ++ groupsBytes gs ++ endBytes ∧
        BufWriter.contents pix' = pix.contents ++ indexEntries (out.contents.length - offset0) gs) ∧
    (¬ out.contents.length + (groupsBytes gs).length < 2 ^ 32 →
      IW.mergeLoop offset0 fuel p.1 p.2 out pix = none)
  | _, 0, _, _, _, _, _, hf, _ => by omega
  | [], fuel + 1, p, out, pix, hok, hrep, hf, ho => by
    have hp := hrep.nil
    unfold IW.mergeLoop
    rw [hp, entryTrigram_sentinel, BufWriter.offset_eq]
    simp only [groupsBytes, List.flatMap_nil, List.length_nil, Nat.add_zero]
    refine ⟨fun hl => ?_, fun hl => by rw [if_neg hl]⟩
    rw [if_pos hl]
    have hm : ∀ o, IW.mergeRun (1 <<< 24 - 1) (p.2.count + 2) sentinel p.2 o (2 ^ 32 - 1) 0 =
        some (sentinel, p.2, o, 0) := by
      intro o; unfold IW.mergeRun; rw [if_neg (by simp)]
    simp only [hm]
    refine ⟨_, _, rfl, ?_, ?_⟩
    · simp [endBytes]
    · have : (out.contents.length + 2 ^ 32 - offset0) % 2 ^ 32 = out.contents.length - offset0 := by omega
      rw [this]
      simp [indexEntries, indexEntry]
  | g :: gs, fuel + 1, p, out, pix, hok, hrep, hf, ho => by
    have htri := hok.tri g (by simp)
    have hids := hok.ids g (by simp)
    have hne := hok.ne g (by simp)
    have hfew := hok.few g (by simp)
    have hrep' : Rep p (g.2.map (makePostEntry g.1) ++ groupsEntries gs) := hrep
    obtain ⟨i, is, his⟩ : ∃ i is, g.2 = i :: is := by
      cases h : g.2 with
      | nil => exact absurd h hne
      | cons i is => exact ⟨i, is, rfl⟩
    have ht : entryTrigram p.1 = g.1 := by
      rw [his, List.map_cons, List.cons_append] at hrep'
      rw [hrep'.cons.1, entryTrigram_make (by omega) (hids i (by simp [his]))]
    have hcount := hrep'.count
    rw [List.length_append, List.length_map] at hcount
    unfold IW.mergeLoop
    rw [ht, BufWriter.offset_eq]
    have hgb : (groupsBytes (g :: gs)).length = (groupBytes g).length + (groupsBytes gs).length := by
      simp [groupsBytes]
    by_cases hl0 : out.contents.length < 2 ^ 32
    · rw [if_pos hl0]
      obtain ⟨p', out', m1, m2, m3⟩ := mergeRun_spec htri g.2 (groupsEntries gs) (p.2.count + 2) p
        (out.write (putTrigram g.1)) (2 ^ 32 - 1) 0 hrep' hids (fun e R' he => hok.head_ne he) (by omega)
      rw [if_neg hne, Nat.zero_add, Nat.mod_eq_of_lt hfew] at m1
      simp only [m1]
      rw [if_neg (by rw [show (1 <<< 24 - 1 : Nat) = 2 ^ 24 - 1 from rfl]; omega)]
      have hc : (out'.writeUvarint 0).contents = out.contents ++ groupBytes g := by
        simp [m3, groupBytes]
      have hoff : (out.contents.length + 2 ^ 32 - offset0) % 2 ^ 32 = out.contents.length - offset0 := by omega
      rw [hoff]
      obtain ⟨k1, k2⟩ := mergeLoop_spec (offset0 := offset0) gs fuel p' (out'.writeUvarint 0)
        (((pix.write (putTrigram g.1)).writeUint32 g.2.length).writeUint32 (out.contents.length - offset0))
        hok.tail m2 (by simp at hf; omega) (by rw [hc, List.length_append]; omega)
      rw [hc, List.length_append] at k1 k2
      rw [hgb, ← Nat.add_assoc]
      refine ⟨fun hl => ?_, fun hl => k2 hl⟩
      obtain ⟨o1, x1, e1, e2, e3⟩ := k1 hl
      refine ⟨o1, x1, e1, ?_, ?_⟩
      · rw [e2]; simp [groupsBytes]
      · rw [e3, indexEntries]
        rw [show out.contents.length + (groupBytes g).length - offset0 =
          out.contents.length - offset0 + (groupBytes g).length from by omega]
        simp [indexEntry]
    · rw [if_neg hl0]
      exact ⟨fun h => by omega, fun _ => rfl⟩

/-! ## The groups of a set of files -/

/-- Numbers of the files containing trigram `t`, ascending. -/
def idsOf (files : List (Bytes × Bytes)) (t : Nat) : List Nat :=
  (List.range files.length).filter fun i =>
    match files[i]? with
    | some f => decide (t ∈ trigramsOf f.2)
    | none => false

/-- The trigrams that occur, ascending, with the files they occur in. -/
def groupsOf (files : List (Bytes × Bytes)) : List (Nat × List Nat) :=
  ((List.range (2 ^ 24 - 1)).filter fun t => !(idsOf files t).isEmpty).map fun t => (t, idsOf files t)

theorem mem_idsOf {files : List (Bytes × Bytes)} {t i : Nat} :
    i ∈ idsOf files t ↔ ∃ f, files[i]? = some f ∧ t ∈ trigramsOf f.2 := by
  unfold idsOf
  rw [List.mem_filter, List.mem_range]
  constructor
  · rintro ⟨h1, h2⟩
    rw [List.getElem?_eq_getElem h1] at h2
    exact ⟨files[i], List.getElem?_eq_getElem h1, by simpa using h2⟩
  · rintro ⟨f, h1, h2⟩
    refine ⟨(List.getElem?_eq_some_iff.1 h1).1, ?_⟩
    rw [h1]; simpa using h2

theorem idsOf_sorted {files : List (Bytes × Bytes)} {t : Nat} : (idsOf files t).Pairwise (· < ·) :=
  List.Pairwise.filter _ List.pairwise_lt_range

theorem mem_groupsOf {files : List (Bytes × Bytes)} {g : Nat × List Nat} :
    g ∈ groupsOf files ↔ g.1 < 2 ^ 24 - 1 ∧ g.2 = idsOf files g.1 ∧ g.2 ≠ [] := by
  unfold groupsOf
  rw [List.mem_map]
  constructor
  · rintro ⟨t, ht, rfl⟩
    rw [List.mem_filter, List.mem_range] at ht
    refine ⟨ht.1, rfl, ?_⟩
    have := ht.2
    intro h
    simp only at h
    rw [h] at this; simp at this
  · rintro ⟨h1, h2, h3⟩
    obtain ⟨t, ids⟩ := g
    simp only at h1 h2 h3
    refine ⟨t, ?_, by rw [h2]⟩
    rw [List.mem_filter, List.mem_range]
    refine ⟨h1, ?_⟩
    rw [← h2]
    cases ids with
    | nil => exact absurd rfl h3
    | cons => rfl

theorem length_idsOf {files : List (Bytes × Bytes)} {t : Nat} : (idsOf files t).length ≤ files.length := by
  have := List.length_filter_le (fun i => match files[i]? with
    | some f => decide (t ∈ trigramsOf f.2)
    | none => false) (List.range files.length)
  rw [List.length_range] at this
  exact this

theorem groupsOk {files : List (Bytes × Bytes)} (hn : files.length < 2 ^ 32) : GroupsOk (groupsOf files) where
  sorted := by
    unfold groupsOf
    rw [List.pairwise_map]
    exact List.Pairwise.filter _ List.pairwise_lt_range
  tri := fun g hg => (mem_groupsOf.1 hg).1
  ne := fun g hg => (mem_groupsOf.1 hg).2.2
  ids := by
    intro g hg i hi
    rw [(mem_groupsOf.1 hg).2.1, mem_idsOf] at hi
    obtain ⟨f, h1, _⟩ := hi
    have := (List.getElem?_eq_some_iff.1 h1).1
    omega
  few := by
    intro g hg
    rw [(mem_groupsOf.1 hg).2.1]
    have := length_idsOf (files := files) (t := g.1)
    omega

/-- A text of plausible UTF-8 has no trigram 0xffffff (nor any byte above 0xf7). -/
theorem trigram_bound {w : Bytes} (hu : looksUtf8 0 w = true) : ∀ t ∈ trigramsOf w, t < 2 ^ 24 - 1 := by
  have hb : ∀ (w : Bytes) (a : UInt8), looksUtf8 a w = true → ∀ b ∈ w, b.toNat < 0xf8 := by
    intro w
    induction w with
    | nil => intro a _ b hb; simp at hb
    | cons c w ih =>
      intro a h b hm
      rw [looksUtf8, Bool.and_eq_true] at h
      rcases List.mem_cons.1 hm with rfl | hm
      · have := h.1
        unfold pairOk isAscii isCont isLead at this
        simp only [UInt8.lt_iff_toNat_lt, UInt8.le_iff_toNat_le, Bool.or_eq_true, Bool.and_eq_true,
          decide_eq_true_eq] at this
        simp only [show (0x80 : UInt8).toNat = 0x80 from rfl, show (0xc0 : UInt8).toNat = 0xc0 from rfl,
          show (0xf8 : UInt8).toNat = 0xf8 from rfl] at this
        omega
      · exact ih c h.2 b hm
  have h2 : ∀ w : Bytes, (∀ b ∈ w, b.toNat < 0xf8) → ∀ t ∈ blocks3 w, t < 2 ^ 24 - 1 := by
    intro w
    induction w with
    | nil => intro _ t ht; simp [blocks3] at ht
    | cons a w ih =>
      intro hw t ht
      match w, ih with
      | [], _ => simp [blocks3] at ht
      | [b], _ => simp [blocks3] at ht
      | b :: c :: rest, ih =>
        rw [blocks3] at ht
        rcases List.mem_cons.1 ht with rfl | ht
        · have := hw a (by simp)
          have := b.toNat_lt
          have := c.toNat_lt
          unfold triVal
          omega
        · exact ih (fun x hx => hw x (by simp [hx])) t ht
  intro t ht
  exact h2 w (hb w 0 hu) t (mem_firsts.1 ht)

theorem mem_entriesFrom {e : Nat} : ∀ {files : List (Bytes × Bytes)} {k : Nat},
    e ∈ entriesFrom k files ↔
      ∃ i f t, files[i]? = some f ∧ t ∈ trigramsOf f.2 ∧ e = makePostEntry t ((k + i) % 2 ^ 32)
  | [], k => by simp [entriesFrom]
  | g :: fs, k => by
    rw [entriesFrom, List.mem_append, mem_entriesFrom, List.mem_map]
    constructor
    · rintro (⟨t, ht, rfl⟩ | ⟨i, f, t, h1, h2, rfl⟩)
      · exact ⟨0, g, t, rfl, ht, rfl⟩
      · refine ⟨i + 1, f, t, by simpa using h1, h2, ?_⟩
        rw [Nat.add_assoc, Nat.add_comm 1 i]
    · rintro ⟨i, f, t, h1, h2, rfl⟩
      cases i with
      | zero =>
        simp only [List.getElem?_cons_zero, Option.some.injEq] at h1
        subst h1
        exact Or.inl ⟨t, h2, rfl⟩
      | succ i =>
        refine Or.inr ⟨i, f, t, by simpa using h1, h2, ?_⟩
        rw [Nat.add_assoc, Nat.add_comm 1 i]

/-- File numbers do not decrease and no entry occurs twice. -/
theorem entriesFrom_order : ∀ {files : List (Bytes × Bytes)} {k : Nat}, k + files.length ≤ 2 ^ 32 →
    (∀ f ∈ files, ∀ t ∈ trigramsOf f.2, t < 2 ^ 24 - 1) →
    (entriesFrom k files).Pairwise (fun a b => entryFileid a ≤ entryFileid b) ∧
    (entriesFrom k files).Nodup ∧ (∀ e ∈ entriesFrom k files, k ≤ entryFileid e)
  | [], k, _, _ => by simp [entriesFrom]
  | g :: fs, k, hk, ht => by
    simp only [List.length_cons] at hk
    obtain ⟨h1, h2, h3⟩ := entriesFrom_order (files := fs) (k := k + 1) (by omega)
      (fun f hf => ht f (by simp [hf]))
    have hg := ht g (by simp)
    have hkk : k % 2 ^ 32 = k := Nat.mod_eq_of_lt (by omega)
    have hid : ∀ e ∈ (trigramsOf g.2).map (fun t => makePostEntry t (k % 2 ^ 32)), entryFileid e = k := by
      intro e he
      rw [List.mem_map] at he
      obtain ⟨t, ht, rfl⟩ := he
      have := hg t ht
      rw [hkk, entryFileid_make (by omega) (by omega)]
    rw [entriesFrom]
    refine ⟨List.pairwise_append.2 ⟨?_, h1, ?_⟩, List.nodup_append.2 ⟨?_, h2, ?_⟩, ?_⟩
    · refine List.pairwise_of_forall_mem_list ?_
      intro a ha b hb
      rw [hid a ha, hid b hb]; exact Nat.le_refl _
    · intro a ha b hb
      rw [hid a ha]; have := h3 b hb; omega
    · unfold List.Nodup
      rw [List.pairwise_map]
      refine (nodup_firsts (blocks3 g.2)).imp_of_mem ?_
      intro a b ha hb hne he
      have q1 := hg a ha
      have q2 := hg b hb
      have := congrArg entryTrigram he
      rw [entryTrigram_make (by omega) (by omega), entryTrigram_make (by omega) (by omega)] at this
      exact hne this
    · intro a ha b hb he
      have q1 := hid a ha
      have q2 := h3 b hb
      rw [he] at q1; omega
    · intro e he
      rcases List.mem_append.1 he with he | he
      · rw [hid e he]; exact Nat.le_refl _
      · have := h3 e he; omega

theorem groupsEntries_sorted {gs : List (Nat × List Nat)} (h : GroupsOk gs)
    (hs : ∀ g ∈ gs, g.2.Pairwise (· < ·)) : (groupsEntries gs).Pairwise (· < ·) := by
  induction gs with
  | nil => exact List.Pairwise.nil
  | cons g gs ih =>
    show (g.2.map (makePostEntry g.1) ++ groupsEntries gs).Pairwise _
    have htri := h.tri g (by simp)
    have hids := h.ids g (by simp)
    refine List.pairwise_append.2 ⟨?_, ih h.tail (fun x hx => hs x (by simp [hx])), ?_⟩
    · rw [List.pairwise_map]
      refine (hs g (by simp)).imp_of_mem ?_
      intro a b ha hb hab
      rw [makePostEntry_eq (by omega) (hids a ha), makePostEntry_eq (by omega) (hids b hb)]
      omega
    · intro a ha b hb
      rw [List.mem_map] at ha
      obtain ⟨i, hi, rfl⟩ := ha
      unfold groupsEntries at hb
      rw [List.mem_flatMap] at hb
      obtain ⟨g', hg', hb⟩ := hb
      rw [List.mem_map] at hb
      obtain ⟨j, hj, rfl⟩ := hb
      have h1 := (List.pairwise_cons.1 h.sorted).1 g' hg'
      have h2 := h.tail.tri g' hg'
      have h3 := h.tail.ids g' hg' j hj
      have h4 := hids i hi
      rw [makePostEntry_eq (by omega) h4, makePostEntry_eq (by omega) h3]
      omega

theorem groupsEntries_perm {files : List (Bytes × Bytes)} (hn : files.length < 2 ^ 32)
    (ht : ∀ f ∈ files, ∀ t ∈ trigramsOf f.2, t < 2 ^ 24 - 1) :
    (groupsEntries (groupsOf files)).Perm (entriesFrom 0 files) := by
  have hg := groupsOk hn
  have h1 : (groupsEntries (groupsOf files)).Nodup := by
    refine (groupsEntries_sorted hg ?_).imp (fun h => Nat.ne_of_lt h)
    intro g hg; rw [(mem_groupsOf.1 hg).2.1]; exact idsOf_sorted
  have h2 := (entriesFrom_order (files := files) (k := 0) (by omega) ht).2.1
  rw [List.perm_ext_iff_of_nodup h1 h2]
  intro e
  rw [mem_entriesFrom]
  unfold groupsEntries
  rw [List.mem_flatMap]
  constructor
  · rintro ⟨g, hg, he⟩
    obtain ⟨g1, g2, g3⟩ := mem_groupsOf.1 hg
    rw [List.mem_map] at he
    obtain ⟨i, hi, rfl⟩ := he
    rw [g2, mem_idsOf] at hi
    obtain ⟨f, hf1, hf2⟩ := hi
    refine ⟨i, f, g.1, hf1, hf2, ?_⟩
    have := (List.getElem?_eq_some_iff.1 hf1).1
    rw [Nat.zero_add, Nat.mod_eq_of_lt (by omega)]
  · rintro ⟨i, f, t, h1, h2, rfl⟩
    have hm := List.mem_of_getElem? h1
    have hi := (List.getElem?_eq_some_iff.1 h1).1
    have hmem : i ∈ idsOf files t := mem_idsOf.2 ⟨f, h1, h2⟩
    refine ⟨(t, idsOf files t), mem_groupsOf.2 ⟨ht f hm t h2, rfl, ?_⟩, ?_⟩
    · intro h; simp only at h; rw [h] at hmem; simp at hmem
    · rw [List.mem_map]
      exact ⟨i, hmem, by rw [Nat.zero_add, Nat.mod_eq_of_lt (by omega)]⟩

/-- `mergePost` for a writer that has indexed `files`. -/
theorem mergePost_spec {paths : List Bytes} {files : List (Bytes × Bytes)} {ix : IW}
    (h : WInv paths files ix) (hn : files.length < 2 ^ 32) (out : BufWriter) :
    (out.contents.length + (groupsBytes (groupsOf files)).length < 2 ^ 32 →
      ∃ out' pix', ix.mergePost out = some (out', pix') ∧
        BufWriter.contents out' = out.contents ++ groupsBytes (groupsOf files) ++ endBytes ∧
        BufWriter.contents pix' = indexEntries 0 (groupsOf files)) ∧
    (¬ out.contents.length + (groupsBytes (groupsOf files)).length < 2 ^ 32 → ix.mergePost out = none) := by
  have htri : ∀ f ∈ files, ∀ t ∈ trigramsOf f.2, t < 2 ^ 24 - 1 :=
    fun f hf => trigram_bound (h.utf8 f hf)
  obtain ⟨chunks, c1, c2⟩ := h.posts
  obtain ⟨o1, o2, _⟩ := entriesFrom_order (files := files) (k := 0) (by omega) htri
  have h56 : ∀ e ∈ entriesFrom 0 files, e < 2 ^ 56 := by
    intro e he
    rw [mem_entriesFrom] at he
    obtain ⟨i, f, t, h1, h2, rfl⟩ := he
    have := htri f (List.mem_of_getElem? h1) t h2
    rw [makePostEntry_eq (by omega) (by omega)]
    omega
  -- every chunk is sorted
  have hsub : ∀ c ∈ chunks ++ [ix.post], c.Sublist (entriesFrom 0 files) := by
    intro c hc
    have : (chunks ++ [ix.post]).flatten = entriesFrom 0 files := by simp [← c2]
    rw [← this]
    exact List.sublist_flatten_of_mem hc
  have hsorted : ∀ c ∈ chunks ++ [ix.post], (sortPost c).Pairwise (· ≤ ·) := by
    intro c hc
    have hs := hsub c hc
    refine (sortPost_strictly_increasing (fun p hp => h56 p (hs.subset hp)) (o1.sublist hs)
      (List.Nodup.sublist hs o2)).imp (fun h => Nat.le_of_lt h)
  obtain ⟨hinv, hperm⟩ := PostHeap.foldl_addMem_spec ((chunks ++ [ix.post]).map sortPost) #[]
    PostHeap.inv_empty (by
      intro x hx
      rw [List.mem_map] at hx
      obtain ⟨c, hc, rfl⟩ := hx
      exact hsorted c hc)
  have hheap : ix.mergeHeap = ((chunks ++ [ix.post]).map sortPost).foldl PostHeap.addMem #[] := by
    unfold IW.mergeHeap; rw [c1]; simp
  rw [← hheap] at hinv hperm
  have hperm2 : (groupsEntries (groupsOf files)).Perm (PostHeap.entries ix.mergeHeap) := by
    refine (groupsEntries_perm hn htri).trans (List.Perm.trans ?_ hperm.symm)
    rw [← c2]
    have : PostHeap.entries #[] = [] := rfl
    rw [this, List.nil_append]
    have hp : ∀ cs : List (List Nat), (cs.flatten).Perm ((cs.map sortPost).flatten) := by
      intro cs
      induction cs with
      | nil => exact List.Perm.refl _
      | cons c cs ih =>
        simp only [List.map_cons, List.flatten_cons]
        exact List.Perm.append (sortPost_perm c).symm ih
    have := hp (chunks ++ [ix.post])
    simpa using this
  have hok := groupsOk hn
  have hss := groupsEntries_sorted hok (by
    intro g hg; rw [(mem_groupsOf.1 hg).2.1]; exact idsOf_sorted)
  have hrep := heapNext_rep hinv hperm2 (hss.imp (fun h => Nat.le_of_lt h))
  have hcount : (groupsOf files).length < ix.mergeHeap.count + 2 := by
    have e1 : (groupsEntries (groupsOf files)).length = ix.mergeHeap.count := by
      rw [hperm2.length_eq, PostHeap.length_entries]
    have e2 : ∀ gs : List (Nat × List Nat), (∀ g ∈ gs, g.2 ≠ []) → gs.length ≤ (groupsEntries gs).length := by
      intro gs
      induction gs with
      | nil => intro _; simp
      | cons g gs ih =>
        intro hne
        have q1 := ih (fun x hx => hne x (by simp [hx]))
        have q2 := List.length_pos_iff.2 (hne g (by simp))
        have q3 : (groupsEntries (g :: gs)).length = g.2.length + (groupsEntries gs).length := by
          simp [groupsEntries]
        rw [q3, List.length_cons]; omega
    have := e2 _ hok.ne
    omega
  unfold IW.mergePost
  rw [BufWriter.offset_eq]
  by_cases hl : out.contents.length < 2 ^ 32
  · rw [if_pos hl]
    obtain ⟨k1, k2⟩ := mergeLoop_spec (offset0 := out.contents.length) (groupsOf files)
      (ix.mergeHeap.count + 2) (IW.heapNext ix.mergeHeap) out ix.postIndex hok hrep hcount (Nat.le_refl _)
    rw [Nat.sub_self, h.postIndex, List.nil_append] at k1
    exact ⟨k1, k2⟩
  · rw [if_neg hl]
    exact ⟨fun h => by omega, fun _ => rfl⟩

end Hound
