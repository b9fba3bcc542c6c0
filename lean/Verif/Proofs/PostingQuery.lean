import Verif.Proofs.IndexRead
import Verif.Proofs.ThreeByte
import Verif.Spec.Regex

namespace Hound
open Spec

namespace RIndex

/-- The restriction to a slice of file ids; nil is no restriction. -/
def Within (restrict : Option (List Nat)) (i : Nat) : Prop :=
  match restrict with
  | none => True
  | some r => i ∈ r

instance (restrict : Option (List Nat)) (i : Nat) : Decidable (Within restrict i) := by
  unfold Within; split <;> infer_instance

/-- A restriction is an ascending list. -/
def RestrictOk (restrict : Option (List Nat)) : Prop :=
  match restrict with
  | none => True
  | some r => r.Pairwise (· < ·)

theorem dropWhile_lt_spec {l : List Nat} (h : l.Pairwise (· < ·)) (f : Nat) :
    (∀ i, i ∈ l.dropWhile (· < f) ↔ i ∈ l ∧ f ≤ i) ∧ (l.dropWhile (· < f)).Pairwise (· < ·) := by
  induction l with
  | nil => simp
  | cons x l ih =>
    obtain ⟨h1, h2⟩ := List.pairwise_cons.1 h
    rw [List.dropWhile_cons]
    split
    · rename_i hx
      simp only [decide_eq_true_eq] at hx
      refine ⟨fun i => ?_, (ih h2).2⟩
      rw [(ih h2).1 i, List.mem_cons]
      constructor
      · rintro ⟨a, b⟩; exact ⟨Or.inr a, b⟩
      · rintro ⟨rfl | a, b⟩
        · omega
        · exact ⟨a, b⟩
    · rename_i hx
      simp only [decide_eq_true_eq] at hx
      refine ⟨fun i => ?_, h⟩
      constructor
      · intro hi
        refine ⟨hi, ?_⟩
        rcases List.mem_cons.1 hi with rfl | hi
        · omega
        · have := h1 i hi; omega
      · exact fun hi => hi.1

theorem head_dropWhile {l : List Nat} (h : l.Pairwise (· < ·)) (f : Nat) :
    (l.dropWhile (· < f)).head? = some f ↔ f ∈ l := by
  obtain ⟨h1, h2⟩ := dropWhile_lt_spec h f
  constructor
  · intro hh
    exact ((h1 f).1 (List.mem_of_mem_head? (by rw [hh]; simp))).1
  · intro hf
    have hm := (h1 f).2 ⟨hf, Nat.le_refl _⟩
    cases hd : l.dropWhile (· < f) with
    | nil => rw [hd] at hm; simp at hm
    | cons x xs =>
      rw [hd] at hm h2
      have hx := ((h1 x).1 (by rw [hd]; simp)).2
      rcases List.mem_cons.1 hm with rfl | hm
      · rfl
      · have := (List.pairwise_cons.1 h2).1 f hm; omega

/-- Reading a posting list gives the ids in it, within the restriction. -/
theorem readPosts_spec : ∀ (ids : List Nat) (prev : Nat) (rest : Bytes) (restrict : Option (List Nat)),
    ids.Pairwise (· < ·) → (∀ i ∈ ids, i < 2 ^ 32 - 1) → (prev = 2 ^ 32 - 1 ∨ ∀ i ∈ ids, prev < i) →
    RestrictOk restrict →
    readPosts ids.length prev (deltas prev ids ++ 0 :: rest) restrict =
      some (ids.filter (fun i => decide (Within restrict i)))
  | [], prev, rest, restrict, _, _, _, _ => by simp [readPosts, deltas]
  | i :: ids, prev, rest, restrict, hs, hb, hp, hr => by
    have hi := hb i (by simp)
    obtain ⟨hs1, hs2⟩ := List.pairwise_cons.1 hs
    have hpi : prev = 2 ^ 32 - 1 ∨ prev < i := by
      rcases hp with hp | hp
      · exact Or.inl hp
      · exact Or.inr (hp i (by simp))
    have hx : (i + 2 ^ 32 - prev) % 2 ^ 32 < 2 ^ 32 := Nat.mod_lt _ (by decide)
    have hmm : (i + 2 ^ 32 - prev) % 2 ^ 32 % 2 ^ 32 = (i + 2 ^ 32 - prev) % 2 ^ 32 := Nat.mod_mod _ _
    have hid : (prev + (i + 2 ^ 32 - prev) % 2 ^ 32) % 2 ^ 32 = i := by omega
    rw [deltas, List.length_cons, readPosts, List.append_assoc, uvarint_put hx]
    simp only [hmm, hid]
    rw [if_neg (by omega), List.drop_left]
    cases restrict with
    | none =>
      simp only
      rw [readPosts_spec ids i rest none hs2 (fun j hj => hb j (by simp [hj])) (Or.inr hs1) trivial]
      show some (i :: _) = _
      rw [List.filter_cons, if_pos (decide_eq_true (show Within none i from trivial))]
    | some r =>
      have hr' : r.Pairwise (· < ·) := hr
      obtain ⟨d1, d2⟩ := dropWhile_lt_spec hr' i
      simp only
      rw [readPosts_spec ids i rest (some (r.dropWhile (· < i))) hs2 (fun j hj => hb j (by simp [hj])) (Or.inr hs1) d2]
      have hfil : ids.filter (fun j => decide (Within (some (r.dropWhile (· < i))) j)) =
          ids.filter (fun j => decide (Within (some r) j)) := by
        apply List.filter_congr
        intro j hj
        have := hs1 j hj
        rw [decide_eq_decide]
        show j ∈ r.dropWhile (· < i) ↔ j ∈ r
        rw [d1]
        exact ⟨fun h => h.1, fun h => ⟨h, by omega⟩⟩
      rw [hfil, List.filter_cons]
      by_cases hm : i ∈ r
      · rw [if_pos ((head_dropWhile hr' i).2 hm), if_pos (decide_eq_true (show Within (some r) i from hm))]
        rfl
      · rw [if_neg (fun h => hm ((head_dropWhile hr' i).1 h)),
          if_neg (by simpa using (show ¬ Within (some r) i from hm))]

/-- An ascending list of exactly the numbers with a property. -/
def Asc (l : List Nat) (P : Nat → Prop) : Prop := l.Pairwise (· < ·) ∧ ∀ i, i ∈ l ↔ P i

theorem Asc.congr {l : List Nat} {P Q : Nat → Prop} (h : Asc l P) (hpq : ∀ i, P i ↔ Q i) : Asc l Q :=
  ⟨h.1, fun i => (h.2 i).trans (hpq i)⟩

theorem Asc.nil_of {l : List Nat} {P : Nat → Prop} (h : Asc l P) (hl : l.length = 0) (i : Nat) : ¬ P i := by
  rw [List.length_eq_zero_iff] at hl
  subst hl
  intro hp
  have := (h.2 i).2 hp
  simp at this

theorem Asc.unique {l m : List Nat} {P : Nat → Prop} (hl : Asc l P) (hm : Asc m P) : l = m := by
  refine List.Perm.eq_of_pairwise (le := (· < ·)) (fun a b _ _ h1 h2 => by omega) hl.1 hm.1 ?_
  rw [List.perm_ext_iff_of_nodup (hl.1.imp Nat.ne_of_lt) (hm.1.imp Nat.ne_of_lt)]
  intro i
  rw [hl.2, hm.2]

/-- What an opened index knows about files (name, content). -/
structure Knows (ix : RIndex) (files : List (Bytes × Bytes)) : Prop where
  numName : ix.numName = files.length
  posts : ∀ (t : Nat) (restrict : Option (List Nat)), t < 2 ^ 24 → RestrictOk restrict →
    ∃ l, ix.postIds t restrict = some l ∧ Asc l (fun i => Within restrict i ∧ i ∈ idsOf files t)

theorem getElem?_groupsOf_take {gs : List (Nat × List Nat)} {i : Nat} {g : Nat × List Nat} (h : gs[i]? = some g) :
    groupsBytes gs = groupsBytes (gs.take i) ++ (groupBytes g ++ groupsBytes (gs.drop (i + 1))) := by
  obtain ⟨hlt, hg⟩ := List.getElem?_eq_some_iff.1 h
  unfold groupsBytes
  conv => lhs; rw [← List.take_append_drop i gs]
  rw [List.flatMap_append, List.drop_eq_getElem_cons hlt, hg, List.flatMap_cons]

theorem putUvarint_zero : putUvarint 0 = [0] := by decide

theorem postIds_gen {s : Sections} {nf : Nat} {gs : List (Nat × List Nat)} (h : s.bytes.length < 2 ^ 32)
    (hps : s.postIndex = indexEntries 0 gs) (hls : s.lists = groupsBytes gs ++ endBytes) (hok : GroupsOk gs)
    (hids : ∀ g ∈ gs, g.2.Pairwise (· < ·) ∧ ∀ i ∈ g.2, i < 2 ^ 32 - 1)
    (t : Nat) (restrict : Option (List Nat)) (hr : RestrictOk restrict) :
    ∃ ids, ((t, ids) ∈ gs ∨ (ids = [] ∧ ∀ g ∈ gs, g.1 ≠ t)) ∧
      (ofSections s nf (gs.length + 1)).postIds t restrict =
        some (ids.filter (fun i => decide (Within restrict i))) := by
  have hlb := s.length_bytes
  have hm : IW.magic.length = 16 := rfl
  have e0 : Sections.o0 = 16 := rfl
  have e1 : s.o1 = Sections.o0 + s.paths.length := rfl
  have e2 : s.o2 = s.o1 + s.names.length := rfl
  have e3 : s.o3 = s.o2 + s.lists.length := rfl
  have e4 : s.o4 = s.o3 + s.nameIndex.length := rfl
  have e5 : s.o5 = s.o4 + s.postIndex.length := rfl
  unfold postIds
  rcases findList_spec (nf := nf) h hps hls hok t with ⟨k, ids, g1, g2⟩ | ⟨g1, o, g2⟩
  · refine ⟨ids, Or.inl (List.mem_of_getElem? g1), ?_⟩
    rw [g2]
    simp only
    have hmem := List.mem_of_getElem? g1
    obtain ⟨m1, m2⟩ := hids _ hmem
    have m3 := hok.ne _ hmem
    simp only at m1 m2 m3
    rw [if_neg (by simpa using m3)]
    have hgb := getElem?_groupsOf_take g1
    have hgl : (groupBytes (t, ids)).length = 3 + (deltas (2 ^ 32 - 1) ids).length + 1 := by
      unfold groupBytes
      rw [List.length_append, List.length_append, putTrigram_length, putUvarint_zero, List.length_singleton]
    have hll : s.lists.length = (groupsBytes (gs.take k)).length +
        ((groupBytes (t, ids)).length + (groupsBytes (gs.drop (k + 1))).length) + 4 := by
      rw [hls, hgb, List.length_append, List.length_append, List.length_append, endBytes_length]
    rw [sliceFrom_at
      (a := IW.magic ++ s.paths ++ s.names ++ groupsBytes (gs.take k) ++ putTrigram t)
      (b := deltas (2 ^ 32 - 1) ids ++ 0 :: (groupsBytes (gs.drop (k + 1)) ++ endBytes ++
        s.nameIndex ++ s.postIndex ++
        (putUint32 Sections.o0 ++ putUint32 s.o1 ++ putUint32 s.o2 ++
          putUint32 s.o3 ++ putUint32 s.o4) ++ IW.trailerMagic))]
    · simp only
      rw [readPosts_spec _ _ _ _ m1 m2 (Or.inl rfl) hr]
    · show s.bytes = _
      unfold Sections.bytes
      rw [hls, hgb]
      unfold groupBytes
      rw [putUvarint_zero]
      simp only [List.append_assoc, List.cons_append, List.nil_append]
    · show (s.o2 + (groupsBytes (gs.take k)).length + 3) % 2 ^ 32 = _
      simp only [List.length_append, hm, putTrigram_length]
      omega
  · refine ⟨[], Or.inr ⟨rfl, g1⟩, ?_⟩
    rw [g2]
    simp

theorem postIds_spec {paths : List Bytes} {files : List (Bytes × Bytes)}
    (h : (sectionsOf paths files).bytes.length < 2 ^ 32) (hn : files.length < 2 ^ 30)
    (ht : ∀ f ∈ files, ∀ t ∈ trigramsOf f.2, t < 2 ^ 24 - 1) (t : Nat) (restrict : Option (List Nat))
    (hr : RestrictOk restrict) :
    (ofSections (sectionsOf paths files) files.length ((groupsOf files).length + 1)).postIds t restrict =
      some ((idsOf files t).filter (fun i => decide (Within restrict i))) := by
  have hok := groupsOk (files := files) (by omega)
  have hls : (sectionsOf paths files).lists = groupsBytes (groupsOf files) ++ endBytes := by simp only [sectionsOf]
  have hps : (sectionsOf paths files).postIndex = indexEntries 0 (groupsOf files) := by simp only [sectionsOf]
  have hids : ∀ g ∈ groupsOf files, g.2.Pairwise (· < ·) ∧ ∀ i ∈ g.2, i < 2 ^ 32 - 1 := by
    intro g hg
    obtain ⟨_, m2, _⟩ := mem_groupsOf.1 hg
    rw [m2]
    refine ⟨idsOf_sorted, fun i hi => ?_⟩
    rw [mem_idsOf] at hi
    obtain ⟨f, hf, _⟩ := hi
    have := (List.getElem?_eq_some_iff.1 hf).1
    omega
  obtain ⟨ids, h1, h2⟩ := postIds_gen (nf := files.length) h hps hls hok hids t restrict hr
  rw [h2]
  have hid : ids = idsOf files t := by
    rcases h1 with h1 | ⟨rfl, h1⟩
    · exact (mem_groupsOf.1 h1).2.1
    · symm
      rw [List.eq_nil_iff_forall_not_mem]
      intro i hi
      have hi' := hi
      rw [mem_idsOf] at hi
      obtain ⟨f, hf, hft⟩ := hi
      have hlt := ht f (List.mem_of_getElem? hf) t hft
      refine h1 (t, idsOf files t) (mem_groupsOf.2 ⟨hlt, rfl, ?_⟩) rfl
      intro hnil
      simp only at hnil
      rw [hnil] at hi'
      simp at hi'
  rw [hid]

theorem sectionsOf_nameIndex_length (paths : List Bytes) (files : List (Bytes × Bytes)) :
    (sectionsOf paths files).nameIndex.length = 4 * (files.length + 1) := by
  simp only [sectionsOf]
  rw [flatMap_putUint32_length, nameOffs_length, List.length_append, List.length_map, List.length_singleton]

/-- **Opening the file that was written.** -/
theorem open_sections {paths : List Bytes} {files : List (Bytes × Bytes)}
    (h : (sectionsOf paths files).bytes.length < 2 ^ 32) :
    RIndex.open (sectionsOf paths files).bytes =
      some (ofSections (sectionsOf paths files) files.length ((groupsOf files).length + 1)) := by
  refine open_bytes h (sectionsOf_nameIndex_length _ _) ?_
  simp only [sectionsOf]
  exact indexEntries_length _ _

theorem knows_sections {paths : List Bytes} {files : List (Bytes × Bytes)}
    (h : (sectionsOf paths files).bytes.length < 2 ^ 32) (hn : files.length < 2 ^ 30)
    (ht : ∀ f ∈ files, ∀ t ∈ trigramsOf f.2, t < 2 ^ 24 - 1) :
    Knows (ofSections (sectionsOf paths files) files.length ((groupsOf files).length + 1)) files where
  numName := rfl
  posts := fun t restrict _ hr => ⟨(idsOf files t).filter (fun i => decide (Within restrict i)),
    postIds_spec h hn ht t restrict hr,
    idsOf_sorted.filter _, fun i => by rw [List.mem_filter, decide_eq_true_eq, and_comm]⟩

/-! ## Lists of file ids -/

theorem andLoop_spec : ∀ {fs list : List Nat}, list.Pairwise (· < ·) → fs.Pairwise (· < ·) →
    Asc (andLoop list fs) (fun i => i ∈ list ∧ i ∈ fs)
  | [], list, _, _ => ⟨by simp [andLoop], by simp [andLoop]⟩
  | f :: fs, list, hl, hf => by
    obtain ⟨hf1, hf2⟩ := List.pairwise_cons.1 hf
    obtain ⟨d1, d2⟩ := dropWhile_lt_spec hl f
    rw [andLoop]
    cases hd : list.dropWhile (· < f) with
    | nil =>
      simp only
      refine (andLoop_spec List.Pairwise.nil hf2).congr fun i => ?_
      simp only [List.not_mem_nil, false_and, List.mem_cons, false_iff]
      rintro ⟨hi, hfi⟩
      have : i ∈ list.dropWhile (· < f) := (d1 i).2 ⟨hi, by
        rcases hfi with rfl | hfi
        · exact Nat.le_refl _
        · have := hf1 i hfi; omega⟩
      rw [hd] at this; simp at this
    | cons x xs =>
      rw [hd] at d1 d2
      obtain ⟨hx1, hx2⟩ := List.pairwise_cons.1 d2
      have hfx := ((d1 x).1 (by simp)).2
      simp only
      split
      · rename_i hxf
        subst hxf
        obtain ⟨i1, i2⟩ := andLoop_spec hx2 hf2
        refine ⟨List.pairwise_cons.2 ⟨fun j hj => hf1 j ((i2 j).1 hj).2, i1⟩, fun i => ?_⟩
        show _ ↔ i ∈ list ∧ i ∈ x :: fs
        rw [List.mem_cons, i2, List.mem_cons]
        constructor
        · rintro (rfl | ⟨a, b⟩)
          · exact ⟨((d1 i).1 (by simp)).1, Or.inl rfl⟩
          · exact ⟨((d1 i).1 (by simp [a])).1, Or.inr b⟩
        · rintro ⟨a, rfl | b⟩
          · exact Or.inl rfl
          · have hlt := hf1 i b
            have := (d1 i).2 ⟨a, by omega⟩
            rcases List.mem_cons.1 this with rfl | this
            · omega
            · exact Or.inr ⟨this, b⟩
      · rename_i hxf
        refine (andLoop_spec d2 hf2).congr fun i => ?_
        rw [d1, List.mem_cons (a := i) (b := f)]
        constructor
        · rintro ⟨⟨a, _⟩, b⟩
          exact ⟨a, Or.inr b⟩
        · rintro ⟨a, rfl | b⟩
          · exfalso
            have := (d1 i).2 ⟨a, Nat.le_refl _⟩
            rcases List.mem_cons.1 this with rfl | this
            · exact hxf rfl
            · have := hx1 i this; omega
          · have := hf1 i b
            exact ⟨⟨a, by omega⟩, b⟩

theorem takeWhile_lt_spec {l : List Nat} (h : l.Pairwise (· < ·)) (f : Nat) :
    Asc (l.takeWhile (· < f)) (fun i => i ∈ l ∧ i < f) := by
  induction l with
  | nil => exact ⟨by simp, by simp⟩
  | cons x l ih =>
    obtain ⟨h1, h2⟩ := List.pairwise_cons.1 h
    rw [List.takeWhile_cons]
    split
    · rename_i hx
      simp only [decide_eq_true_eq] at hx
      refine ⟨List.pairwise_cons.2 ⟨fun j hj => h1 j (((ih h2).2 j).1 hj).1, (ih h2).1⟩, fun i => ?_⟩
      rw [List.mem_cons, (ih h2).2 i]
      dsimp only
      rw [List.mem_cons]
      constructor
      · rintro (rfl | ⟨a, b⟩)
        · exact ⟨Or.inl rfl, hx⟩
        · exact ⟨Or.inr a, b⟩
      · rintro ⟨rfl | a, b⟩
        · exact Or.inl rfl
        · exact Or.inr ⟨a, b⟩
    · rename_i hx
      simp only [decide_eq_true_eq] at hx
      refine ⟨List.Pairwise.nil, fun i => ?_⟩
      simp only [List.not_mem_nil, false_iff, not_and]
      intro hi
      rcases List.mem_cons.1 hi with rfl | hi
      · omega
      · have := h1 i hi; omega

/-- Joining `takeWhile`, the element and something later. -/
theorem orLoop_join {list : List Nat} (hl : list.Pairwise (· < ·)) {f : Nat} {m : List Nat} {P : Nat → Prop}
    (hm : Asc m P) (hP : ∀ i, P i → f < i) :
    Asc (list.takeWhile (· < f) ++ f :: m) (fun i => (i ∈ list ∧ i < f) ∨ i = f ∨ P i) := by
  obtain ⟨t1, t2⟩ := takeWhile_lt_spec hl f
  refine ⟨List.pairwise_append.2 ⟨t1, List.pairwise_cons.2 ⟨fun i hi => hP i ((hm.2 i).1 hi), hm.1⟩, ?_⟩, fun i => ?_⟩
  · intro a ha b hb
    have h1 := ((t2 a).1 ha).2
    rcases List.mem_cons.1 hb with rfl | hb
    · exact h1
    · have := hP b ((hm.2 b).1 hb); omega
  · rw [List.mem_append, List.mem_cons, t2, hm.2]

theorem orLoop_spec : ∀ {fs list : List Nat}, list.Pairwise (· < ·) → fs.Pairwise (· < ·) →
    Asc (orLoop list fs) (fun i => i ∈ list ∨ i ∈ fs)
  | [], list, hl, _ => ⟨by simpa [orLoop] using hl, by simp [orLoop]⟩
  | f :: fs, list, hl, hf => by
    obtain ⟨hf1, hf2⟩ := List.pairwise_cons.1 hf
    obtain ⟨d1, d2⟩ := dropWhile_lt_spec hl f
    rw [orLoop]
    cases hd : list.dropWhile (· < f) with
    | nil =>
      simp only
      have hall : ∀ i ∈ list, i < f := by
        intro i hi
        rcases Nat.lt_or_ge i f with h | h
        · exact h
        · have := (d1 i).2 ⟨hi, h⟩
          rw [hd] at this; simp at this
      refine (orLoop_join hl (orLoop_spec List.Pairwise.nil hf2) ?_).congr fun i => ?_
      · rintro i (hi | hi)
        · simp at hi
        · exact hf1 i hi
      · simp only [List.not_mem_nil, false_or, List.mem_cons]
        constructor
        · rintro (⟨a, _⟩ | b)
          · exact Or.inl a
          · exact Or.inr b
        · rintro (a | b)
          · exact Or.inl ⟨a, hall i a⟩
          · exact Or.inr b
    | cons x xs =>
      rw [hd] at d1 d2
      obtain ⟨hx1, hx2⟩ := List.pairwise_cons.1 d2
      have hfx := ((d1 x).1 (by simp)).2
      simp only
      split
      · rename_i hxf
        subst hxf
        refine (orLoop_join hl (orLoop_spec hx2 hf2) ?_).congr fun i => ?_
        · rintro i (hi | hi)
          · exact hx1 i hi
          · exact hf1 i hi
        · rw [List.mem_cons]
          constructor
          · rintro (⟨a, _⟩ | rfl | b | b)
            · exact Or.inl a
            · exact Or.inr (Or.inl rfl)
            · exact Or.inl ((d1 i).1 (by simp [b])).1
            · exact Or.inr (Or.inr b)
          · rintro (a | rfl | b)
            · rcases Nat.lt_or_ge i x with h | h
              · exact Or.inl ⟨a, h⟩
              · rcases List.mem_cons.1 ((d1 i).2 ⟨a, h⟩) with rfl | h
                · exact Or.inr (Or.inl rfl)
                · exact Or.inr (Or.inr (Or.inl h))
            · exact Or.inr (Or.inl rfl)
            · exact Or.inr (Or.inr (Or.inr b))
      · rename_i hxf
        refine (orLoop_join hl (orLoop_spec d2 hf2) ?_).congr fun i => ?_
        · rintro i (hi | hi)
          · rcases List.mem_cons.1 hi with rfl | hi
            · omega
            · have := hx1 i hi; omega
          · exact hf1 i hi
        · rw [d1, List.mem_cons (a := i) (b := f)]
          constructor
          · rintro (⟨a, _⟩ | rfl | ⟨b, _⟩ | b)
            · exact Or.inl a
            · exact Or.inr (Or.inl rfl)
            · exact Or.inl b
            · exact Or.inr (Or.inr b)
          · rintro (a | rfl | b)
            · rcases Nat.lt_or_ge i f with h | h
              · exact Or.inl ⟨a, h⟩
              · exact Or.inr (Or.inr (Or.inl ⟨a, h⟩))
            · exact Or.inr (Or.inl rfl)
            · exact Or.inr (Or.inr (Or.inr b))

theorem mergeOr_spec : ∀ (l1 l2 : List Nat), l1.Pairwise (· < ·) → l2.Pairwise (· < ·) →
    Asc (mergeOr l1 l2) (fun i => i ∈ l1 ∨ i ∈ l2)
  | [], l2, _, h2 => by
    rw [mergeOr]
    exact ⟨h2, by simp⟩
  | x :: xs, [], h1, _ => by
    rw [mergeOr]
    exact ⟨h1, by simp⟩
  | x :: xs, y :: ys, h1, h2 => by
    obtain ⟨a1, a2⟩ := List.pairwise_cons.1 h1
    obtain ⟨b1, b2⟩ := List.pairwise_cons.1 h2
    rw [mergeOr]
    split
    · rename_i hxy
      obtain ⟨c1, c2⟩ := mergeOr_spec xs (y :: ys) a2 h2
      refine ⟨List.pairwise_cons.2 ⟨fun j hj => ?_, c1⟩, fun i => ?_⟩
      · rcases (c2 j).1 hj with h | h
        · exact a1 j h
        · rcases List.mem_cons.1 h with rfl | h
          · exact hxy
          · have := b1 j h; omega
      · rw [List.mem_cons, c2]
        dsimp only
        rw [List.mem_cons (b := x), or_assoc]
    · split
      · rename_i hxy hyx
        obtain ⟨c1, c2⟩ := mergeOr_spec (x :: xs) ys h1 b2
        refine ⟨List.pairwise_cons.2 ⟨fun j hj => ?_, c1⟩, fun i => ?_⟩
        · rcases (c2 j).1 hj with h | h
          · rcases List.mem_cons.1 h with rfl | h
            · exact hyx
            · have := a1 j h; omega
          · exact b1 j h
        · rw [List.mem_cons, c2]
          dsimp only
          rw [List.mem_cons (b := y)]
          constructor
          · rintro (h | h | h)
            · exact Or.inr (Or.inl h)
            · exact Or.inl h
            · exact Or.inr (Or.inr h)
          · rintro (h | h | h)
            · exact Or.inr (Or.inl h)
            · exact Or.inl h
            · exact Or.inr (Or.inr h)
      · have hxy : x = y := by omega
        subst hxy
        obtain ⟨c1, c2⟩ := mergeOr_spec xs ys a2 b2
        refine ⟨List.pairwise_cons.2 ⟨fun j hj => ?_, c1⟩, fun i => ?_⟩
        · rcases (c2 j).1 hj with h | h
          · exact a1 j h
          · exact b1 j h
        · rw [List.mem_cons, c2]
          dsimp only
          rw [List.mem_cons (b := x), List.mem_cons (b := x)]
          constructor
          · rintro (h | h | h)
            · exact Or.inl (Or.inl h)
            · exact Or.inl (Or.inr h)
            · exact Or.inr (Or.inr h)
          · rintro ((h | h) | (h | h))
            · exact Or.inl h
            · exact Or.inr (Or.inl h)
            · exact Or.inl h
            · exact Or.inr (Or.inr h)
termination_by l1 l2 => l1.length + l2.length

/-! ## Trigrams of a text -/

theorem getTrigram_three {t : Bytes} (h : t.length = 3) : ∃ n, getTrigram t = some n ∧ n < 2 ^ 24 ∧ putTrigram n = t := by
  match t, h with
  | [a, b, c], _ =>
    refine ⟨_, rfl, ?_⟩
    obtain ⟨h1, h2⟩ := putTrigram_get (a := a) (b := b) (c := c) (rest := []) rfl
    exact ⟨h2, h1⟩

theorem triVal_eq_getTrigram (a b c : UInt8) (rest : Bytes) : getTrigram (a :: b :: c :: rest) = some (triVal a b c) := by
  have hb := b.toNat_lt; have hc := c.toNat_lt
  simp only [getTrigram, Option.some.injEq]
  rw [Nat.or_assoc, ← Nat.shiftLeft_add_eq_or_of_lt (i := 8) (by omega), ← Nat.shiftLeft_add_eq_or_of_lt (i := 16) (by
    rw [Nat.shiftLeft_eq]; omega), Nat.shiftLeft_eq, Nat.shiftLeft_eq]
  unfold triVal
  omega

theorem mem_firsts {x : Nat} : ∀ {l : List Nat}, x ∈ firsts l ↔ x ∈ l
  | [] => by simp [firsts]
  | y :: l => by
    rw [firsts, List.mem_cons, List.mem_filter, mem_firsts, List.mem_cons]
    by_cases h : x = y
    · simp [h]
    · simp [h]

theorem mem_blocks3 {t : Bytes} {n : Nat} (ht : t.length = 3) (hn : getTrigram t = some n) :
    ∀ {w : Bytes}, n ∈ blocks3 w ↔ ∃ a b, w = a ++ t ++ b
  | [] => by
    simp only [blocks3, List.not_mem_nil, false_iff]
    rintro ⟨a, b, h⟩
    have := congrArg List.length h
    simp only [List.length_append, List.length_nil] at this
    omega
  | [x] => by
    simp only [blocks3, List.not_mem_nil, false_iff]
    rintro ⟨a, b, h⟩
    have := congrArg List.length h
    simp only [List.length_append, List.length_cons, List.length_nil] at this
    omega
  | [x, y] => by
    simp only [blocks3, List.not_mem_nil, false_iff]
    rintro ⟨a, b, h⟩
    have := congrArg List.length h
    simp only [List.length_append, List.length_cons, List.length_nil] at this
    omega
  | x :: y :: z :: w => by
    rw [blocks3, List.mem_cons, mem_blocks3 ht hn]
    have hput : putTrigram n = t := by
      obtain ⟨m, h1, _, h3⟩ := getTrigram_three ht
      rw [hn] at h1
      injection h1 with h1
      rw [h1, h3]
    have hv := triVal_eq_getTrigram x y z []
    have hpv := (putTrigram_get hv).1
    have hpn : getTrigram t = some n := hn
    constructor
    · rintro (h | ⟨a, b, h⟩)
      · refine ⟨[], w, ?_⟩
        rw [← h, hput] at hpv
        rw [hpv]; rfl
      · exact ⟨x :: a, b, by rw [h]; rfl⟩
    · rintro ⟨a, b, h⟩
      cases a with
      | nil =>
        left
        match t, ht with
        | [p, q, r], _ =>
          simp only [List.nil_append, List.cons_append] at h
          injection h with h1 h
          injection h with h2 h
          injection h with h3 h
          subst h1 h2 h3
          rw [hv] at hn
          injection hn with hn
          exact hn.symm
      | cons a0 a =>
        right
        simp only [List.cons_append] at h
        injection h with h1 h
        exact ⟨a, b, h⟩

/-- The number of a three-byte string is among the trigrams of a text iff the string occurs in it. -/
theorem mem_trigramsOf {w t : Bytes} {n : Nat} (ht : t.length = 3) (hn : getTrigram t = some n) :
    n ∈ trigramsOf w ↔ HasTrigram w t := by
  unfold trigramsOf HasTrigram
  rw [mem_firsts, mem_blocks3 ht hn]
  exact ⟨fun h => ⟨ht, h⟩, fun h => h.2⟩

/-! ## Queries -/

/-- File `i` satisfies the query. -/
def FileSat (files : List (Bytes × Bytes)) (q : Query) (i : Nat) : Prop :=
  ∃ f, files[i]? = some f ∧ Sat (HasTrigram f.2) q

theorem Knows.tri {ix : RIndex} {files : List (Bytes × Bytes)} (h : Knows ix files) {t : Bytes}
    (ht : t.length = 3) {restrict : Option (List Nat)} (hr : RestrictOk restrict) :
    ∃ n l, getTrigram t = some n ∧ ix.postIds n restrict = some l ∧
      Asc l (fun i => Within restrict i ∧ ∃ f, files[i]? = some f ∧ HasTrigram f.2 t) := by
  obtain ⟨n, h1, h2, _⟩ := getTrigram_three ht
  obtain ⟨l, h3, h4⟩ := h.posts n restrict h2 hr
  refine ⟨n, l, h1, h3, h4.congr fun i => ?_⟩
  rw [mem_idsOf]
  simp only [mem_trigramsOf ht h1]

theorem andTrigrams_spec {ix : RIndex} {files : List (Bytes × Bytes)} (hk : Knows ix files)
    {restrict : Option (List Nat)} (hr : RestrictOk restrict) :
    ∀ (ts : List Bytes) (list : Option (List Nat)), (∀ t ∈ ts, t.length = 3) → RestrictOk list →
    (∀ l, list = some l → ∀ i ∈ l, Within restrict i ∧ i < files.length) →
    (andTrigrams ix restrict list ts = some none ∧
      ∀ i, ¬ (Within restrict i ∧ Within list i ∧ ∃ f, files[i]? = some f ∧ ∀ t ∈ ts, HasTrigram f.2 t)) ∨
    (∃ l, andTrigrams ix restrict list ts = some (some (some l)) ∧ (ts ≠ [] ∨ list ≠ none) ∧
      Asc l (fun i => Within restrict i ∧ Within list i ∧ ∃ f, files[i]? = some f ∧ ∀ t ∈ ts, HasTrigram f.2 t)) ∨
    (andTrigrams ix restrict list ts = some (some none) ∧ ts = [] ∧ list = none)
  | [], none, _, _, _ => Or.inr (Or.inr ⟨rfl, rfl, rfl⟩)
  | [], some l, _, hl, hw => by
    refine Or.inr (Or.inl ⟨l, rfl, Or.inr (by simp), hl, fun i => ?_⟩)
    constructor
    · intro hi
      obtain ⟨h1, h2⟩ := hw l rfl i hi
      exact ⟨h1, hi, files[i], List.getElem?_eq_getElem h2, by simp⟩
    · exact fun h => h.2.1
  | t :: ts, list, h3, hl, hw => by
    obtain ⟨n, p, g1, g2, g3⟩ := hk.tri (h3 t (by simp)) hr
    have hstep : ∃ m, ix.listOrAnd list n restrict = some m ∧
        Asc m (fun i => Within restrict i ∧ Within list i ∧ ∃ f, files[i]? = some f ∧ HasTrigram f.2 t) := by
      cases list with
      | none =>
        refine ⟨p, g2, g3.congr fun i => ?_⟩
        simp only [Within, true_and]
      | some l =>
        refine ⟨andLoop l p, by simp only [listOrAnd, postingAnd, g2]; rfl, (andLoop_spec hl g3.1).congr fun i => ?_⟩
        rw [g3.2]
        constructor
        · rintro ⟨a, b, c⟩; exact ⟨b, a, c⟩
        · rintro ⟨b, a, c⟩; exact ⟨a, b, c⟩
    obtain ⟨m, m1, m2⟩ := hstep
    unfold andTrigrams
    rw [g1]
    simp only [m1]
    by_cases hm0 : m.length = 0
    · rw [if_pos hm0]
      refine Or.inl ⟨rfl, fun i => ?_⟩
      rintro ⟨a, b, f, c, d⟩
      exact m2.nil_of hm0 i ⟨a, b, f, c, d t (by simp)⟩
    · rw [if_neg hm0]
      have hiff : ∀ i, (Within restrict i ∧ Within (some m) i ∧ ∃ f, files[i]? = some f ∧ ∀ t ∈ ts, HasTrigram f.2 t) ↔
          (Within restrict i ∧ Within list i ∧ ∃ f, files[i]? = some f ∧ ∀ x ∈ t :: ts, HasTrigram f.2 x) := by
        intro i
        constructor
        · rintro ⟨a, b, f, c, d⟩
          obtain ⟨_, b2, f', b3, b4⟩ := (m2.2 i).1 b
          rw [c] at b3
          injection b3 with b3
          subst b3
          refine ⟨a, b2, f, c, fun x hx => ?_⟩
          rcases List.mem_cons.1 hx with rfl | hx
          · exact b4
          · exact d x hx
        · rintro ⟨a, b, f, c, d⟩
          exact ⟨a, (m2.2 i).2 ⟨a, b, f, c, d t (by simp)⟩, f, c, fun x hx => d x (by simp [hx])⟩
      rcases andTrigrams_spec hk hr ts (some m) (fun x hx => h3 x (by simp [hx])) m2.1 (by
        intro l hl i hi
        injection hl with hl
        subst hl
        obtain ⟨a, _, f, c, _⟩ := (m2.2 i).1 hi
        exact ⟨a, (List.getElem?_eq_some_iff.1 c).1⟩) with ⟨e1, e2⟩ | ⟨l, e1, _, e3⟩ | ⟨_, _, e⟩
      · exact Or.inl ⟨e1, fun i hi => e2 i ((hiff i).2 hi)⟩
      · exact Or.inr (Or.inl ⟨l, e1, Or.inl (by simp), e3.congr hiff⟩)
      · simp at e

theorem orTrigrams_spec {ix : RIndex} {files : List (Bytes × Bytes)} (hk : Knows ix files)
    {restrict : Option (List Nat)} (hr : RestrictOk restrict) :
    ∀ (ts : List Bytes) (list : Option (List Nat)), (∀ t ∈ ts, t.length = 3) → (list.getD []).Pairwise (· < ·) →
    ∃ l, orTrigrams ix restrict list ts = some l ∧
      Asc (l.getD []) (fun i => i ∈ list.getD [] ∨ (Within restrict i ∧ ∃ f, files[i]? = some f ∧ ∃ t ∈ ts, HasTrigram f.2 t))
  | [], list, _, hl => by
    refine ⟨list, rfl, hl, fun i => ?_⟩
    simp
  | t :: ts, list, h3, hl => by
    obtain ⟨n, p, g1, g2, g3⟩ := hk.tri (h3 t (by simp)) hr
    have hstep : ∃ m, ix.listOrOr list n restrict = some m ∧
        Asc m (fun i => i ∈ list.getD [] ∨ (Within restrict i ∧ ∃ f, files[i]? = some f ∧ HasTrigram f.2 t)) := by
      cases list with
      | none =>
        refine ⟨p, g2, g3.congr fun i => ?_⟩
        simp
      | some l =>
        refine ⟨orLoop l p, by simp only [listOrOr, postingOr, g2]; rfl, (orLoop_spec hl g3.1).congr fun i => ?_⟩
        rw [g3.2]
    obtain ⟨m, m1, m2⟩ := hstep
    unfold orTrigrams
    rw [g1]
    simp only [m1]
    obtain ⟨l, l1, l2⟩ := orTrigrams_spec hk hr ts (some m) (fun x hx => h3 x (by simp [hx])) m2.1
    refine ⟨l, l1, l2.congr fun i => ?_⟩
    show (i ∈ m ∨ _) ↔ _
    rw [m2.2]
    constructor
    · rintro ((a | ⟨b, f, c, d⟩) | ⟨b, f, c, x, hx, d⟩)
      · exact Or.inl a
      · exact Or.inr ⟨b, f, c, t, by simp, d⟩
      · exact Or.inr ⟨b, f, c, x, by simp [hx], d⟩
    · rintro (a | ⟨b, f, c, x, hx, d⟩)
      · exact Or.inl (Or.inl a)
      · rcases List.mem_cons.1 hx with rfl | hx
        · exact Or.inl (Or.inr ⟨b, f, c, d⟩)
        · exact Or.inr ⟨b, f, c, x, hx, d⟩

mutual

theorem postingQuery_spec {ix : RIndex} {files : List (Bytes × Bytes)} (hk : Knows ix files) :
    ∀ (q : Query) (restrict : Option (List Nat)), ThreeByte q → NoEmptyAnd q → RestrictOk restrict →
    (∀ r, restrict = some r → ∀ i ∈ r, i < files.length) →
    ∃ l, postingQuery ix q restrict = some l ∧ Asc l (fun i => Within restrict i ∧ FileSat files q i)
  | .mk .none _ _, _, _, _, _, _ => ⟨[], by rw [postingQuery], List.Pairwise.nil, fun i => by
      simp [FileSat, Sat]⟩
  | .mk .all _ _, some r, _, _, hr, hw => by
    refine ⟨r, by rw [postingQuery], hr, fun i => ?_⟩
    constructor
    · intro hi
      exact ⟨hi, files[i]'(hw r rfl i hi), List.getElem?_eq_getElem _, by simp [Sat]⟩
    · exact fun h => h.1
  | .mk .all _ _, none, _, _, _, _ => by
    refine ⟨List.range files.length, ?_, List.pairwise_lt_range, fun i => ?_⟩
    · rw [postingQuery, hk.numName, if_neg (by omega)]
      rfl
    · rw [List.mem_range]
      constructor
      · intro hi
        exact ⟨trivial, files[i], List.getElem?_eq_getElem _, by simp [Sat]⟩
      · rintro ⟨_, f, hf, _⟩
        exact (List.getElem?_eq_some_iff.1 hf).1
  | .mk .and tri sub, restrict, h3, hne, hr, hw => by
    rw [ThreeByte] at h3
    rw [NoEmptyAnd] at hne
    have hsat : ∀ i, (Within restrict i ∧ FileSat files (.mk .and tri sub) i) ↔
        (Within restrict i ∧ ∃ f, files[i]? = some f ∧ (∀ t ∈ tri, HasTrigram f.2 t) ∧ SatAll (HasTrigram f.2) sub) := by
      intro i
      unfold FileSat
      simp only [Sat]
    rw [postingQuery]
    rcases andTrigrams_spec hk hr tri none h3.1 trivial (by simp) with ⟨e1, e2⟩ | ⟨l, e1, e2, e3⟩ | ⟨e1, e2, _⟩
    · rw [e1]
      simp only
      refine ⟨[], rfl, List.Pairwise.nil, fun i => ?_⟩
      dsimp only
      rw [hsat]
      simp only [List.not_mem_nil, false_iff]
      rintro ⟨a, f, b, c, _⟩
      exact e2 i ⟨a, trivial, f, b, c⟩
    · rw [e1]
      simp only
      obtain ⟨m, m1, m2⟩ := andSubs_spec hk sub restrict (some l) h3.2 hne.2 hr hw (Or.inl (by simp)) e3.1 (by
        intro r hr i hi
        injection hr with hr
        subst hr
        obtain ⟨a, _, f, b, _⟩ := (e3.2 i).1 hi
        exact ⟨a, (List.getElem?_eq_some_iff.1 b).1⟩)
      refine ⟨m, m1, m2.congr fun i => ?_⟩
      rw [hsat]
      constructor
      · rintro ⟨a, b, f, c, d⟩
        obtain ⟨_, _, f', b1, b2⟩ := (e3.2 i).1 b
        rw [c] at b1
        injection b1 with b1
        subst b1
        exact ⟨a, f, c, b2, d⟩
      · rintro ⟨a, f, c, b2, d⟩
        exact ⟨a, (e3.2 i).2 ⟨a, trivial, f, c, b2⟩, f, c, d⟩
    · rw [e1]
      subst e2
      simp only
      obtain ⟨m, m1, m2⟩ := andSubs_spec hk sub restrict none h3.2 hne.2 hr hw (Or.inr (by
        rcases hne.1 rfl with h | h
        · exact absurd rfl h
        · exact h)) trivial (by simp)
      refine ⟨m, m1, m2.congr fun i => ?_⟩
      rw [hsat]
      simp [Within]
  | .mk .or tri sub, restrict, h3, hne, hr, hw => by
    rw [ThreeByte] at h3
    rw [NoEmptyAnd] at hne
    obtain ⟨l, l1, l2⟩ := orTrigrams_spec hk hr tri none h3.1 (by simp)
    rw [postingQuery, l1]
    simp only
    obtain ⟨m, m1, m2⟩ := orSubs_spec hk sub restrict (l.getD []) h3.2 hne.2 hr hw l2.1
    refine ⟨m, m1, m2.congr fun i => ?_⟩
    rw [l2.2]
    unfold FileSat
    simp only [Sat, Option.getD_none, List.not_mem_nil, false_or]
    constructor
    · rintro (⟨a, f, b, c⟩ | ⟨a, f, b, c⟩)
      · exact ⟨a, f, b, Or.inl c⟩
      · exact ⟨a, f, b, Or.inr c⟩
    · rintro ⟨a, f, b, c | c⟩
      · exact Or.inl ⟨a, f, b, c⟩
      · exact Or.inr ⟨a, f, b, c⟩

theorem andSubs_spec {ix : RIndex} {files : List (Bytes × Bytes)} (hk : Knows ix files) :
    ∀ (sub : List Query) (restrict list : Option (List Nat)), ThreeByteL sub → NoEmptyAndL sub → RestrictOk restrict →
    (∀ r, restrict = some r → ∀ i ∈ r, i < files.length) → (list ≠ none ∨ sub ≠ []) → RestrictOk list →
    (∀ l, list = some l → ∀ i ∈ l, Within restrict i ∧ i < files.length) →
    ∃ l, andSubs ix restrict list sub = some l ∧
      Asc l (fun i => Within restrict i ∧ Within list i ∧ ∃ f, files[i]? = some f ∧ SatAll (HasTrigram f.2) sub)
  | [], restrict, list, _, _, _, _, hn, hl, hwl => by
    cases list with
    | none => simp at hn
    | some l =>
      refine ⟨l, by rw [andSubs]; rfl, hl, fun i => ?_⟩
      constructor
      · intro hi
        obtain ⟨a, b⟩ := hwl l rfl i hi
        exact ⟨a, hi, files[i], List.getElem?_eq_getElem b, by simp [SatAll]⟩
      · exact fun h => h.2.1
  | q :: qs, restrict, list, h3, hne, hr, hw, hn, hl, hwl => by
    rw [ThreeByteL] at h3
    rw [NoEmptyAndL] at hne
    obtain ⟨r', hr', hwr, hok', hlt'⟩ : ∃ r', orRestrict list restrict = r' ∧
        (∀ i, Within r' i ↔ Within restrict i ∧ Within list i) ∧ RestrictOk r' ∧
        (∀ r, r' = some r → ∀ i ∈ r, i < files.length) := by
      cases list with
      | none => exact ⟨restrict, rfl, fun i => by simp [Within], hr, hw⟩
      | some l =>
        refine ⟨some l, rfl, fun i => ?_, hl, fun r h i hi => ?_⟩
        · exact ⟨fun h => ⟨(hwl l rfl i h).1, h⟩, fun h => h.2⟩
        · exact (hwl r h i hi).2
    obtain ⟨m, m1, m2⟩ := postingQuery_spec hk q r' h3.1 hne.1 hok' hlt'
    rw [andSubs, hr', m1]
    simp only
    by_cases hm0 : m.length = 0
    · rw [if_pos hm0]
      refine ⟨[], rfl, List.Pairwise.nil, fun i => ?_⟩
      simp only [List.not_mem_nil, false_iff]
      rintro ⟨a, b, f, c, d⟩
      rw [SatAll] at d
      exact m2.nil_of hm0 i ⟨(hwr i).2 ⟨a, b⟩, f, c, d.1⟩
    · rw [if_neg hm0]
      obtain ⟨k, k1, k2⟩ := andSubs_spec hk qs restrict (some m) h3.2 hne.2 hr hw (Or.inl (by simp)) m2.1 (by
        intro l hl i hi
        injection hl with hl
        subst hl
        obtain ⟨a, f, b, _⟩ := (m2.2 i).1 hi
        exact ⟨((hwr i).1 a).1, (List.getElem?_eq_some_iff.1 b).1⟩)
      refine ⟨k, k1, k2.congr fun i => ?_⟩
      simp only [SatAll]
      constructor
      · rintro ⟨a, b, f, c, d⟩
        obtain ⟨b1, f', b2, b3⟩ := (m2.2 i).1 b
        rw [c] at b2
        injection b2 with b2
        subst b2
        exact ⟨a, ((hwr i).1 b1).2, f, c, b3, d⟩
      · rintro ⟨a, b, f, c, d1, d2⟩
        exact ⟨a, (m2.2 i).2 ⟨(hwr i).2 ⟨a, b⟩, f, c, d1⟩, f, c, d2⟩

theorem orSubs_spec {ix : RIndex} {files : List (Bytes × Bytes)} (hk : Knows ix files) :
    ∀ (sub : List Query) (restrict : Option (List Nat)) (list : List Nat), ThreeByteL sub → NoEmptyAndL sub →
    RestrictOk restrict → (∀ r, restrict = some r → ∀ i ∈ r, i < files.length) → list.Pairwise (· < ·) →
    ∃ l, orSubs ix restrict list sub = some l ∧
      Asc l (fun i => i ∈ list ∨ (Within restrict i ∧ ∃ f, files[i]? = some f ∧ SatAny (HasTrigram f.2) sub))
  | [], restrict, list, _, _, _, _, hl => ⟨list, by rw [orSubs], hl, fun i => by simp [SatAny]⟩
  | q :: qs, restrict, list, h3, hne, hr, hw, hl => by
    rw [ThreeByteL] at h3
    rw [NoEmptyAndL] at hne
    obtain ⟨m, m1, m2⟩ := postingQuery_spec hk q restrict h3.1 hne.1 hr hw
    have hmo := mergeOr_spec list m hl m2.1
    rw [orSubs, m1]
    simp only
    obtain ⟨k, k1, k2⟩ := orSubs_spec hk qs restrict (mergeOr list m) h3.2 hne.2 hr hw hmo.1
    refine ⟨k, k1, k2.congr fun i => ?_⟩
    rw [hmo.2]
    dsimp only
    rw [m2.2]
    unfold FileSat
    simp only [SatAny]
    constructor
    · rintro ((a | ⟨a, f, b, c⟩) | ⟨a, f, b, c⟩)
      · exact Or.inl a
      · exact Or.inr ⟨a, f, b, Or.inl c⟩
      · exact Or.inr ⟨a, f, b, Or.inr c⟩
    · rintro (a | ⟨a, f, b, c | c⟩)
      · exact Or.inl (Or.inl a)
      · exact Or.inl (Or.inr ⟨a, f, b, c⟩)
      · exact Or.inr ⟨a, f, b, c⟩

end

end RIndex

end Hound
