import Verif.Proofs.MergeJoin

namespace Hound
namespace Merge
open Spec

abbrev Doc := Bytes × Bytes

/-! ## Plans: the ranges of documents of a merged index -/

/-- Ranges of documents of the first (`false`) and second (`true`) index, in the order of the merged one. -/
abbrev Plan := List (Bool × IdRange)

/-- The ranges of one index. -/
def side (b : Bool) (plan : Plan) : List IdRange := plan.filterMap (fun x => if x.1 = b then some x.2 else none)

theorem side_cons (b c : Bool) (r : IdRange) (plan : Plan) :
    side b ((c, r) :: plan) = if c = b then r :: side b plan else side b plan := by
  unfold side
  by_cases h : c = b <;> simp [h]

theorem side_append (b : Bool) (p q : Plan) : side b (p ++ q) = side b p ++ side b q := by
  unfold side; rw [List.filterMap_append]

/-- The documents of a range. -/
def cut (docs : List Doc) (r : IdRange) : List Doc := (docs.drop r.lo).take (r.hi - r.lo)

/-- The documents of a plan. -/
def docsOf (docs : Bool → List Doc) (plan : Plan) : List Doc := plan.flatMap (fun x => cut (docs x.1) x.2)

/-- The ranges follow each other: in the merged index from number `new` on, in each index from `pos` on. -/
def PlanOk (n : Bool → Nat) : Nat → (Bool → Nat) → Plan → Prop
  | _, _, [] => True
  | new, pos, (b, r) :: plan => r.new = new ∧ pos b ≤ r.lo ∧ r.lo < r.hi ∧ r.hi ≤ n b ∧
      PlanOk n (new + (r.hi - r.lo)) (fun c => if c = b then r.hi else pos c) plan

theorem PlanOk.weaken {n : Bool → Nat} : ∀ {plan : Plan} {new : Nat} {pos pos' : Bool → Nat}, PlanOk n new pos plan →
    (∀ b, pos' b ≤ pos b) → PlanOk n new pos' plan
  | [], _, _, _, _, _ => trivial
  | (b, r) :: plan, new, pos, pos', ⟨h1, h2, h3, h4, h5⟩, h => by
    refine ⟨h1, Nat.le_trans (h b) h2, h3, h4, h5.weaken (fun c => ?_)⟩
    split
    · exact Nat.le_refl _
    · exact h c

theorem PlanOk.ranges {n : Bool → Nat} : ∀ {plan : Plan} {new : Nat} {pos : Bool → Nat}, PlanOk n new pos plan →
    ∀ b, (side b plan).Pairwise (fun a b => a.hi ≤ b.lo) ∧
      ∀ g ∈ side b plan, pos b ≤ g.lo ∧ g.lo < g.hi ∧ g.hi ≤ n b ∧ new ≤ g.new
  | [], _, _, _, _ => ⟨List.Pairwise.nil, by simp [side]⟩
  | (c, r) :: plan, new, pos, ⟨h1, h2, h3, h4, h5⟩, b => by
    obtain ⟨e1, e2⟩ := h5.ranges b
    rw [side_cons]
    by_cases hc : c = b
    · subst hc
      simp only [if_true] at e2 ⊢
      refine ⟨List.pairwise_cons.2 ⟨fun g hg => (e2 g hg).1, e1⟩, fun g hg => ?_⟩
      rcases List.mem_cons.1 hg with rfl | hg
      · exact ⟨h2, h3, h4, by omega⟩
      · obtain ⟨f1, f2, f3, f4⟩ := e2 g hg
        exact ⟨by omega, f2, f3, by omega⟩
    · have hc' : ¬ b = c := fun h => hc h.symm
      rw [if_neg hc]
      refine ⟨e1, fun g hg => ?_⟩
      obtain ⟨f1, f2, f3, f4⟩ := e2 g hg
      simp only [if_neg hc'] at f1
      exact ⟨f1, f2, f3, by omega⟩

theorem PlanOk.mapId_ge {n : Bool → Nat} {plan : Plan} {new : Nat} {pos : Bool → Nat} (h : PlanOk n new pos plan)
    {b : Bool} {i k : Nat} (hk : mapId (side b plan) i = some k) : new ≤ k ∧ pos b ≤ i ∧ i < n b := by
  obtain ⟨g, h1, h2, h3, rfl⟩ := mapId_some hk
  obtain ⟨e1, e2, e3, e4⟩ := (h.ranges b).2 g h1
  omega

theorem length_cut {docs : List Doc} {r : IdRange} (h1 : r.lo < r.hi) (h2 : r.hi ≤ docs.length) :
    (cut docs r).length = r.hi - r.lo := by
  unfold cut
  rw [List.length_take, List.length_drop]
  omega

/-- Which document has a number in the merged index. -/
theorem PlanOk.docs {docs : Bool → List Doc} : ∀ {plan : Plan} {new : Nat} {pos : Bool → Nat},
    PlanOk (fun b => (docs b).length) new pos plan → ∀ (k : Nat) (f : Doc),
    (docsOf docs plan)[k]? = some f ↔ ∃ b i, mapId (side b plan) i = some (new + k) ∧ (docs b)[i]? = some f
  | [], new, pos, _, k, f => by simp [docsOf, side, mapId]
  | (c, r) :: plan, new, pos, ⟨h1, h2, h3, h4, h5⟩, k, f => by
    have hl := length_cut (docs := docs c) h3 h4
    have hd : docsOf docs ((c, r) :: plan) = cut (docs c) r ++ docsOf docs plan := rfl
    rw [hd]
    by_cases hk : k < r.hi - r.lo
    · rw [List.getElem?_append_left (by omega)]
      have hcut : (cut (docs c) r)[k]? = (docs c)[r.lo + k]? := by
        unfold cut
        rw [List.getElem?_take, if_pos hk, List.getElem?_drop]
      rw [hcut]
      constructor
      · intro h
        refine ⟨c, r.lo + k, ?_, h⟩
        rw [side_cons, if_pos rfl, mapId_cons, if_pos (by omega), h1]
        congr 1
        omega
      · rintro ⟨b, i, e1, e2⟩
        rw [side_cons] at e1
        by_cases hc : c = b
        · subst hc
          rw [if_pos rfl, mapId_cons] at e1
          split at e1
          · injection e1 with e1
            have : r.lo + k = i := by omega
            rw [this]; exact e2
          · have := (h5.mapId_ge e1).1; omega
        · rw [if_neg hc] at e1
          have := (h5.mapId_ge e1).1; omega
    · rw [List.getElem?_append_right (by omega), hl, h5.docs]
      have hnew : new + (r.hi - r.lo) + (k - (r.hi - r.lo)) = new + k := by omega
      rw [hnew]
      constructor
      · rintro ⟨b, i, e1, e2⟩
        refine ⟨b, i, ?_, e2⟩
        have := h5.mapId_ge e1
        rw [side_cons]
        by_cases hc : c = b
        · subst hc
          simp only [if_true] at this
          rw [if_pos rfl, mapId_cons, if_neg (by omega)]
          exact e1
        · rw [if_neg hc]
          exact e1
      · rintro ⟨b, i, e1, e2⟩
        refine ⟨b, i, ?_, e2⟩
        rw [side_cons] at e1
        by_cases hc : c = b
        · subst hc
          rw [if_pos rfl, mapId_cons] at e1
          split at e1
          · injection e1 with e1
            omega
          · exact e1
        · rw [if_neg hc] at e1
          exact e1

theorem PlanOk.apart {n : Bool → Nat} : ∀ {plan : Plan} {new : Nat} {pos : Bool → Nat}, PlanOk n new pos plan →
    ∀ b c i j k, b ≠ c → mapId (side b plan) i = some k → mapId (side c plan) j = some k → False
  | [], _, _, _, b, c, i, j, k, _, h1, _ => by simp [side, mapId] at h1
  | (d, r) :: plan, new, pos, ⟨e1, e2, e3, e4, e5⟩, b, c, i, j, k, hbc, h1, h2 => by
    rw [side_cons] at h1 h2
    by_cases hd : d = b
    · subst hd
      rw [if_pos rfl, mapId_cons] at h1
      rw [if_neg hbc] at h2
      split at h1
      · injection h1 with h1
        have := (e5.mapId_ge h2).1
        omega
      · exact e5.apart _ _ i j k hbc h1 h2
    · rw [if_neg hd] at h1
      by_cases hc : d = c
      · subst hc
        rw [if_pos rfl, mapId_cons] at h2
        split at h2
        · injection h2 with h2
          have := (e5.mapId_ge h1).1
          omega
        · exact e5.apart _ _ i j k hbc h1 h2
      · rw [if_neg hc] at h2
        exact e5.apart _ _ i j k hbc h1 h2

theorem PlanOk.mono {n : Bool → Nat} : ∀ {plan : Plan} {new : Nat} {pos : Bool → Nat}, PlanOk n new pos plan →
    ∀ b i j x y, i < j → mapId (side b plan) i = some x → mapId (side b plan) j = some y → x < y
  | [], _, _, _, b, i, j, x, y, _, h1, _ => by simp [side, mapId] at h1
  | (d, r) :: plan, new, pos, ⟨e1, e2, e3, e4, e5⟩, b, i, j, x, y, hij, h1, h2 => by
    rw [side_cons] at h1 h2
    by_cases hd : d = b
    · subst hd
      rw [if_pos rfl, mapId_cons] at h1 h2
      split at h1
      · injection h1 with h1
        split at h2
        · injection h2 with h2
          omega
        · have := (e5.mapId_ge h2).1
          omega
      · split at h2
        · have := (e5.mapId_ge h1).2.1
          simp only [if_true] at this
          omega
        · exact e5.mono _ i j x y hij h1 h2
    · rw [if_neg hd] at h1 h2
      exact e5.mono _ i j x y hij h1 h2

/-- The number of documents of a plan. -/
def total (plan : Plan) : Nat := (plan.map (fun x => x.2.hi - x.2.lo)).sum

theorem total_cons (x : Bool × IdRange) (plan : Plan) : total (x :: plan) = (x.2.hi - x.2.lo) + total plan := rfl

theorem PlanOk.length {docs : Bool → List Doc} : ∀ {plan : Plan} {new : Nat} {pos : Bool → Nat},
    PlanOk (fun b => (docs b).length) new pos plan → (docsOf docs plan).length = total plan
  | [], _, _, _ => rfl
  | (c, r) :: plan, new, pos, ⟨h1, h2, h3, h4, h5⟩ => by
    have hd : docsOf docs ((c, r) :: plan) = cut (docs c) r ++ docsOf docs plan := rfl
    rw [hd, List.length_append, length_cut h3 h4, h5.length, total_cons]

theorem PlanOk.mapOk {n : Bool → Nat} : ∀ {plan : Plan} {new : Nat} {pos : Bool → Nat}, PlanOk n new pos plan →
    new + total plan < 2 ^ 32 → ∀ b, MapOk (side b plan) := by
  intro plan new pos h hs b
  refine ⟨(h.ranges b).1, fun g hg => ⟨((h.ranges b).2 g hg).2.1, ?_⟩⟩
  induction plan generalizing new pos with
  | nil => simp [side] at hg
  | cons x plan ih =>
    obtain ⟨c, r⟩ := x
    obtain ⟨h1, h2, h3, h4, h5⟩ := h
    rw [total_cons] at hs
    simp only at hs
    rw [side_cons] at hg
    by_cases hc : c = b
    · rw [if_pos hc] at hg
      rcases List.mem_cons.1 hg with rfl | hg
      · omega
      · exact ih h5 (by omega) hg
    · rw [if_neg hc] at hg
      exact ih h5 (by omega) hg

/-! ## The names -/

/-- What merging needs to know of the names of an index. -/
structure NView (ix : RIndex) (docs : List Doc) : Prop where
  num : names ix = docs.length
  at_ : ∀ i f, docs[i]? = some f → ix.name i = some f.1

theorem copyNames_spec {ix : RIndex} {docs : List Doc} (h : NView ix docs) {nameData : Nat} :
    ∀ (n lo : Nat) (out nif : BufWriter), lo + n ≤ docs.length → nameData ≤ out.contents.length →
    out.contents.length + (namesData (((docs.drop lo).take n).map (·.1))).length < 2 ^ 32 →
    ∃ out' nif', copyNames ix nameData n lo (out, nif) = some (out', nif') ∧
      out'.contents = out.contents ++ namesData (((docs.drop lo).take n).map (·.1)) ∧
      nif'.contents = nif.contents ++
        (nameOffs (out.contents.length - nameData) (((docs.drop lo).take n).map (·.1))).flatMap putUint32
  | 0, lo, out, nif, _, _, _ => ⟨out, nif, rfl, by simp [namesData], by simp [nameOffs]⟩
  | n + 1, lo, out, nif, hn, hd, hs => by
    have hlt : lo < docs.length := by omega
    have hdrop : ((docs.drop lo).take (n + 1)).map (·.1) =
        docs[lo].1 :: ((docs.drop (lo + 1)).take n).map (·.1) := by
      rw [List.drop_eq_getElem_cons hlt, List.take_succ_cons, List.map_cons]
    rw [hdrop] at hs ⊢
    have hnd : namesData (docs[lo].1 :: ((docs.drop (lo + 1)).take n).map (·.1)) =
        docs[lo].1 ++ [0] ++ namesData (((docs.drop (lo + 1)).take n).map (·.1)) := by simp [namesData]
    rw [hnd] at hs ⊢
    simp only [List.length_append, List.length_singleton] at hs
    rw [copyNames, h.at_ lo docs[lo] (List.getElem?_eq_getElem hlt), offset_some (by omega)]
    simp only
    obtain ⟨out', nif', e1, e2, e3⟩ := copyNames_spec h (nameData := nameData) n (lo + 1) ((out.write docs[lo].1).write [0])
      (nif.writeUint32 ((out.contents.length + 2 ^ 32 - nameData) % 2 ^ 32)) (by omega)
      (by simp; omega)
      (by simp only [BufWriter.contents_write, List.length_append, List.length_singleton]; omega)
    refine ⟨out', nif', e1, ?_, ?_⟩
    · rw [e2]; simp
    · rw [e3, nameOffs, List.flatMap_cons]
      have hm : (out.contents.length + 2 ^ 32 - nameData) % 2 ^ 32 = out.contents.length - nameData := by omega
      have hl : (((out.write docs[lo].1).write [0]).contents.length - nameData) =
          out.contents.length - nameData + (docs[lo].1.length + 1) := by
        simp; omega
      rw [hl, hm]
      simp

theorem nameLoop_spec {ix : Bool → RIndex} {docs : Bool → List Doc} (h : ∀ b, NView (ix b) (docs b)) {nameData : Nat} :
    ∀ {plan : Plan} {new : Nat} {pos : Bool → Nat} {fuel : Nat} {out nif : BufWriter},
    PlanOk (fun b => (docs b).length) new pos plan → plan.length < fuel → new + total plan < 2 ^ 32 →
    nameData ≤ out.contents.length →
    out.contents.length + (namesData ((docsOf docs plan).map (·.1))).length < 2 ^ 32 →
    ∃ out' nif', nameLoop (ix false) (ix true) nameData (new + total plan) fuel new (side false plan) (side true plan)
        (out, nif) = some (new + total plan, out', nif') ∧
      out'.contents = out.contents ++ namesData ((docsOf docs plan).map (·.1)) ∧
      nif'.contents = nif.contents ++
        (nameOffs (out.contents.length - nameData) ((docsOf docs plan).map (·.1))).flatMap putUint32
  | _, _, _, 0, _, _, _, hf, _, _, _ => by omega
  | [], new, pos, fuel + 1, out, nif, _, _, _, _, _ => by
    refine ⟨out, nif, ?_, by simp [docsOf, namesData], by simp [docsOf, nameOffs]⟩
    rw [nameLoop.eq_def]; simp only; rw [if_neg (by simp [total])]
    rfl
  | (c, r) :: plan, new, pos, fuel + 1, out, nif, ⟨h1, h2, h3, h4, h5⟩, hf, ht, hd, hs => by
    rw [total_cons] at ht ⊢
    simp only at ht ⊢
    have hdd : (docsOf docs ((c, r) :: plan)).map (·.1) = (cut (docs c) r).map (·.1) ++ (docsOf docs plan).map (·.1) := by
      show (cut (docs c) r ++ docsOf docs plan).map (·.1) = _
      rw [List.map_append]
    rw [hdd, RIndex.namesData_append, List.length_append] at hs
    obtain ⟨out1, nif1, e1, e2, e3⟩ := copyNames_spec (h c) (nameData := nameData) (r.hi - r.lo) r.lo out nif (by have : r.hi ≤ (docs c).length := h4; omega) hd
      (by show _ + (namesData ((cut (docs c) r).map (·.1))).length < _; omega)
    have e2' : out1.contents = out.contents ++ namesData ((cut (docs c) r).map (·.1)) := e2
    have e3' : nif1.contents = nif.contents ++
        (nameOffs (out.contents.length - nameData) ((cut (docs c) r).map (·.1))).flatMap putUint32 := e3
    obtain ⟨out2, nif2, f1, f2, f3⟩ := nameLoop_spec h (nameData := nameData) (fuel := fuel) (out := out1) (nif := nif1)
      h5 (by simp at hf; omega) (by omega) (by rw [e2', List.length_append]; omega)
      (by rw [e2', List.length_append]; omega)
    have hnew : new + (r.hi - r.lo + total plan) = new + (r.hi - r.lo) + total plan := by omega
    have hmod : (new + (r.hi - r.lo)) % 2 ^ 32 = new + (r.hi - r.lo) := by omega
    refine ⟨out2, nif2, ?_, ?_, ?_⟩
    · rw [nameLoop.eq_def]; simp only; rw [if_pos (by omega)]
      cases c with
      | false =>
        have s1 : side false ((false, r) :: plan) = r :: side false plan := by rw [side_cons, if_pos rfl]
        have s2 : side true ((false, r) :: plan) = side true plan := by rw [side_cons, if_neg (by decide)]
        rw [s1, s2, if_pos (by simp [h1])]
        simp only
        rw [e1]
        simp only
        rw [hmod, hnew]
        exact f1
      | true =>
        have s1 : side false ((true, r) :: plan) = side false plan := by rw [side_cons, if_neg (by decide)]
        have s2 : side true ((true, r) :: plan) = r :: side true plan := by rw [side_cons, if_pos rfl]
        rw [s1, s2, if_neg, if_pos (by simp [h1])]
        · simp only
          rw [e1]
          simp only
          rw [hmod, hnew]
          exact f1
        · intro hx
          cases hsd : side false plan with
          | nil => rw [hsd] at hx; simp at hx
          | cons g gs =>
            rw [hsd] at hx
            simp at hx
            have := ((h5.ranges false).2 g (by rw [hsd]; simp)).2.2.2
            omega
    · rw [f2, e2', hdd, RIndex.namesData_append, List.append_assoc]
    · rw [f3, e3', e2', hdd, RIndex.nameOffs_append, List.flatMap_append, List.append_assoc]
      congr 4
      rw [List.length_append]
      omega

/-! ## The first loop -/

/-- The end of the names a path shadows. -/
def lim (p : Bytes) : Bytes := (limitOf p).getD []

theorem limitOf_eq {p : Bytes} (h : p ≠ []) : limitOf p = some (lim p) := by
  unfold lim limitOf
  rw [List.getLast?_eq_some_getLast h]
  rfl

/-- The documents of the merged index. -/
def weave : List Doc → List Doc → List Bytes → List Doc
  | docs1, _, [] => docs1
  | docs1, docs2, p :: ps =>
    docs1.takeWhile (fun f => bytesLt f.1 p) ++ (docs2.takeWhile (fun f => bytesLt f.1 (lim p)) ++
      weave ((docs1.dropWhile (fun f => bytesLt f.1 p)).dropWhile (fun f => bytesLt f.1 (lim p)))
        (docs2.dropWhile (fun f => bytesLt f.1 (lim p))) ps)

/-- The second index has no document that none of its paths accounts for. -/
def Fits : List Doc → List Bytes → Prop
  | docs2, [] => docs2 = []
  | docs2, p :: ps => (∀ f, docs2.head? = some f → bytesLt f.1 p = false) ∧
      Fits (docs2.dropWhile (fun f => bytesLt f.1 (lim p))) ps

theorem skip_spec {ix : RIndex} {docs : List Doc} (h : NView ix docs) (bound : Bytes) : ∀ (n i : Nat),
    i + n = docs.length →
    skip ix bound n i = some (i + ((docs.drop i).takeWhile (fun f => bytesLt f.1 bound)).length)
  | 0, i, hi => by
    rw [List.drop_eq_nil_of_le (by omega)]
    rfl
  | n + 1, i, hi => by
    have hlt : i < docs.length := by omega
    rw [skip, h.at_ i docs[i] (List.getElem?_eq_getElem hlt), List.drop_eq_getElem_cons hlt, List.takeWhile_cons]
    simp only
    by_cases hb : bytesLt docs[i].1 bound = true
    · rw [if_pos hb, if_pos hb, skip_spec h bound n (i + 1) (by omega), List.length_cons]
      congr 1
      omega
    · rw [if_neg hb, if_neg hb]
      rfl

theorem drop_takeWhile {α : Type} (p : α → Bool) (l : List α) : l.drop (l.takeWhile p).length = l.dropWhile p := by
  induction l with
  | nil => rfl
  | cons x l ih =>
    rw [List.takeWhile_cons, List.dropWhile_cons]
    split
    · simpa using ih
    · rfl

theorem take_takeWhile {α : Type} (p : α → Bool) (l : List α) : l.take (l.takeWhile p).length = l.takeWhile p := by
  induction l with
  | nil => rfl
  | cons x l ih =>
    rw [List.takeWhile_cons]
    split
    · simpa using ih
    · rfl

/-- A range, if it is not empty. -/
def piece (b : Bool) (lo hi new : Nat) : Plan := if lo < hi then [(b, ⟨lo, hi, new⟩)] else []

theorem addRange_spec {m : List IdRange} {new lo hi : Nat} (b : Bool) (hle : lo ≤ hi) (hs : new + (hi - lo) < 2 ^ 32) :
    addRange m new lo hi = (m ++ side b (piece b lo hi new), new + (hi - lo)) := by
  unfold addRange piece
  by_cases h : lo < hi
  · rw [if_pos h, if_pos h, side_cons, if_pos rfl, Nat.mod_eq_of_lt hs]
    rfl
  · rw [if_neg h, if_neg h]
    simp [side]
    omega

theorem side_piece_ne {b c : Bool} (h : c ≠ b) (lo hi new : Nat) : side b (piece c lo hi new) = [] := by
  unfold piece
  split
  · rw [side_cons, if_neg h]; rfl
  · rfl

theorem docsOf_append (docs : Bool → List Doc) (p q : Plan) : docsOf docs (p ++ q) = docsOf docs p ++ docsOf docs q := by
  unfold docsOf; rw [List.flatMap_append]

theorem docsOf_piece (docs : Bool → List Doc) (b : Bool) {lo n new : Nat} :
    docsOf docs (piece b lo (lo + n) new) = ((docs b).drop lo).take n := by
  unfold piece
  by_cases h : lo < lo + n
  · rw [if_pos h]
    show cut (docs b) ⟨lo, lo + n, new⟩ ++ [] = _
    rw [List.append_nil, cut]
    simp
  · rw [if_neg h]
    have : n = 0 := by omega
    subst this
    simp [docsOf]

theorem total_append (p q : Plan) : total (p ++ q) = total p + total q := by
  unfold total; rw [List.map_append, List.sum_append]

theorem total_piece (b : Bool) {lo hi new : Nat} (h : lo ≤ hi) : total (piece b lo hi new) = hi - lo := by
  unfold piece
  split
  · simp [total]
  · simp [total]; omega

theorem PlanOk.piece {n : Bool → Nat} {plan : Plan} {b : Bool} {lo hi new : Nat} {pos : Bool → Nat}
    (h : PlanOk n (new + (hi - lo)) (fun c => if c = b then hi else pos c) plan) (h1 : pos b ≤ lo) (h2 : lo ≤ hi)
    (h3 : hi ≤ n b) : PlanOk n new pos (Merge.piece b lo hi new ++ plan) := by
  unfold Merge.piece
  by_cases hlt : lo < hi
  · rw [if_pos hlt]
    exact ⟨rfl, h1, hlt, h3, h⟩
  · rw [if_neg hlt]
    have : new + (hi - lo) = new := by omega
    rw [this] at h
    refine h.weaken (fun c => ?_)
    by_cases hc : c = b
    · subst hc; simp; omega
    · rw [if_neg hc]; exact Nat.le_refl _

/-- codesearch/index/merge.go:98-105, the end of `docMaps`. -/
def finish (ix1 ix2 : RIndex) (st : Maps) : Option (List IdRange × List IdRange × Nat) :=
  let r1 := addRange st.map1 st.new st.i1 (names ix1)
  if st.i2 < names ix2 then none else some (r1.1, st.map2, r1.2)

theorem docMaps_eq (ix1 ix2 : RIndex) (paths2 : List Bytes) :
    docMaps ix1 ix2 paths2 = (mapLoop ix1 ix2 paths2 ⟨0, 0, 0, [], []⟩).bind (finish ix1 ix2) := by
  unfold docMaps finish
  cases mapLoop ix1 ix2 paths2 ⟨0, 0, 0, [], []⟩ <;> rfl

theorem mapLoop_spec {ix : Bool → RIndex} {docs : Bool → List Doc} (h : ∀ b, NView (ix b) (docs b)) :
    ∀ (paths : List Bytes) (st : Maps), (∀ p ∈ paths, p ≠ []) → st.i1 ≤ (docs false).length →
    st.i2 ≤ (docs true).length →
    st.new + ((docs false).length - st.i1) + ((docs true).length - st.i2) < 2 ^ 32 →
    Fits ((docs true).drop st.i2) paths →
    ∃ plan, (mapLoop (ix false) (ix true) paths st).bind (finish (ix false) (ix true)) =
        some (st.map1 ++ side false plan, st.map2 ++ side true plan, st.new + total plan) ∧
      PlanOk (fun b => (docs b).length) st.new (fun b => if b = true then st.i2 else st.i1) plan ∧
      docsOf docs plan = weave ((docs false).drop st.i1) ((docs true).drop st.i2) paths ∧
      total plan ≤ ((docs false).length - st.i1) + ((docs true).length - st.i2)
  | [], st, _, h1, h2, h3, h4 => by
    have hnil : (docs true).drop st.i2 = [] := h4
    have hlen : (docs true).length ≤ st.i2 := List.drop_eq_nil_iff.1 hnil
    refine ⟨piece false st.i1 (docs false).length st.new, ?_, ?_, ?_, ?_⟩
    · rw [mapLoop, Option.bind_some, finish]
      rw [(h false).num, (h true).num, addRange_spec false h1 (by omega), if_neg (by omega),
        side_piece_ne (b := true) (c := false) (by decide), List.append_nil, total_piece false h1]
    · have := PlanOk.piece (n := fun b => (docs b).length) (plan := []) (b := false) (lo := st.i1) (hi := (docs false).length)
        (new := st.new) (pos := fun b => if b = true then st.i2 else st.i1) trivial (by simp) h1 (Nat.le_refl _)
      rwa [List.append_nil] at this
    · have : (docs false).length = st.i1 + ((docs false).length - st.i1) := by omega
      rw [this, docsOf_piece, weave]
      rw [List.take_of_length_le (by rw [List.length_drop]; omega)]
    · rw [total_piece false h1]; omega
  | p :: ps, st, hp, h1, h2, h3, h4 => by
    obtain ⟨k1, k2⟩ := h4
    have hpne := hp p (by simp)
    -- abbreviations
    generalize ha : ((docs false).drop st.i1).takeWhile (fun f => bytesLt f.1 p) = A
    generalize hb : (((docs false).drop st.i1).dropWhile (fun f => bytesLt f.1 p)).takeWhile (fun f => bytesLt f.1 (lim p)) = B
    generalize hc : ((docs true).drop st.i2).takeWhile (fun f => bytesLt f.1 (lim p)) = C
    have hla : A.length ≤ (docs false).length - st.i1 := by
      rw [← ha, ← List.length_drop]; exact (List.takeWhile_sublist _).length_le
    have hdropA : (docs false).drop (st.i1 + A.length) = ((docs false).drop st.i1).dropWhile (fun f => bytesLt f.1 p) := by
      rw [← List.drop_drop, ← ha, drop_takeWhile]
    have hlb : B.length ≤ (docs false).length - (st.i1 + A.length) := by
      rw [← hb, ← hdropA, ← List.length_drop]; exact (List.takeWhile_sublist _).length_le
    have hlc : C.length ≤ (docs true).length - st.i2 := by
      rw [← hc, ← List.length_drop]; exact (List.takeWhile_sublist _).length_le
    have hdropB : (docs false).drop (st.i1 + A.length + B.length) =
        (((docs false).drop st.i1).dropWhile (fun f => bytesLt f.1 p)).dropWhile (fun f => bytesLt f.1 (lim p)) := by
      rw [← List.drop_drop, hdropA, ← hb, drop_takeWhile]
    have hdropC : (docs true).drop (st.i2 + C.length) = ((docs true).drop st.i2).dropWhile (fun f => bytesLt f.1 (lim p)) := by
      rw [← List.drop_drop, ← hc, drop_takeWhile]
    have hbad : (if st.i2 < names (ix true) then ((ix true).name st.i2).map (fun n => bytesLt n p) else some false) =
        some false := by
      rw [(h true).num]
      by_cases hlt : st.i2 < (docs true).length
      · rw [if_pos hlt, (h true).at_ st.i2 (docs true)[st.i2] (List.getElem?_eq_getElem hlt), Option.map_some,
          k1 (docs true)[st.i2] (by rw [List.drop_eq_getElem_cons hlt]; rfl)]
      · rw [if_neg hlt]
    have hstep : mapStep (ix false) (ix true) st p = some
        ⟨st.i1 + A.length + B.length, st.i2 + C.length, st.new + A.length + C.length,
          st.map1 ++ side false (piece false st.i1 (st.i1 + A.length) st.new),
          st.map2 ++ side true (piece true st.i2 (st.i2 + C.length) (st.new + A.length))⟩ := by
      unfold mapStep
      rw [(h false).num, skip_spec (h false) p _ st.i1 (by omega), ha]
      simp only
      rw [limitOf_eq hpne]
      simp only
      rw [skip_spec (h false) (lim p) _ (st.i1 + A.length) (by omega), hdropA, hb]
      simp only
      rw [hbad]
      simp only
      rw [(h true).num, skip_spec (h true) (lim p) _ st.i2 (by omega), hc]
      simp only
      rw [addRange_spec false (show st.i1 ≤ st.i1 + A.length by omega) (by omega)]
      simp only [Nat.add_sub_cancel_left]
      rw [addRange_spec true (show st.i2 ≤ st.i2 + C.length by omega) (by omega)]
      simp only [Nat.add_sub_cancel_left]
    obtain ⟨plan, e1, e2, e3, e4⟩ := mapLoop_spec h ps
      ⟨st.i1 + A.length + B.length, st.i2 + C.length, st.new + A.length + C.length,
          st.map1 ++ side false (piece false st.i1 (st.i1 + A.length) st.new),
          st.map2 ++ side true (piece true st.i2 (st.i2 + C.length) (st.new + A.length))⟩
      (fun q hq => hp q (by simp [hq])) (by simp only; omega) (by simp only; omega) (by simp only; omega)
      (by rw [hdropC]; exact k2)
    simp only at e1 e2 e3 e4
    refine ⟨piece false st.i1 (st.i1 + A.length) st.new ++ (piece true st.i2 (st.i2 + C.length) (st.new + A.length) ++ plan),
      ?_, ?_, ?_, ?_⟩
    · rw [mapLoop, hstep]
      simp only
      rw [e1, side_append, side_append, side_append, side_append, side_piece_ne (b := false) (c := true) (by decide),
        side_piece_ne (b := true) (c := false) (by decide), total_append, total_append,
        total_piece false (by omega), total_piece true (by omega)]
      simp only [List.nil_append, List.append_assoc, Option.some.injEq, Prod.mk.injEq, true_and]
      omega
    · refine PlanOk.piece (b := false) ?_ (by simp) (by omega) (by omega)
      have hn' : st.new + (st.i1 + A.length - st.i1) = st.new + A.length := by omega
      rw [hn']
      refine PlanOk.piece (b := true) ?_ (by simp) (by omega) (by omega)
      rw [show st.new + A.length + (st.i2 + C.length - st.i2) = st.new + A.length + C.length by omega]
      refine e2.weaken (fun b => ?_)
      cases b
      · simp
      · simp
    · rw [docsOf_append, docsOf_append, docsOf_piece, docsOf_piece, e3, weave, hdropB, hdropC, ha, hc, ← ha, take_takeWhile,
        ha, ← hc, take_takeWhile, hc]
    · rw [total_append, total_append, total_piece false (by omega), total_piece true (by omega)]
      omega

theorem docMaps_spec {ix : Bool → RIndex} {docs : Bool → List Doc} (h : ∀ b, NView (ix b) (docs b)) {paths : List Bytes}
    (hp : ∀ p ∈ paths, p ≠ []) (hn : (docs false).length + (docs true).length < 2 ^ 32) (hf : Fits (docs true) paths) :
    ∃ plan, docMaps (ix false) (ix true) paths = some (side false plan, side true plan, total plan) ∧
      PlanOk (fun b => (docs b).length) 0 (fun _ => 0) plan ∧ docsOf docs plan = weave (docs false) (docs true) paths ∧
      total plan < 2 ^ 32 := by
  rw [docMaps_eq]
  obtain ⟨plan, e1, e2, e3, e4⟩ := mapLoop_spec h paths ⟨0, 0, 0, [], []⟩ hp (Nat.zero_le _) (Nat.zero_le _)
    (by simp only; omega) hf
  refine ⟨plan, ?_, ?_, e3, ?_⟩
  · rw [e1]
    simp
  · exact e2.weaken (fun b => Nat.zero_le _)
  · simp only at e4
    omega

end Merge
end Hound
