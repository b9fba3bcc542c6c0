import Verif.Proofs.MergeFile
import Verif.Proofs.Vcs
import Verif.Spec.Merge

namespace Hound
namespace Merge
open Spec

/-! ## The order of byte strings -/

theorem bytesLt_iff (a b : Bytes) : bytesLt a b = true ↔ a < b := by
  induction a generalizing b with
  | nil => cases b <;> simp [bytesLt]
  | cons x a ih =>
    cases b with
    | nil => simp [bytesLt]
    | cons y b =>
      rw [bytesLt, List.cons_lt_cons_iff, ← ih]
      by_cases h1 : x < y
      · simp [h1]
      · by_cases h2 : y < x
        · have : x ≠ y := by intro h; subst h; exact h1 h2
          simp [h1, h2, this]
        · have : x = y := UInt8.le_antisymm (UInt8.not_lt.1 h2) (UInt8.not_lt.1 h1)
          simp [h1, this]

theorem bytesLt_false (a b : Bytes) : bytesLt a b = false ↔ ¬ a < b := by
  rw [← bytesLt_iff]; simp

theorem lt_irr (a : Bytes) : ¬ a < a := by
  intro h
  have := (bytesLt_iff a a).2 h
  rw [Vcs.bytesLt_asymm a a this] at this
  simp at this

theorem lt_tr {a b c : Bytes} (h1 : a < b) (h2 : b < c) : a < c :=
  (bytesLt_iff a c).1 (Vcs.bytesLt_trans a b c ((bytesLt_iff a b).2 h1) ((bytesLt_iff b c).2 h2))

theorem lt_cases (a b : Bytes) : a < b ∨ a = b ∨ b < a := by
  cases h1 : bytesLt a b with
  | true => exact Or.inl ((bytesLt_iff a b).1 h1)
  | false =>
    cases h2 : bytesLt b a with
    | true => exact Or.inr (Or.inr ((bytesLt_iff b a).1 h2))
    | false => exact Or.inr (Or.inl (Vcs.bytesLt_trichotomy a b h1 h2))

theorem not_lt_of_lt {a b : Bytes} (h : a < b) : ¬ b < a := fun h' => lt_irr a (lt_tr h h')

/-- `a ≤ b`. -/
def Le (a b : Bytes) : Prop := ¬ b < a

theorem Le.trans {a b c : Bytes} (h1 : Le a b) (h2 : Le b c) : Le a c := by
  intro h
  rcases lt_cases b c with h3 | rfl | h3
  · exact h1 (lt_tr h3 h)
  · exact h1 h
  · exact h2 h3

theorem Le.lt {a b c : Bytes} (h1 : Le a b) (h2 : b < c) : a < c := by
  rcases lt_cases a b with h3 | rfl | h3
  · exact lt_tr h3 h2
  · exact h2
  · exact absurd h3 h1

theorem lt_le {a b c : Bytes} (h1 : a < b) (h2 : Le b c) : a < c := by
  rcases lt_cases b c with h3 | rfl | h3
  · exact lt_tr h1 h3
  · exact h1
  · exact absurd h3 h2

theorem le_of_lt {a b : Bytes} (h : a < b) : Le a b := not_lt_of_lt h

theorem Le.antisymm {a b : Bytes} (h1 : Le a b) (h2 : Le b a) : a = b := by
  rcases lt_cases a b with h | h | h
  · exact absurd h h2
  · exact h
  · exact absurd h h1

theorem le_of_prefix : ∀ {p n : Bytes}, p <+: n → Le p n
  | [], n, _, h => by cases n <;> simp at h
  | x :: p, n, hp, h => by
    obtain ⟨r, rfl⟩ := hp
    rw [List.cons_append, List.cons_lt_cons_iff] at h
    rcases h with h | ⟨_, h⟩
    · exact UInt8.lt_irrefl x h
    · exact le_of_prefix (List.prefix_append p r) h

/-- What lies between a string and one that begins with it begins with it. -/
theorem prefix_between : ∀ {a b c : Bytes}, a <+: c → Le a b → Le b c → a <+: b
  | [], b, _, _, _, _ => List.nil_prefix
  | x :: a, b, c, hp, h1, h2 => by
    obtain ⟨r, rfl⟩ := hp
    cases b with
    | nil => exact absurd (by simp) h1
    | cons y b =>
      unfold Le at h1 h2
      rw [List.cons_append] at h2
      rw [List.cons_lt_cons_iff, not_or, not_and] at h1 h2
      have hxy : y = x := UInt8.le_antisymm (UInt8.not_lt.1 h2.1) (UInt8.not_lt.1 h1.1)
      subst hxy
      have := prefix_between (List.prefix_append a r) (h1.2 rfl) (h2.2 rfl)
      exact List.cons_prefix_cons.2 ⟨rfl, this⟩

/-! ## The end of the names a path shadows -/

theorem lim_ascii (q : Bytes) {c : UInt8} (hc : c < 0x7F) : lim (q ++ [c]) = q ++ [c + 1] := by
  unfold lim limitOf
  rw [List.getLast?_concat]
  have h1 : (c + 1).toNat = c.toNat + 1 := by
    have : c.toNat < 127 := UInt8.lt_iff_toNat_lt.1 hc
    rw [UInt8.toNat_add]
    simp
    omega
  have h2 : c.toNat + 1 < 128 := by
    have : c.toNat < 127 := UInt8.lt_iff_toNat_lt.1 hc
    omega
  have h3 : encodeRune (c.toNat + 1) = [c + 1] := by
    unfold encodeRune
    rw [if_pos (show validRune (c.toNat + 1) = true by
      unfold validRune; rw [Bool.or_eq_true, decide_eq_true_eq]; exact Or.inl (Nat.lt_trans h2 (by decide)))]
    unfold encodeRaw
    rw [if_pos (by omega)]
    congr 1
  simp only [Option.getD_some, List.dropLast_concat]
  rw [h1, h3]

theorem succ_gt {c : UInt8} (hc : c < 0x7F) : c < c + 1 := by
  have h : c.toNat < 127 := UInt8.lt_iff_toNat_lt.1 hc
  rw [UInt8.lt_iff_toNat_lt, UInt8.toNat_add]
  simp
  omega

theorem lt_succ {a c : UInt8} (hc : c < 0x7F) : a < c + 1 ↔ a ≤ c := by
  have h : c.toNat < 127 := UInt8.lt_iff_toNat_lt.1 hc
  rw [UInt8.lt_iff_toNat_lt, UInt8.toNat_add, UInt8.le_iff_toNat_le]
  simp
  omega

/-- From the path on, the names before the limit are those that begin with the path. -/
theorem below_limit : ∀ (q : Bytes) {c : UInt8} {n : Bytes}, c < 0x7F → Le (q ++ [c]) n →
    (n < q ++ [c + 1] ↔ (q ++ [c]) <+: n)
  | [], c, n, hc, hle => by
    cases n with
    | nil => exact absurd (by simp) hle
    | cons y n =>
      unfold Le at hle
      rw [List.nil_append, List.cons_lt_cons_iff, not_or] at hle
      rw [List.nil_append, List.nil_append, List.cons_lt_cons_iff, List.cons_prefix_cons, lt_succ hc]
      constructor
      · rintro (h | ⟨_, h⟩)
        · exact ⟨UInt8.le_antisymm (UInt8.not_lt.1 hle.1) h, List.nil_prefix⟩
        · simp at h
      · rintro ⟨rfl, _⟩
        exact Or.inl (UInt8.le_refl _)
  | x :: q, c, n, hc, hle => by
    cases n with
    | nil => exact absurd (by simp) hle
    | cons y n =>
      unfold Le at hle
      rw [List.cons_append, List.cons_lt_cons_iff, not_or, not_and] at hle
      rw [List.cons_append, List.cons_append, List.cons_lt_cons_iff, List.cons_prefix_cons]
      have hxy := hle.1
      constructor
      · rintro (h | ⟨rfl, h⟩)
        · exact absurd h hxy
        · exact ⟨rfl, (below_limit q hc (hle.2 rfl)).1 h⟩
      · rintro ⟨rfl, h⟩
        exact Or.inr ⟨rfl, (below_limit q hc (hle.2 rfl)).2 h⟩

/-- A path that ends in an ASCII character other than DEL. -/
def Ascii (p : Bytes) : Prop := ∃ q c, p = q ++ [c] ∧ c < 0x7F

theorem Ascii.below {p n : Bytes} (h : Ascii p) (hle : Le p n) : n < lim p ↔ p <+: n := by
  obtain ⟨q, c, rfl, hc⟩ := h
  rw [lim_ascii q hc]
  exact below_limit q hc hle

theorem Ascii.lt_lim {p : Bytes} (h : Ascii p) : p < lim p :=
  (h.below (lt_irr p)).2 (List.prefix_refl p)

/-! ## The documents -/

theorem dropWhile_lt_mem {docs : List Doc} (h : docs.Pairwise (fun d e => d.1 < e.1)) (b : Bytes) (d : Doc) :
    d ∈ docs.dropWhile (fun f => bytesLt f.1 b) ↔ d ∈ docs ∧ Le b d.1 := by
  induction docs with
  | nil => simp
  | cons x docs ih =>
    obtain ⟨h1, h2⟩ := List.pairwise_cons.1 h
    rw [List.dropWhile_cons]
    by_cases hx : bytesLt x.1 b = true
    · rw [if_pos hx, ih h2, List.mem_cons]
      constructor
      · rintro ⟨k1, k2⟩; exact ⟨Or.inr k1, k2⟩
      · rintro ⟨rfl | k1, k2⟩
        · exact absurd ((bytesLt_iff _ _).1 hx) k2
        · exact ⟨k1, k2⟩
    · rw [if_neg hx]
      have hx' : Le b x.1 := fun hlt => hx ((bytesLt_iff _ _).2 hlt)
      constructor
      · intro hd
        refine ⟨hd, ?_⟩
        rcases List.mem_cons.1 hd with rfl | hd
        · exact hx'
        · exact hx'.trans (le_of_lt (h1 d hd))
      · exact fun hd => hd.1

theorem takeWhile_lt_mem {docs : List Doc} (h : docs.Pairwise (fun d e => d.1 < e.1)) (b : Bytes) (d : Doc) :
    d ∈ docs.takeWhile (fun f => bytesLt f.1 b) ↔ d ∈ docs ∧ d.1 < b := by
  induction docs with
  | nil => simp
  | cons x docs ih =>
    obtain ⟨h1, h2⟩ := List.pairwise_cons.1 h
    rw [List.takeWhile_cons]
    by_cases hx : bytesLt x.1 b = true
    · rw [if_pos hx, List.mem_cons, ih h2, List.mem_cons]
      constructor
      · rintro (rfl | ⟨k1, k2⟩)
        · exact ⟨Or.inl rfl, (bytesLt_iff _ _).1 hx⟩
        · exact ⟨Or.inr k1, k2⟩
      · rintro ⟨rfl | k1, k2⟩
        · exact Or.inl rfl
        · exact Or.inr ⟨k1, k2⟩
    · rw [if_neg hx]
      have hx' : Le b x.1 := fun hlt => hx ((bytesLt_iff _ _).2 hlt)
      constructor
      · simp
      · rintro ⟨hd, hlt⟩
        rcases List.mem_cons.1 hd with rfl | hd
        · exact absurd hlt hx'
        · exact absurd (lt_tr (h1 d hd) hlt) hx'

theorem le_of_weak {p q : Bytes} (h : p < q ∨ p = q) : Le p q := by
  rcases h with h | rfl
  · exact le_of_lt h
  · exact lt_irr p

theorem weave_spec : ∀ (paths : List Bytes) (docs1 docs2 : List Doc), docs1.Pairwise (fun d e => d.1 < e.1) →
    docs2.Pairwise (fun d e => d.1 < e.1) → paths.Pairwise (fun p q => p < q ∨ p = q) → (∀ p ∈ paths, Ascii p) →
    Covered paths docs2 → MergedDocs docs1 docs2 paths (weave docs1 docs2 paths) ∧ Fits docs2 paths
  | [], docs1, docs2, h1, h2, _, _, hc => by
    have hnil : docs2 = [] := by
      cases docs2 with
      | nil => rfl
      | cons d docs2 =>
        obtain ⟨p, hp, _⟩ := hc d (by simp)
        simp at hp
    subst hnil
    exact ⟨⟨h1, fun d => by simp [weave]⟩, rfl⟩
  | p :: ps, docs1, docs2, h1, h2, hp, ha, hc => by
    obtain ⟨hp1, hp2⟩ := List.pairwise_cons.1 hp
    have hap := ha p (by simp)
    have hmin : ∀ q ∈ p :: ps, Le p q := by
      intro q hq
      rcases List.mem_cons.1 hq with rfl | hq
      · exact lt_irr q
      · exact le_of_weak (hp1 q hq)
    have hge : ∀ d ∈ docs2, Le p d.1 := by
      intro d hd
      obtain ⟨q, hq, hqd⟩ := hc d hd
      exact (hmin q hq).trans (le_of_prefix hqd)
    generalize hd1 : (docs1.dropWhile (fun f => bytesLt f.1 p)).dropWhile (fun f => bytesLt f.1 (lim p)) = r1
    generalize hd2 : docs2.dropWhile (fun f => bytesLt f.1 (lim p)) = r2
    have s1 : (docs1.dropWhile (fun f => bytesLt f.1 p)).Pairwise (fun d e => d.1 < e.1) :=
      h1.sublist (List.dropWhile_sublist _)
    have m1 : ∀ d, d ∈ r1 ↔ d ∈ docs1 ∧ Le (lim p) d.1 := by
      intro d
      rw [← hd1, dropWhile_lt_mem s1, dropWhile_lt_mem h1]
      constructor
      · rintro ⟨⟨x, _⟩, y⟩; exact ⟨x, y⟩
      · rintro ⟨x, y⟩; exact ⟨⟨x, (le_of_lt hap.lt_lim).trans y⟩, y⟩
    have m2 : ∀ d, d ∈ r2 ↔ d ∈ docs2 ∧ Le (lim p) d.1 := by
      intro d
      rw [← hd2, dropWhile_lt_mem h2]
    have t1 : r1.Pairwise (fun d e => d.1 < e.1) := by rw [← hd1]; exact s1.sublist (List.dropWhile_sublist _)
    have t2 : r2.Pairwise (fun d e => d.1 < e.1) := by rw [← hd2]; exact h2.sublist (List.dropWhile_sublist _)
    have c2 : Covered ps r2 := by
      intro d hd
      obtain ⟨x, y⟩ := (m2 d).1 hd
      obtain ⟨q, hq, hqd⟩ := hc d x
      rcases List.mem_cons.1 hq with rfl | hq
      · exact absurd ((hap.below (hge d x)).2 hqd) y
      · exact ⟨q, hq, hqd⟩
    obtain ⟨⟨w1, w2⟩, w3⟩ := weave_spec ps r1 r2 t1 t2 hp2 (fun q hq => ha q (by simp [hq])) c2
    have hrest : ∀ d ∈ weave r1 r2 ps, Le (lim p) d.1 := by
      intro d hd
      rcases mem_weave hd with hd | hd
      · exact ((m1 d).1 hd).2
      · exact ((m2 d).1 hd).2
    refine ⟨⟨?_, ?_⟩, ?_, ?_⟩
    · rw [weave, hd1, hd2, List.pairwise_append, List.pairwise_append]
      refine ⟨h1.sublist (List.takeWhile_sublist _), ⟨h2.sublist (List.takeWhile_sublist _), w1, ?_⟩, ?_⟩
      · intro d hd e he
        exact lt_le ((takeWhile_lt_mem h2 _ d).1 hd).2 (hrest e he)
      · intro d hd e he
        have hdp := ((takeWhile_lt_mem h1 _ d).1 hd).2
        rcases List.mem_append.1 he with he | he
        · exact lt_le hdp (hge e ((takeWhile_lt_mem h2 _ e).1 he).1)
        · exact lt_le hdp ((le_of_lt hap.lt_lim).trans (hrest e he))
    · intro d
      rw [weave, hd1, hd2, List.mem_append, List.mem_append, takeWhile_lt_mem h1, takeWhile_lt_mem h2, w2, m1, m2]
      constructor
      · rintro (⟨x, y⟩ | ⟨x, y⟩ | ⟨⟨x, y⟩, z⟩ | ⟨x, y⟩)
        · exact Or.inl ⟨x, fun q hq hqd => (hmin q hq).trans (le_of_prefix hqd) y⟩
        · exact Or.inr x
        · refine Or.inl ⟨x, fun q hq hqd => ?_⟩
          rcases List.mem_cons.1 hq with rfl | hq
          · exact y ((hap.below (le_of_prefix hqd)).2 hqd)
          · exact z q hq hqd
        · exact Or.inr x
      · rintro (⟨x, y⟩ | x)
        · rcases lt_cases d.1 p with hlt | heq | hgt
          · exact Or.inl ⟨x, hlt⟩
          · exact absurd (by rw [heq]; exact List.prefix_refl p) (y p (by simp))
          · refine Or.inr (Or.inr (Or.inl ⟨⟨x, fun hl => y p (by simp) ((hap.below (le_of_lt hgt)).1 hl)⟩, fun q hq => y q (by simp [hq])⟩))
        · by_cases hlt : d.1 < lim p
          · exact Or.inr (Or.inl ⟨x, hlt⟩)
          · exact Or.inr (Or.inr (Or.inr ⟨x, hlt⟩))
    · intro f hf
      rw [bytesLt_false]
      exact hge f (List.mem_of_mem_head? (by rw [hf]; simp))
    · rw [hd2]
      exact w3

/-! ## The paths -/

theorem keepPaths_spec : ∀ (ps : List Bytes) (last : Bytes), ps.Pairwise Le → (∀ p ∈ ps, Le last p) →
    (keepPaths last ps).Pairwise (fun p q => p < q) ∧
    ∀ p, p ∈ keepPaths last ps ↔ p ∈ ps ∧ ¬ last <+: p ∧ ∀ q ∈ ps, q <+: p → q = p
  | [], last, _, _ => ⟨by simp [keepPaths], by simp [keepPaths]⟩
  | x :: ps, last, hs, hl => by
    obtain ⟨h1, h2⟩ := List.pairwise_cons.1 hs
    have hlx := hl x (by simp)
    rw [keepPaths]
    by_cases hx : last.isPrefixOf x = true
    · rw [if_pos hx]
      rw [List.isPrefixOf_iff_prefix] at hx
      obtain ⟨i1, i2⟩ := keepPaths_spec ps last h2 (fun p hp => hl p (by simp [hp]))
      refine ⟨i1, fun p => ?_⟩
      rw [i2]
      constructor
      · rintro ⟨a, b, c⟩
        refine ⟨by simp [a], b, fun q hq hqp => ?_⟩
        rcases List.mem_cons.1 hq with rfl | hq
        · exact absurd (hx.trans hqp) b
        · exact c q hq hqp
      · rintro ⟨a, b, c⟩
        rcases List.mem_cons.1 a with rfl | a
        · exact absurd hx b
        · exact ⟨a, b, fun q hq => c q (by simp [hq])⟩
    · rw [if_neg hx]
      rw [List.isPrefixOf_iff_prefix] at hx
      obtain ⟨i1, i2⟩ := keepPaths_spec ps x h2 h1
      refine ⟨List.pairwise_cons.2 ⟨fun p hp => ?_, i1⟩, fun p => ?_⟩
      · obtain ⟨a, b, _⟩ := (i2 p).1 hp
        rcases lt_cases x p with h | rfl | h
        · exact h
        · exact absurd (List.prefix_refl x) b
        · exact absurd h (h1 p a)
      · rw [List.mem_cons, i2]
        by_cases hpx : p = x
        · subst hpx
          refine ⟨fun _ => ⟨by simp, hx, fun q hq hqp => ?_⟩, fun _ => Or.inl rfl⟩
          rcases List.mem_cons.1 hq with rfl | hq
          · rfl
          · exact (le_of_prefix hqp).antisymm (h1 q hq)
        · constructor
          · rintro (h | ⟨a, b, c⟩)
            · exact absurd h hpx
            · refine ⟨by simp [a], fun hlp => hx (prefix_between hlp hlx (h1 p a)), fun q hq hqp => ?_⟩
              rcases List.mem_cons.1 hq with rfl | hq
              · exact absurd hqp b
              · exact c q hq hqp
          · rintro ⟨a, b, c⟩
            rcases List.mem_cons.1 a with h | a
            · exact absurd h hpx
            · exact Or.inr ⟨a, fun hxp => hpx (c x (by simp) hxp).symm, fun q hq => c q (by simp [hq])⟩

theorem allPaths_sorted {ps qs : List Bytes} (h1 : ps.Pairwise Le) (h2 : qs.Pairwise Le) : (allPaths ps qs).Pairwise Le := by
  unfold allPaths
  have := List.pairwise_merge (le := fun a b : Bytes => !bytesLt b a) (l₁ := ps) (l₂ := qs) ?_ ?_ ?_ ?_
  · refine this.imp (fun {a b} h => ?_)
    intro hlt
    simp [(bytesLt_iff b a).2 hlt] at h
  · intro a b c hab hbc
    simp only [Bool.not_eq_true', bytesLt_false] at *
    exact Le.trans hab hbc
  · intro a b
    by_cases h : b < a
    · have : bytesLt a b = false := (bytesLt_false _ _).2 (not_lt_of_lt h)
      simp [this]
    · have : bytesLt b a = false := (bytesLt_false _ _).2 h
      simp [this]
  · exact h1.imp (fun {a b} h => by rw [(bytesLt_false b a).2 h]; rfl)
  · exact h2.imp (fun {a b} h => by rw [(bytesLt_false b a).2 h]; rfl)

theorem mergedPaths_keep {ps qs : List Bytes} (h1 : ps.Pairwise (fun p q => p < q ∨ p = q))
    (h2 : qs.Pairwise (fun p q => p < q ∨ p = q)) (hn : ∀ p, p ∈ ps ∨ p ∈ qs → p ≠ [] ∧ (0 : UInt8) ∉ p) :
    MergedPaths ps qs (keepPaths [0] (allPaths ps qs)) := by
  have hz : ∀ p ∈ allPaths ps qs, Le [0] p ∧ ¬ ([0] : Bytes) <+: p := by
    intro p hp
    obtain ⟨a, b⟩ := hn p (mem_allPaths.1 hp)
    cases p with
    | nil => exact absurd rfl a
    | cons x p =>
      refine ⟨?_, ?_⟩
      · unfold Le
        rw [List.cons_lt_cons_iff]
        rintro (h | ⟨_, h⟩)
        · exact absurd h (UInt8.not_lt.2 (UInt8.zero_le))
        · simp at h
      · rw [List.cons_prefix_cons]
        rintro ⟨rfl, _⟩
        simp at b
  obtain ⟨k1, k2⟩ := keepPaths_spec (allPaths ps qs) [0]
    (allPaths_sorted (h1.imp le_of_weak) (h2.imp le_of_weak)) (fun p hp => (hz p hp).1)
  refine ⟨k1, fun p => ?_⟩
  rw [k2, mem_allPaths]
  constructor
  · rintro ⟨a, _, c⟩
    exact ⟨a, fun q hq => c q (mem_allPaths.2 hq)⟩
  · rintro ⟨a, c⟩
    exact ⟨a, (hz p (mem_allPaths.2 a)).2, fun q hq => c q (mem_allPaths.1 hq)⟩

/-! ## Uniqueness -/

theorem mergedDocs_unique {docs1 docs2 a b : List Doc} {paths : List Bytes} (ha : MergedDocs docs1 docs2 paths a)
    (hb : MergedDocs docs1 docs2 paths b) : a = b := by
  have key : ∀ {l : List Doc}, l.Pairwise (fun d e => d.1 < e.1) → l.Nodup := fun h =>
    h.imp (fun {d e} h1 h2 => by subst h2; exact lt_irr _ h1)
  refine List.Perm.eq_of_pairwise (le := fun d e : Doc => d.1 < e.1)
    (fun x y _ _ h1 h2 => absurd h2 (not_lt_of_lt h1)) ha.1 hb.1 ?_
  rw [List.perm_ext_iff_of_nodup (key ha.1) (key hb.1)]
  intro d
  rw [ha.2, hb.2]

theorem mergedPaths_unique {ps qs a b : List Bytes} (ha : MergedPaths ps qs a) (hb : MergedPaths ps qs b) : a = b := by
  have key : ∀ {l : List Bytes}, l.Pairwise (fun d e => d < e) → l.Nodup := fun h =>
    h.imp (fun {d e} h1 h2 => by subst h2; exact lt_irr _ h1)
  refine List.Perm.eq_of_pairwise (le := fun d e : Bytes => d < e)
    (fun x y _ _ h1 h2 => absurd h2 (not_lt_of_lt h1)) ha.1 hb.1 ?_
  rw [List.perm_ext_iff_of_nodup (key ha.1) (key hb.1)]
  intro d
  rw [ha.2, hb.2]

/-! ## Size -/

theorem length_le_of_small {paths : List Bytes} {docs : List (Bytes × Bytes)} (h : Small paths docs) :
    docs.length < 2 ^ 32 := by
  unfold Small at h
  have : docs.length ≤ (docs.map (fun f => f.1.length + 5 + 20 * f.2.length)).sum := by
    clear h
    induction docs with
    | nil => simp
    | cons d docs ih =>
      rw [List.length_cons, List.map_cons, List.sum_cons]
      omega
  refine Nat.lt_of_le_of_lt this ?_
  omega

theorem mergedSections_small {paths : List Bytes} {docs : List Doc} (hn : docs.length < 2 ^ 32)
    (ht : ∀ f ∈ docs, ∀ t ∈ trigramsOf f.2, t < 2 ^ 24 - 1) (h : Small paths docs) :
    (mergedSections paths docs).bytes.length < 2 ^ 32 := by
  have hb := bytes_length_le (paths := paths) hn ht
  have hs : sizeBound paths docs < 2 ^ 32 := h
  have l1 := (mergedSections paths docs).length_bytes
  have l2 := (sectionsOf paths docs).length_bytes
  have a1 : (mergedSections paths docs).paths.length = (sectionsOf paths docs).paths.length := by
    simp only [mergedSections, sectionsOf]
  have a2 : (mergedSections paths docs).names.length ≤ (sectionsOf paths docs).names.length := by
    simp only [mergedSections, sectionsOf]
    rw [RIndex.namesData_append, List.length_append]
    exact Nat.le_add_right _ _
  have a3 : (mergedSections paths docs).lists.length ≤ (sectionsOf paths docs).lists.length := by
    simp only [mergedSections, sectionsOf]
    rw [List.length_append]
    exact Nat.le_add_right _ _
  have a4 : (mergedSections paths docs).nameIndex.length = (sectionsOf paths docs).nameIndex.length := by
    rw [RIndex.sectionsOf_nameIndex_length]
    simp only [mergedSections]
    rw [List.length_append, flatMap_putUint32_length, nameOffs_length, List.length_map, putUint32_length]
    omega
  have a5 : (mergedSections paths docs).postIndex.length ≤ (sectionsOf paths docs).postIndex.length := by
    simp only [mergedSections, sectionsOf]
    rw [plainEntries_length, RIndex.indexEntries_length]
    omega
  unfold Sections.o5 Sections.o4 Sections.o3 Sections.o2 Sections.o1 at l1 l2
  omega

end Merge
end Hound
