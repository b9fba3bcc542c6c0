import Verif.Model.Query
import Verif.Spec.Regex

/-! # Lemmas: string sets and the boolean meaning of query construction -/

namespace Hound
open Spec

/-! ## String sets -/

theorem mem_insertSorted {less : Bytes → Bytes → Bool} {x y : Bytes} {l : List Bytes} :
    y ∈ insertSorted less x l ↔ y = x ∨ y ∈ l := by
  induction l with
  | nil => simp [insertSorted]
  | cons a l ih => simp only [insertSorted]; split <;> simp [ih] <;> grind

theorem mem_sortStrings {less : Bytes → Bytes → Bool} {y : Bytes} {l : List Bytes} :
    y ∈ sortStrings less l ↔ y ∈ l := by
  induction l with
  | nil => simp [sortStrings]
  | cons a l ih => simp [sortStrings, mem_insertSorted, ih]

theorem mem_compactEq {y : Bytes} {l : List Bytes} : ∀ {last : Option Bytes},
    y ∈ compactEq last l ∨ last = some y ↔ y ∈ l ∨ last = some y := by
  induction l with
  | nil => simp [compactEq]
  | cons a l ih =>
    intro last
    simp only [compactEq]
    split
    · rename_i h; subst h
      have := @ih (some a)
      simp only [List.mem_cons]; grind
    · have := @ih (some a)
      simp only [List.mem_cons]; grind

theorem mem_compactEq_none {y : Bytes} {l : List Bytes} : y ∈ compactEq none l ↔ y ∈ l := by
  simpa using @mem_compactEq y l none

theorem mem_cleanSet {y : Bytes} {l : List Bytes} {b : Bool} : y ∈ cleanSet b l ↔ y ∈ l := by
  simp [cleanSet, mem_compactEq_none, mem_sortStrings]

theorem mem_unionSet {y : Bytes} {s t : List Bytes} {b : Bool} :
    y ∈ unionSet s t b ↔ y ∈ s ∨ y ∈ t := by simp [unionSet, mem_cleanSet]

theorem mem_crossSet {y : Bytes} {s t : List Bytes} {b : Bool} :
    y ∈ crossSet s t b ↔ ∃ a ∈ s, ∃ c ∈ t, a ++ c = y := by
  simp [crossSet, mem_cleanSet]

theorem length_insertSorted {less : Bytes → Bytes → Bool} {x : Bytes} {l : List Bytes} :
    (insertSorted less x l).length = l.length + 1 := by
  induction l with
  | nil => simp [insertSorted]
  | cons a l ih => simp only [insertSorted]; split <;> simp [ih]

theorem length_sortStrings {less : Bytes → Bytes → Bool} {l : List Bytes} :
    (sortStrings less l).length = l.length := by
  induction l with
  | nil => simp [sortStrings]
  | cons a l ih => simp [sortStrings, length_insertSorted, ih]

theorem length_compactEq {l : List Bytes} : ∀ {last : Option Bytes},
    (compactEq last l).length ≤ l.length := by
  induction l with
  | nil => simp [compactEq]
  | cons a l ih =>
    intro last; simp only [compactEq]; split
    · have := @ih last; simp; omega
    · have := @ih (some a); simp; omega

theorem length_cleanSet {l : List Bytes} {b : Bool} : (cleanSet b l).length ≤ l.length := by
  unfold cleanSet
  refine Nat.le_trans length_compactEq ?_
  rw [length_sortStrings]; exact Nat.le_refl _

theorem foldl_min_le (l : List Bytes) : ∀ m : Nat,
    l.foldl (fun m str => if m > str.length then str.length else m) m ≤ m ∧
    ∀ s ∈ l, l.foldl (fun m str => if m > str.length then str.length else m) m ≤ s.length := by
  induction l with
  | nil => simp
  | cons a l ih =>
    intro m
    simp only [List.foldl_cons, List.mem_cons]
    have := ih (if m > a.length then a.length else m)
    refine ⟨by grind, ?_⟩
    intro s hs
    rcases hs with rfl | hs
    · grind
    · exact this.2 s hs

theorem minLen_le {l : List Bytes} {s : Bytes} (h : s ∈ l) : minLen l ≤ s.length := by
  cases l with
  | nil => simp at h
  | cons a l =>
    simp only [minLen]
    have := foldl_min_le l a.length
    rcases List.mem_cons.1 h with rfl | h
    · exact this.1
    · exact this.2 s h

theorem minLen_cons_of_all {l : List Bytes} {n : Nat} (hne : l ≠ []) (h : ∀ s ∈ l, n ≤ s.length) :
    n ≤ minLen l := by
  cases l with
  | nil => exact absurd rfl hne
  | cons a l =>
    simp only [minLen]
    have key : ∀ (l : List Bytes) (m : Nat), n ≤ m → (∀ s ∈ l, n ≤ s.length) →
        n ≤ l.foldl (fun m str => if m > str.length then str.length else m) m := by
      intro l
      induction l with
      | nil => intro m h _; simpa using h
      | cons b l ih =>
        intro m hm hl
        simp only [List.foldl_cons]
        apply ih
        · have := hl b (by simp); split <;> omega
        · intro s hs; exact hl s (by simp [hs])
    exact key l _ (h a (by simp)) (fun s hs => h s (by simp [hs]))

theorem isSubsetOf_sound : ∀ {s t : List Bytes}, isSubsetOf s t = true → ∀ x ∈ s, x ∈ t := by
  intro s
  induction s with
  | nil => simp
  | cons a s ih =>
    intro t h x hx
    unfold isSubsetOf at h
    split at h
    · simp at h
    · rename_i y t' heq
      have hsub : ∀ z ∈ y :: t', z ∈ t := by
        intro z hz; rw [← heq] at hz; exact (List.dropWhile_suffix _).subset hz
      split at h
      · rename_i hya
        rcases List.mem_cons.1 hx with rfl | hx
        · exact hsub _ (by simp [hya])
        · exact hsub _ (ih h x hx)
      · simp at h

/-! ## Meaning of queries -/

theorem satAll_iff {T : Bytes → Prop} {qs : List Query} : SatAll T qs ↔ ∀ q ∈ qs, Sat T q := by
  induction qs with
  | nil => simp [SatAll]
  | cons q qs ih => simp [SatAll, ih]

theorem satAny_iff {T : Bytes → Prop} {qs : List Query} : SatAny T qs ↔ ∃ q ∈ qs, Sat T q := by
  induction qs with
  | nil => simp [SatAny]
  | cons q qs ih => simp [SatAny, ih]

theorem sat_and {T : Bytes → Prop} {tri sub} :
    Sat T (.mk .and tri sub) ↔ (∀ t ∈ tri, T t) ∧ ∀ q ∈ sub, Sat T q := by
  simp [Sat, satAll_iff]

theorem sat_or {T : Bytes → Prop} {tri sub} :
    Sat T (.mk .or tri sub) ↔ (∃ t ∈ tri, T t) ∨ ∃ q ∈ sub, Sat T q := by
  simp [Sat, satAny_iff]

/-- The meaning of `x op y`. -/
def opSat (op : QOp) (a b : Prop) : Prop :=
  match op with
  | .and => a ∧ b
  | _ => a ∨ b

mutual
theorem trigramsImply_sound (T : Bytes → Prop) (t : List Bytes) (ht : ∀ x ∈ t, T x) :
    ∀ q : Query, Query.trigramsImply t q = true → Sat T q
  | .mk .or tri subs, h => by
    simp only [Query.trigramsImply, Bool.or_eq_true, List.any_eq_true] at h
    rw [sat_or]
    rcases h with h | ⟨x, hx, h⟩
    · exact Or.inr (anyTrigramsImply_sound T t ht subs h)
    · exact Or.inl ⟨x, isSubsetOf_sound h x (by simp), ht x hx⟩
  | .mk .and tri subs, h => by
    simp only [Query.trigramsImply, Bool.and_eq_true] at h
    rw [sat_and]
    exact ⟨fun x hx => ht x (isSubsetOf_sound h.2 x hx), allTrigramsImply_sound T t ht subs h.1⟩
  | .mk .all _ _, h => by simp [Query.trigramsImply] at h
  | .mk .none _ _, h => by simp [Query.trigramsImply] at h
theorem anyTrigramsImply_sound (T : Bytes → Prop) (t : List Bytes) (ht : ∀ x ∈ t, T x) :
    ∀ qs : List Query, Query.anyTrigramsImply t qs = true → ∃ q ∈ qs, Sat T q
  | [], h => by simp [Query.anyTrigramsImply] at h
  | q :: qs, h => by
    simp only [Query.anyTrigramsImply, Bool.or_eq_true] at h
    rcases h with h | h
    · exact ⟨q, by simp, trigramsImply_sound T t ht q h⟩
    · obtain ⟨q', hq', h'⟩ := anyTrigramsImply_sound T t ht qs h
      exact ⟨q', by simp [hq'], h'⟩
theorem allTrigramsImply_sound (T : Bytes → Prop) (t : List Bytes) (ht : ∀ x ∈ t, T x) :
    ∀ qs : List Query, Query.allTrigramsImply t qs = true → ∀ q ∈ qs, Sat T q
  | [], _ => by simp
  | q :: qs, h => by
    simp only [Query.allTrigramsImply, Bool.and_eq_true] at h
    intro q' hq'
    rcases List.mem_cons.1 hq' with hq' | hq'
    · rw [hq']; exact trigramsImply_sound T t ht q h.1
    · exact allTrigramsImply_sound T t ht qs h.2 q' hq'
end

theorem implies_sound {T : Bytes → Prop} {q r : Query} (h : q.implies r = true) (hq : Sat T q) :
    Sat T r := by
  unfold Query.implies at h
  split at h
  · rename_i h1
    obtain ⟨qo, qt, qs⟩ := q
    obtain ⟨ro, rt, rs⟩ := r
    simp only [Query.op] at h1
    rcases h1 with rfl | rfl
    · simp [Sat] at hq
    · simp [Sat]
  split at h
  · simp at h
  split at h
  · rename_i h1
    obtain ⟨qo, qt, qs⟩ := q
    simp only [Query.op, Query.trigram, Query.sub] at h1 h
    rcases h1 with rfl | ⟨rfl, h2, h3⟩
    · exact trigramsImply_sound T qt (sat_and.1 hq).1 _ h
    · refine trigramsImply_sound T qt ?_ _ h
      rcases sat_or.1 hq with ⟨t, ht, hT⟩ | ⟨q, hq, _⟩
      · obtain ⟨a, rfl⟩ := List.length_eq_one_iff.1 h2
        simp at ht; subst ht; simpa using hT
      · rw [List.length_eq_zero_iff.1 h3] at hq; simp at hq
  split at h
  · rename_i h1
    obtain ⟨qo, qt, qs⟩ := q
    obtain ⟨ro, rt, rs⟩ := r
    simp only [Query.op, Query.trigram, Query.sub] at h1
    obtain ⟨rfl, rfl, h2, h3, h4⟩ := h1
    rcases sat_or.1 hq with ⟨t, ht, hT⟩ | ⟨q, hq, _⟩
    · exact sat_or.2 (Or.inl ⟨t, isSubsetOf_sound h4 t ht, hT⟩)
    · rw [List.length_eq_zero_iff.1 h3] at hq; simp at hq
  · simp at h

/-- Only AND and OR nodes have children. -/
def Leafy (q : Query) : Prop := (q.op = .all ∨ q.op = .none) → q.sub = [] ∧ q.trigram = []

theorem sat_unwrap {T : Bytes → Prop} {q : Query} (hl : Leafy q) :
    Sat T q.unwrap ↔ Sat T q := by
  obtain ⟨o, t, s⟩ := q
  match t, s with
  | [], [s] =>
    simp only [Query.unwrap]
    cases o
    · have := hl (Or.inl rfl); simp [Query.sub] at this
    · have := hl (Or.inr rfl); simp [Query.sub] at this
    · simp [sat_and]
    · simp [sat_or]
  | [], [] => simp [Query.unwrap]
  | [], _ :: _ :: _ => simp [Query.unwrap]
  | _ :: _, _ => simp [Query.unwrap]

theorem factor_spec : ∀ (n : Nat) (qs rs : List Bytes),
    (∀ x, x ∈ qs ↔ x ∈ (Query.factor n qs rs).1 ∨ x ∈ (Query.factor n qs rs).2.2) ∧
    (∀ x, x ∈ rs ↔ x ∈ (Query.factor n qs rs).2.1 ∨ x ∈ (Query.factor n qs rs).2.2) := by
  intro n
  induction n with
  | zero => intro qs rs; simp [Query.factor]
  | succ n ih =>
    intro qs rs
    match qs, rs with
    | [], rs => simp [Query.factor]
    | q :: qs, [] => simp [Query.factor]
    | q :: qs, r :: rs =>
      have i1 := ih qs (r :: rs)
      have i2 := ih (q :: qs) rs
      have i3 := ih qs rs
      simp only [Query.factor]
      split
      · grind
      split
      · grind
      · rename_i h1 h2
        have : q = r := by
          have : ∀ a b : Bytes, bytesLt a b = false → bytesLt b a = false → a = b := by
            intro a
            induction a with
            | nil => intro b; cases b <;> simp [bytesLt]
            | cons x a ih =>
              intro b
              cases b with
              | nil => simp [bytesLt]
              | cons y b =>
                simp only [bytesLt]
                intro h1 h2
                by_cases hxy : x < y
                · simp [hxy] at h1
                · by_cases hyx : y < x
                  · simp [hyx] at h2
                  · simp [hxy, hyx] at h1 h2
                    have : x = y := UInt8.le_antisymm (UInt8.not_lt.1 hyx) (UInt8.not_lt.1 hxy)
                    rw [this, ih b h1 h2]
          exact this q r (by simpa using h1) (by simpa using h2)
        subst this
        grind

end Hound
