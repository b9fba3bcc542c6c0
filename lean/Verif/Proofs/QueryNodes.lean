import Verif.Spec.Nodes
import Verif.Proofs.Sparse

/-!
# Queries in memory

`Rep n q a F` says that the tree read from address `a` is `q` and that it occupies exactly the nodes `F`, each
once; the two shared nodes belong to nobody.  `andOr` on two trees with no node in common writes only to the nodes
of the two trees and gives a tree that occupies some of these and new ones.
-/

namespace Hound
namespace QN

theorem get_of {n : Nodes} {a : Nat} {x : Node} (h : n[a]? = some x) : get n a = x := by
  unfold get
  rw [List.getD_eq_getElem?_getD, h]
  rfl

theorem lt_of {n : Nodes} {a : Nat} {x : Node} (h : n[a]? = some x) : a < n.length := by
  rcases Nat.lt_or_ge a n.length with h1 | h1
  · exact h1
  · rw [List.getElem?_eq_none h1] at h; cases h

/-- A shared node is one of the two. -/
theorem base_small {n : Nodes} (hb : Base n) {a : Nat} {x : Node} (h : n[a]? = some x) (ha : a < 2) :
    (x.op = .all ∨ x.op = .none) ∧ x.tri = [] ∧ x.sub = [] := by
  rcases (show a = 0 ∨ a = 1 by omega) with rfl | rfl
  · rw [hb.1] at h; cases h; exact ⟨Or.inl rfl, rfl, rfl⟩
  · rw [hb.2] at h; cases h; exact ⟨Or.inr rfl, rfl, rfl⟩

mutual
theorem Rep.frame {n n' : Nodes} (h0 : n'[0]? = n[0]?) (h1 : n'[1]? = n[1]?) :
    ∀ {q : Query} {a : Nat} {F : List Nat}, Rep n q a F → (∀ x ∈ F, n'[x]? = n[x]?) → Rep n' q a F
  | .mk op tri qs, a, F, h, hf => by
    unfold Rep at h ⊢
    obtain ⟨subs, G, hg, hs, hc⟩ := h
    have ha : n'[a]? = n[a]? := by
      rcases hc with ⟨hc, _⟩ | ⟨_, _, rfl⟩
      · rcases (show a = 0 ∨ a = 1 by omega) with rfl | rfl
        · exact h0
        · exact h1
      · exact hf _ List.mem_cons_self
    refine ⟨subs, G, by rw [ha]; exact hg, ?_, hc⟩
    refine Reps.frame h0 h1 hs ?_
    intro x hx
    rcases hc with ⟨_, _, rfl, _⟩ | ⟨_, _, rfl⟩
    · cases hx
    · exact hf _ (List.mem_cons_of_mem _ hx)
theorem Reps.frame {n n' : Nodes} (h0 : n'[0]? = n[0]?) (h1 : n'[1]? = n[1]?) :
    ∀ {qs : List Query} {as : List Nat} {F : List Nat}, Reps n qs as F → (∀ x ∈ F, n'[x]? = n[x]?) → Reps n' qs as F
  | [], as, F, h, _ => by unfold Reps at h ⊢; exact h
  | q :: qs, as, F, h, hf => by
    unfold Reps at h ⊢
    obtain ⟨a, as', F1, F2, rfl, rfl, h1', h2', h3⟩ := h
    refine ⟨a, as', F1, F2, rfl, rfl, Rep.frame h0 h1 h1' ?_, Reps.frame h0 h1 h2' ?_, h3⟩
    · exact fun x hx => hf x (List.mem_append_left _ hx)
    · exact fun x hx => hf x (List.mem_append_right _ hx)
end

mutual
theorem Rep.facts {n : Nodes} : ∀ {q : Query} {a : Nat} {F : List Nat}, Rep n q a F →
    F.Nodup ∧ ∀ x ∈ F, 2 ≤ x ∧ x < n.length
  | .mk op tri qs, a, F, h => by
    unfold Rep at h
    obtain ⟨subs, G, hg, hs, hc⟩ := h
    have hf := Reps.facts hs
    rcases hc with ⟨_, _, _, rfl⟩ | ⟨h2, hn, rfl⟩
    · exact ⟨List.nodup_nil, fun x hx => by cases hx⟩
    · refine ⟨List.nodup_cons.2 ⟨hn, hf.1⟩, ?_⟩
      intro x hx
      rcases List.mem_cons.1 hx with rfl | hx
      · exact ⟨h2, lt_of hg⟩
      · exact hf.2 x hx
theorem Reps.facts {n : Nodes} : ∀ {qs : List Query} {as : List Nat} {F : List Nat}, Reps n qs as F →
    F.Nodup ∧ ∀ x ∈ F, 2 ≤ x ∧ x < n.length
  | [], as, F, h => by
    unfold Reps at h
    rw [h.2]
    exact ⟨List.nodup_nil, fun x hx => by cases hx⟩
  | q :: qs, as, F, h => by
    unfold Reps at h
    obtain ⟨a, as', F1, F2, rfl, rfl, h1', h2', h3⟩ := h
    have f1 := Rep.facts h1'
    have f2 := Reps.facts h2'
    refine ⟨List.nodup_append.2 ⟨f1.1, f2.1, fun x hx y hy e => h3 x hx (e ▸ hy)⟩, ?_⟩
    intro x hx
    rcases List.mem_append.1 hx with hx | hx
    · exact f1.2 x hx
    · exact f2.2 x hx
end

theorem Rep.length_le {n : Nodes} {q : Query} {a : Nat} {F : List Nat} (h : Rep n q a F) : F.length ≤ n.length :=
  SSet.length_le_of_nodup_bound _ _ h.facts.1 fun x hx => (h.facts.2 x hx).2

/-- The node of a tree. -/
theorem Rep.node {n : Nodes} {q : Query} {a : Nat} {F : List Nat} (h : Rep n q a F) :
    (get n a).op = q.op ∧ (get n a).tri = q.trigram ∧
      ∃ G, Reps n q.sub (get n a).sub G ∧ (∀ x ∈ G, x ∈ F) ∧ G.length ≤ F.length ∧
        ((a < 2 ∧ q.sub = [] ∧ G = [] ∧ F = []) ∨ (2 ≤ a ∧ a ∉ G ∧ F = a :: G)) := by
  cases q with
  | mk op tri qs =>
    unfold Rep at h
    obtain ⟨subs, G, hg, hs, hc⟩ := h
    rw [get_of hg]
    refine ⟨rfl, rfl, G, hs, ?_, ?_, hc⟩
    · rcases hc with ⟨_, rfl, rfl, rfl⟩ | ⟨_, _, rfl⟩
      · exact fun x hx => hx
      · exact fun x hx => List.mem_cons_of_mem _ hx
    · rcases hc with ⟨_, rfl, rfl, rfl⟩ | ⟨_, _, rfl⟩
      · exact Nat.le_refl _
      · simp

theorem Reps.length {n : Nodes} : ∀ {qs : List Query} {as G : List Nat}, Reps n qs as G → as.length = qs.length
  | [], as, G, h => by unfold Reps at h; rw [h.1]; rfl
  | q :: qs, as, G, h => by
    unfold Reps at h
    obtain ⟨a, as', F1, F2, rfl, rfl, h1', h2', h3⟩ := h
    simp [Reps.length h2']

mutual
/-- Reading the tree in memory gives the answer for the tree. -/
theorem trigramsImply_rep {n : Nodes} (t : List Bytes) : ∀ {q : Query} {a : Nat} {F : List Nat}, Rep n q a F →
    ∀ d, F.length < d → trigramsImply n t d a = Query.trigramsImply t q
  | .mk op tri qs, a, F, h, d, hd => by
    cases d with
    | zero => omega
    | succ d =>
      obtain ⟨ho, ht, G, hs, _, hl, hc⟩ := h.node
      simp only [Query.op, Query.trigram, Query.sub] at ho ht hs
      have hd' : G.length < d ∨ qs = [] := by
        rcases hc with ⟨_, h, _⟩ | ⟨_, _, rfl⟩
        · exact Or.inr h
        · left; simp only [List.length_cons] at hd; omega
      unfold trigramsImply
      rw [ho, ht]
      cases op
      · simp only [Query.trigramsImply]
      · simp only [Query.trigramsImply]
      · simp only [Query.trigramsImply]
        rw [(trigramsImply_reps t hs d hd').2]
      · simp only [Query.trigramsImply]
        rw [(trigramsImply_reps t hs d hd').1]
theorem trigramsImply_reps {n : Nodes} (t : List Bytes) : ∀ {qs : List Query} {as G : List Nat}, Reps n qs as G →
    ∀ d, (G.length < d ∨ qs = []) → as.any (trigramsImply n t d) = Query.anyTrigramsImply t qs ∧
      as.all (trigramsImply n t d) = Query.allTrigramsImply t qs
  | [], as, G, h, d, hd => by
    unfold Reps at h
    rw [h.1]
    exact ⟨rfl, rfl⟩
  | q :: qs, as, G, h, d, hd => by
    unfold Reps at h
    obtain ⟨a, as', F1, F2, rfl, rfl, h1', h2', h3⟩ := h
    have hd1 : (F1 ++ F2).length < d := hd.resolve_right (by simp)
    rw [List.length_append] at hd1
    have e1 := trigramsImply_rep t h1' d (by omega)
    have e2 := trigramsImply_reps t h2' d (Or.inl (by omega))
    simp only [List.any_cons, List.all_cons, Query.anyTrigramsImply, Query.allTrigramsImply]
    rw [e1, e2.1, e2.2]
    exact ⟨rfl, rfl⟩
end

mutual
theorem weight_rep {n : Nodes} : ∀ {q : Query} {a : Nat} {F : List Nat}, Rep n q a F →
    ∀ d, F.length < d → weight n d a = Query.weight q
  | .mk op tri qs, a, F, h, d, hd => by
    cases d with
    | zero => omega
    | succ d =>
      obtain ⟨ho, ht, G, hs, _, hl, hc⟩ := h.node
      simp only [Query.op, Query.trigram, Query.sub] at ho ht hs
      have hd' : G.length < d ∨ qs = [] := by
        rcases hc with ⟨_, h, _⟩ | ⟨_, _, rfl⟩
        · exact Or.inr h
        · left; simp only [List.length_cons] at hd; omega
      unfold weight
      rw [ht, weight_reps hs d hd']
      simp only [Query.weight]
theorem weight_reps {n : Nodes} : ∀ {qs : List Query} {as G : List Nat}, Reps n qs as G →
    ∀ d, (G.length < d ∨ qs = []) → (as.map (weight n d)).sum = Query.weightList qs
  | [], as, G, h, d, hd => by
    unfold Reps at h
    rw [h.1]
    rfl
  | q :: qs, as, G, h, d, hd => by
    unfold Reps at h
    obtain ⟨a, as', F1, F2, rfl, rfl, h1', h2', h3⟩ := h
    have hd1 : (F1 ++ F2).length < d := hd.resolve_right (by simp)
    rw [List.length_append] at hd1
    simp only [List.map_cons, List.sum_cons, Query.weightList]
    rw [weight_rep h1' d (by omega), weight_reps h2' d (Or.inl (by omega))]
end

theorem implies_rep {n : Nodes} {q r : Query} {a b : Nat} {F G : List Nat} (hq : Rep n q a F) (hr : Rep n r b G) :
    implies n a b = Query.implies q r := by
  obtain ⟨ho, ht, _, hs, _⟩ := hq.node
  obtain ⟨ho', ht', _, hs', _⟩ := hr.node
  unfold implies Query.implies
  simp only [ho, ht, ho', ht', hs.length]
  rw [trigramsImply_rep q.trigram hr (n.length + 1) (Nat.lt_succ_of_le hr.length_le)]

/-- Following a wrapper leads to a tree that occupies some of the nodes. -/
theorem unwrap_rep {n : Nodes} {q : Query} {a : Nat} {F : List Nat} (h : Rep n q a F) :
    ∃ F', Rep n q.unwrap (unwrap n a) F' ∧ ∀ x ∈ F', x ∈ F := by
  obtain ⟨ho, ht, G, hs, hG, _⟩ := h.node
  cases q with
  | mk op tri qs =>
    simp only [Query.op, Query.trigram, Query.sub] at ho ht hs
    generalize hg : get n a = x at ho ht hs
    obtain ⟨o, t, s⟩ := x
    simp only at ho ht hs
    subst ho ht
    match t, qs, hs with
    | [], [c], hs =>
      unfold Reps at hs
      obtain ⟨b, as', F1, F2, rfl, rfl, h1', h2', h3⟩ := hs
      unfold Reps at h2'
      obtain ⟨rfl, rfl⟩ := h2'
      refine ⟨F1, ?_, fun x hx => hG x (by simpa using hx)⟩
      simpa [Query.unwrap, unwrap, hg] using h1'
    | [], [], hs =>
      unfold Reps at hs
      obtain ⟨rfl, rfl⟩ := hs
      refine ⟨F, ?_, fun x hx => hx⟩
      simpa [Query.unwrap, unwrap, hg] using h
    | [], c :: c' :: cs, hs =>
      have hl := hs.length
      match s, hl with
      | b :: b' :: bs, _ =>
        refine ⟨F, ?_, fun x hx => hx⟩
        simpa [Query.unwrap, unwrap, hg] using h
    | t :: ts, qs, hs =>
      refine ⟨F, ?_, fun x hx => hx⟩
      simpa [Query.unwrap, unwrap, hg] using h

end QN
end Hound
