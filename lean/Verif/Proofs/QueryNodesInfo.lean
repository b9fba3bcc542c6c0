import Verif.Proofs.QueryNodesOps

/-! # The analysis of a pattern with queries in memory gives the query of the analysis with queries as values -/

namespace Hound
namespace QN

theorem andOr_done {n : Nodes} {q r : Query} {a b : Nat} {F G : List Nat} (op : QOp) (hb : Base n)
    (hq : Rep n q a F) (hr : Rep n r b G) (hd : Apart F G) :
    Done n (F ++ G) (andOr n a b op).1 (andOr n a b op).2 (Query.andOr q r op) := by
  unfold andOr Query.andOr
  rw [weight_rep hq _ (Nat.lt_succ_of_le hq.length_le), weight_rep hr _ (Nat.lt_succ_of_le hr.length_le)]
  exact andOrF_done _ op hb hq hr hd

/-- A second tree, made from new nodes, has none in common with the first. -/
theorem Done.pair {n n1 n2 : Nodes} {x y z : Query} {a b c : Nat} {F : List Nat} (hb : Base n) (hx : Rep n x a F)
    (hy : Done n [] n1 b y)
    (h : ∀ G, Base n1 → Rep n1 x a F → Rep n1 y b G → Apart F G → Done n1 (F ++ G) n2 c z) : Done n F n2 c z := by
  obtain ⟨G, hG, hm⟩ := hy.rep
  have hG' : ∀ x ∈ G, n.length ≤ x := fun x hx => (hm x hx).resolve_left (by simp)
  have hl := hb.len
  have hx1 : Rep n1 x a F := hx.frame (hy.keep 0 (by omega) (by simp)) (hy.keep 1 (by omega) (by simp))
    fun u hu => hy.keep u (hx.facts.2 u hu).2 (by simp)
  have hd : Apart F G := fun u hu hu' => by
    have := (hx.facts.2 u hu).2
    have := hG' u hu'
    omega
  have d := h G hy.base hx1 hG hd
  obtain ⟨K, hK, hk⟩ := d.rep
  refine ⟨d.base, Nat.le_trans hy.len d.len, ?_, K, hK, ?_⟩
  · intro u hu hn
    have hug : u ∉ F ++ G := by
      intro hm
      rcases List.mem_append.1 hm with hm | hm
      · exact hn hm
      · have := hG' u hm; omega
    rw [d.keep u (Nat.lt_of_lt_of_le hu hy.len) hug, hy.keep u hu (by simp)]
  · intro u hu
    rcases hk u hu with hu | hu
    · exact (List.mem_append.1 hu).imp id (hG' u)
    · exact Or.inr (Nat.le_trans hy.len hu)

theorem Rep.all {n : Nodes} (hb : Base n) : Rep n Query.allQ allQuery [] := by
  unfold Query.allQ Rep allQuery
  exact ⟨[], [], hb.1, Reps.nil n, Or.inl ⟨by omega, rfl, rfl, rfl⟩⟩

theorem Rep.none {n : Nodes} (hb : Base n) : Rep n Query.noneQ noneQuery [] := by
  unfold Query.noneQ Rep noneQuery
  exact ⟨[], [], hb.2, Reps.nil n, Or.inl ⟨by omega, rfl, rfl, rfl⟩⟩

theorem orTrigrams_done : ∀ (ts : List Bytes) {n : Nodes} {o : Query} {a : Nat} {F : List Nat}, Base n → Rep n o a F →
    Done n F (orTrigrams n a ts).1 (orTrigrams n a ts).2 (Query.orTrigrams o ts)
  | [], n, o, a, F, hb, h => Done.refl hb h
  | t :: ts, n, o, a, F, hb, h => by
    simp only [orTrigrams, Query.orTrigrams, QN.new, Query.or]
    generalize hx : (⟨.and, cleanSet false (Query.windows3 t), []⟩ : Node) = x
    have h2 : Rep (n ++ [x]) (.mk .and (cleanSet false (Query.windows3 t)) []) n.length [n.length] := by
      rw [← hx]; exact (Reps.nil n).make hb _ _
    have hd : Apart F [n.length] := by
      intro y hy hy'
      have := (h.facts.2 y hy).2
      rw [List.mem_singleton.1 hy'] at this
      omega
    have d1 := andOr_done .or (hb.new x) (h.new hb x) h2 hd
    generalize andOr (n ++ [x]) a n.length .or = s at d1 ⊢
    generalize Query.andOr o (.mk .and (cleanSet false (Query.windows3 t)) []) .or = o' at d1 ⊢
    have d2 : Done n F s.1 s.2 o' := by
      refine Done.alloc (x := x) (d1.mono ?_)
      intro y hy
      rcases List.mem_append.1 hy with hy | hy
      · exact List.mem_append_right _ hy
      · exact List.mem_append_left _ hy
    exact d2.trans fun K hb' hK => orTrigrams_done ts hb' hK

theorem andTrigrams_done {n : Nodes} {q : Query} {a : Nat} {F : List Nat} (t : List Bytes) (hb : Base n) (h : Rep n q a F) :
    Done n F (andTrigrams n a t).1 (andTrigrams n a t).2 (q.andTrigrams t) := by
  unfold andTrigrams Query.andTrigrams
  split
  · exact Done.refl hb h
  · exact Done.pair hb h (orTrigrams_done t hb (Rep.none hb)) fun G hb1 h1 h2 hd => andOr_done .and hb1 h1 h2 hd

/-- The same, with the query at an address. -/
def toInfo (i : HInfo) (a : Nat) : Info := ⟨i.canEmpty, i.exact, i.pre, i.suf, a⟩

open RegexpInfo

variable (grow : Nat → Nat → Nat)

/-- From the tree `q` at `a` to the tree `r` at `b`. -/
def Turns (n : Nodes) (a : Nat) (q : Query) (n' : Nodes) (b : Nat) (r : Query) : Prop :=
  Base n → ∀ F, Rep n q a F → Done n F n' b r

theorem Turns.refl (n : Nodes) (a : Nat) (q : Query) : Turns n a q n a q := fun hb _ h => Done.refl hb h

theorem Turns.trans {n n1 n2 : Nodes} {a b c : Nat} {q r s : Query} (h : Turns n a q n1 b r) (h' : Turns n1 b r n2 c s) :
    Turns n a q n2 c s := fun hb F hq => (h hb F hq).trans fun K hb' hK => h' hb' K hK

theorem addExact_sim (h : Heap) (n : Nodes) (i : HInfo) (a : Nat) :
    ∃ n' a', addExact h n (toInfo i a) = (n', toInfo (HInfo.addExact h i) a') ∧
      Turns n a i.mat n' a' (HInfo.addExact h i).mat := by
  unfold addExact HInfo.addExact
  obtain ⟨ce, ex, p, u, m⟩ := i
  cases ex with
  | none => exact ⟨n, a, rfl, Turns.refl _ _ _⟩
  | some e =>
    simp only [toInfo]
    exact ⟨_, _, rfl, fun hb _ hr => andTrigrams_done _ hb hr⟩

theorem simplifySet_sim (isSuffix : Bool) (h : Heap) (n : Nodes) (q : Query) (s : Slice) (a : Nat) :
    ∃ n' a', simplifySet isSuffix h n a s = ((HInfo.simplifySet isSuffix h q s).1, n', a',
        (HInfo.simplifySet isSuffix h q s).2.2) ∧
      Turns n a q n' a' (HInfo.simplifySet isSuffix h q s).2.1 := by
  unfold simplifySet HInfo.simplifySet
  generalize h.clean isSuffix s = c
  obtain ⟨h1, t1⟩ := c
  simp only
  generalize HInfo.shortenLoop isSuffix 3 h1 t1 = c
  obtain ⟨h2, t2⟩ := c
  simp only
  generalize h2.put t2 (dropRedundant isSuffix none (h2.read t2)) = c
  obtain ⟨h3, t3⟩ := c
  simp only
  exact ⟨_, _, rfl, fun hb _ hr => andTrigrams_done _ hb hr⟩

theorem simplifySets_sim (h : Heap) (n : Nodes) (i : HInfo) (a : Nat) :
    ∃ n' a', simplifySets h n (toInfo i a) = ((HInfo.simplifySets h i).1, n', toInfo (HInfo.simplifySets h i).2 a') ∧
      Turns n a i.mat n' a' (HInfo.simplifySets h i).2.mat := by
  obtain ⟨ce, ex, p, u, m⟩ := i
  unfold simplifySets HInfo.simplifySets
  obtain ⟨n1, a1, e1, d1⟩ := simplifySet_sim false h n m p a
  simp only [toInfo]
  rw [e1]
  generalize HInfo.simplifySet false h m p = c at d1
  obtain ⟨h1, q1, p1⟩ := c
  simp only at d1 ⊢
  obtain ⟨n2, a2, e2, d2⟩ := simplifySet_sim true h1 n1 q1 u a1
  rw [e2]
  generalize HInfo.simplifySet true h1 q1 u = c at d2
  obtain ⟨h2, q2, u2⟩ := c
  exact ⟨n2, a2, rfl, d1.trans d2⟩

theorem simplify_sim (h : Heap) (n : Nodes) (i : HInfo) (a : Nat) (force : Bool) :
    ∃ n' a', simplify grow h n (toInfo i a) force =
        ((HInfo.simplify grow h i force).1, n', toInfo (HInfo.simplify grow h i force).2 a') ∧
      Turns n a i.mat n' a' (HInfo.simplify grow h i force).2.mat := by
  unfold simplify HInfo.simplify
  obtain ⟨ce, ex, p, u, m⟩ := i
  cases ex with
  | none => exact simplifySets_sim h n _ a
  | some e0 =>
    simp only [toInfo]
    generalize h.clean false e0 = c
    obtain ⟨h1, e⟩ := c
    simp only
    split
    · obtain ⟨n1, a1, e1, d1⟩ := addExact_sim h1 n ⟨ce, some e, p, u, m⟩ a
      simp only [toInfo] at e1
      rw [e1]
      generalize HInfo.addExact h1 ⟨ce, some e, p, u, m⟩ = j at d1
      obtain ⟨ce1, ex1, p1, u1, m1⟩ := j
      simp only at d1 ⊢
      generalize h1.addAll grow p1 ((h1.read e).map head2) = c
      obtain ⟨h2, p2⟩ := c
      simp only
      generalize h2.addAll grow u1 ((h1.read e).map tail2) = c
      obtain ⟨h3, u2⟩ := c
      simp only
      obtain ⟨n2, a2, e2, d2⟩ := simplifySets_sim h3 n1 ⟨ce1, none, p2, u2, m1⟩ a1
      simp only [toInfo] at e2
      rw [e2]
      generalize HInfo.simplifySets h3 ⟨ce1, none, p2, u2, m1⟩ = c at d2
      exact ⟨n2, a2, rfl, d1.trans d2⟩
    · exact ⟨n, a, rfl, Turns.refl _ _ _⟩

end QN
end Hound
