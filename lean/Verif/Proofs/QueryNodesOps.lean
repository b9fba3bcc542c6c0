import Verif.Proofs.QueryNodes

/-! # `andOr` and `andTrigrams` on queries in memory -/

namespace Hound
namespace QN

/-- From the nodes `n`, writing to none of them but `W`, to the nodes `n'` with the tree `q` at `a`, which occupies
no nodes but `W` and new ones. -/
structure Done (n : Nodes) (W : List Nat) (n' : Nodes) (a : Nat) (q : Query) : Prop where
  base : Base n'
  len : n.length ≤ n'.length
  keep : ∀ x, x < n.length → x ∉ W → n'[x]? = n[x]?
  rep : ∃ K, Rep n' q a K ∧ ∀ x ∈ K, x ∈ W ∨ n.length ≤ x

theorem Done.refl {n : Nodes} {q : Query} {a : Nat} {F : List Nat} (hb : Base n) (h : Rep n q a F) : Done n F n a q :=
  ⟨hb, Nat.le_refl _, fun _ _ _ => rfl, F, h, fun _ hx => Or.inl hx⟩

theorem Done.mono {n n' : Nodes} {q : Query} {a : Nat} {F F' : List Nat} (h : Done n F n' a q) (hs : ∀ x ∈ F, x ∈ F') :
    Done n F' n' a q := by
  obtain ⟨K, hK, hm⟩ := h.rep
  exact ⟨h.base, h.len, fun x hx hn => h.keep x hx fun hf => hn (hs x hf), K, hK,
    fun x hx => (hm x hx).imp (hs x) id⟩

theorem Done.trans {n n1 n2 : Nodes} {W : List Nat} {a b : Nat} {q r : Query} (h : Done n W n1 a q)
    (h2 : ∀ K, Base n1 → Rep n1 q a K → Done n1 K n2 b r) : Done n W n2 b r := by
  obtain ⟨K, hK, hm⟩ := h.rep
  have d := h2 K h.base hK
  obtain ⟨L, hL, hl⟩ := d.rep
  refine ⟨d.base, Nat.le_trans h.len d.len, ?_, L, hL, ?_⟩
  · intro x hx hn
    have hxK : x ∉ K := by
      intro hk
      rcases hm x hk with hk | hk
      · exact hn hk
      · omega
    rw [d.keep x (Nat.lt_of_lt_of_le hx h.len) hxK, h.keep x hx hn]
  · intro x hx
    rcases hl x hx with hx | hx
    · exact hm x hx
    · exact Or.inr (Nat.le_trans h.len hx)

theorem Base.len {n : Nodes} (h : Base n) : 2 ≤ n.length := by
  have := lt_of h.2
  omega

theorem Base.set {n : Nodes} (h : Base n) {a : Nat} (ha : 2 ≤ a) (x : Node) : Base (n.set a x) := by
  constructor
  · rw [List.getElem?_set_ne (by omega)]; exact h.1
  · rw [List.getElem?_set_ne (by omega)]; exact h.2

theorem Base.new {n : Nodes} (h : Base n) (x : Node) : Base (n ++ [x]) := by
  have := h.len
  constructor
  · rw [List.getElem?_append_left (by omega)]; exact h.1
  · rw [List.getElem?_append_left (by omega)]; exact h.2

/-- A tree untouched by a write. -/
theorem Rep.set {n : Nodes} {q : Query} {a : Nat} {F : List Nat} (h : Rep n q a F) {c : Nat} (hc : 2 ≤ c) (hF : c ∉ F)
    (x : Node) : Rep (n.set c x) q a F := by
  refine h.frame (List.getElem?_set_ne (by omega)) (List.getElem?_set_ne (by omega)) ?_
  intro y hy
  exact List.getElem?_set_ne fun (e : c = y) => hF (e ▸ hy)

theorem Reps.set {n : Nodes} {qs : List Query} {as : List Nat} {F : List Nat} (h : Reps n qs as F) {c : Nat} (hc : 2 ≤ c)
    (hF : c ∉ F) (x : Node) : Reps (n.set c x) qs as F := by
  refine h.frame (List.getElem?_set_ne (by omega)) (List.getElem?_set_ne (by omega)) ?_
  intro y hy
  exact List.getElem?_set_ne fun (e : c = y) => hF (e ▸ hy)

/-- A tree untouched by a new node. -/
theorem Rep.new {n : Nodes} (hb : Base n) {q : Query} {a : Nat} {F : List Nat} (h : Rep n q a F) (x : Node) :
    Rep (n ++ [x]) q a F := by
  have := hb.len
  refine h.frame (List.getElem?_append_left (by omega)) (List.getElem?_append_left (by omega)) ?_
  intro y hy
  exact List.getElem?_append_left (h.facts.2 y hy).2

theorem Reps.append {n : Nodes} : ∀ {qs : List Query} {as F : List Nat}, Reps n qs as F →
    ∀ {rs : List Query} {bs G : List Nat}, Reps n rs bs G → Apart F G → Reps n (qs ++ rs) (as ++ bs) (F ++ G)
  | [], as, F, h, rs, bs, G, h', hd => by
    unfold Reps at h
    obtain ⟨rfl, rfl⟩ := h
    exact h'
  | q :: qs, as, F, h, rs, bs, G, h', hd => by
    unfold Reps at h
    obtain ⟨a, as', F1, F2, rfl, rfl, h1, h2, h3⟩ := h
    have := h2.append h' fun x hx => hd x (List.mem_append_right _ hx)
    rw [List.cons_append]
    unfold Reps
    refine ⟨a, as' ++ bs, F1, F2 ++ G, rfl, by rw [List.append_assoc], h1, this, ?_⟩
    intro x hx hm
    rcases List.mem_append.1 hm with hm | hm
    · exact h3 x hx hm
    · exact hd x (List.mem_append_left _ hx) hm

theorem Reps.single {n : Nodes} {q : Query} {a : Nat} {F : List Nat} (h : Rep n q a F) : Reps n [q] [a] F := by
  unfold Reps
  refine ⟨a, [], F, [], rfl, by simp, h, ?_, fun x _ hx => by cases hx⟩
  unfold Reps
  exact ⟨rfl, rfl⟩

theorem Reps.nil (n : Nodes) : Reps n [] [] [] := by
  unfold Reps
  exact ⟨rfl, rfl⟩

/-- Overwriting a node of one's own. -/
theorem Reps.write {n : Nodes} {qs : List Query} {as G : List Nat} (h : Reps n qs as G) {a : Nat} (ha : 2 ≤ a)
    (hl : a < n.length) (hG : a ∉ G) (op : QOp) (tri : List Bytes) :
    Rep (n.set a ⟨op, tri, as⟩) (.mk op tri qs) a (a :: G) := by
  unfold Rep
  exact ⟨as, G, by rw [List.getElem?_set_self hl], h.set ha hG _, Or.inr ⟨ha, hG, rfl⟩⟩

/-- Making a node. -/
theorem Reps.make {n : Nodes} (hb : Base n) {qs : List Query} {as G : List Nat} (h : Reps n qs as G) (op : QOp)
    (tri : List Bytes) : Rep (n ++ [⟨op, tri, as⟩]) (.mk op tri qs) n.length (n.length :: G) := by
  have := hb.len
  unfold Rep
  refine ⟨as, G, by simp, ?_, Or.inr ⟨hb.len, fun hg => ?_, rfl⟩⟩
  · refine h.frame (List.getElem?_append_left (by omega)) (List.getElem?_append_left (by omega)) ?_
    intro y hy
    exact List.getElem?_append_left (h.facts.2 y hy).2
  · have := (h.facts.2 _ hg).2
    omega

theorem Done.write {n : Nodes} (hb : Base n) {q : Query} {x : Node} {a : Nat} {W K : List Nat} (ha : 2 ≤ a) (hW : a ∈ W)
    (h : Rep (n.set a x) q a K) (hK : ∀ y ∈ K, y ∈ W) : Done n W (n.set a x) a q :=
  ⟨hb.set ha x, by simp, fun y _ hy => List.getElem?_set_ne fun (e : a = y) => hy (e ▸ hW), K, h,
    fun y hy => Or.inl (hK y hy)⟩

theorem Done.make {n : Nodes} (hb : Base n) {q : Query} {x : Node} {W G : List Nat}
    (h : Rep (n ++ [x]) q n.length (n.length :: G)) (hG : ∀ y ∈ G, y ∈ W) :
    Done n W (n ++ [x]) n.length q := by
  refine ⟨hb.new x, by simp, fun y hy _ => List.getElem?_append_left hy, _, h, ?_⟩
  intro y hy
  rcases List.mem_cons.1 hy with rfl | hy
  · exact Or.inr (Nat.le_refl _)
  · exact Or.inl (hG y hy)

theorem Done.alloc {n n' : Nodes} {q : Query} {x : Node} {a : Nat} {W : List Nat}
    (h : Done (n ++ [x]) ([n.length] ++ W) n' a q) : Done n W n' a q := by
  obtain ⟨K, hK, hm⟩ := h.rep
  have hl := h.len
  simp only [List.length_append, List.length_singleton] at hl hm
  refine ⟨h.base, by omega, ?_, K, hK, ?_⟩
  · intro y hy hn
    rw [h.keep y (by simp; omega) (by simp; exact ⟨by omega, hn⟩), List.getElem?_append_left hy]
  · intro y hy
    rcases hm y hy with hy | hy
    · rcases List.mem_append.1 hy with hy | hy
      · right; rw [List.mem_singleton.1 hy]; exact Nat.le_refl _
      · exact Or.inl hy
    · right; omega

theorem both_of_not_implies {q r : Query} (h1 : ¬Query.implies q r = true) (h2 : ¬Query.implies r q = true) :
    (q.op = .and ∨ q.op = .or) ∧ (r.op = .and ∨ r.op = .or) := by
  unfold Query.implies at h1 h2
  constructor
  · cases h : q.op <;> simp_all
  · cases h : r.op <;> simp_all

/-- A tree that does real work has a node of its own. -/
theorem Rep.own {n : Nodes} (hb : Base n) {q : Query} {a : Nat} {F : List Nat} (h : Rep n q a F)
    (ho : q.op = .and ∨ q.op = .or) :
    ∃ G, Reps n q.sub (get n a).sub G ∧ F = a :: G ∧ 2 ≤ a ∧ a ∉ G ∧ a < n.length := by
  obtain ⟨hop, _, G, hs, _, _, hc⟩ := h.node
  rcases hc with ⟨h2, _⟩ | ⟨h2, hn, rfl⟩
  · exfalso
    cases q with
    | mk op tri qs =>
      unfold Rep at h
      obtain ⟨subs, _, hg, _⟩ := h
      have := (base_small hb hg h2).1
      simp only [Query.op] at ho this
      rcases ho with rfl | rfl <;> rcases this with e | e <;> cases e
  · exact ⟨G, hs, rfl, h2, hn, (h.facts.2 a List.mem_cons_self).2⟩

/-- `andOr` on two trees with no node in common. -/
theorem andOrF_done : ∀ (fuel : Nat) {n : Nodes} {q r : Query} {a b : Nat} {F G : List Nat} (op : QOp), Base n →
    Rep n q a F → Rep n r b G → Apart F G →
    Done n (F ++ G) (andOrF fuel n a b op).1 (andOrF fuel n a b op).2 (Query.andOrF fuel q r op) := by
  intro fuel
  induction fuel with
  | zero =>
    intro n q r a b F G op hb hq hr hd
    simp only [andOrF, QN.new, Query.andOrF]
    exact Done.make hb (((Reps.single hq).append (Reps.single hr) hd).make hb op []) fun y hy => hy
  | succ fuel ih =>
    intro n q0 r0 a0 b0 F0 G0 op hb hq0 hr0 hd0
    obtain ⟨F, hq, hF⟩ := unwrap_rep hq0
    obtain ⟨G, hr, hG⟩ := unwrap_rep hr0
    have hd : Apart F G := fun x hx hx' => hd0 x (hF x hx) (hG x hx')
    refine Done.mono (F := F ++ G) ?_ fun x hx => by
      rcases List.mem_append.1 hx with hx | hx
      · exact List.mem_append_left _ (hF x hx)
      · exact List.mem_append_right _ (hG x hx)
    unfold andOrF Query.andOrF
    generalize unwrap n a0 = a at *
    generalize unwrap n b0 = b at *
    generalize q0.unwrap = q at *
    generalize r0.unwrap = r at *
    clear hF hG hq0 hr0 hd0
    obtain ⟨hqo, hqt, _, hqs, _⟩ := hq.node
    obtain ⟨hro, hrt, _, hrs, _⟩ := hr.node
    simp only [implies_rep hq hr, implies_rep hr hq, hqo, hqt, hro, hrt, hqs.length, hrs.length]
    clear hqs hrs
    have dq : Done n (F ++ G) n a q := (Done.refl hb hq).mono fun x hx => List.mem_append_left _ hx
    have dr : Done n (F ++ G) n b r := (Done.refl hb hr).mono fun x hx => List.mem_append_right _ hx
    by_cases h1 : Query.implies q r = true
    · simp only [h1, if_true]
      by_cases ho : op = .and
      · simp only [ho, if_true]; exact dq
      · simp only [ho, if_false]; exact dr
    by_cases h2 : Query.implies r q = true
    · simp only [h1, h2, if_true]
      by_cases ho : op = .and
      · simp only [ho, if_true]; exact dr
      · simp only [ho, if_false]; exact dq
    rw [if_neg h1, if_neg h2, if_neg h1, if_neg h2]
    obtain ⟨bq, br⟩ := both_of_not_implies h1 h2
    obtain ⟨G1, hs1, rfl, ha2, haG, hal⟩ := hq.own hb bq
    obtain ⟨G2, hs2, rfl, hb2, hbG, hbl⟩ := hr.own hb br
    have hab : a ≠ b := fun e => hd a List.mem_cons_self (e ▸ List.mem_cons_self)
    have haG2 : a ∉ G2 := fun e => hd a List.mem_cons_self (List.mem_cons_of_mem _ e)
    have hbG1 : b ∉ G1 := fun e => hd b (List.mem_cons_of_mem _ e) List.mem_cons_self
    have hd1 : Apart G1 G2 := fun x hx hx' => hd x (List.mem_cons_of_mem _ hx) (List.mem_cons_of_mem _ hx')
    have hd2 : Apart G2 G1 := fun x hx hx' => hd1 x hx' hx
    have hd3 : Apart G1 (b :: G2) := fun x hx hx' => hd x (List.mem_cons_of_mem _ hx) hx'
    have hd4 : Apart G2 (a :: G1) := fun x hx hx' => hd x hx' (List.mem_cons_of_mem _ hx)
    have haW : a ∈ a :: G1 ++ b :: G2 := by simp
    have hbW : b ∈ a :: G1 ++ b :: G2 := by simp
    split
    · refine Done.write hb ha2 haW ((hs1.append hs2 hd1).write ha2 hal ?_ _ _) ?_
      · simp [haG, haG2]
      · intro y hy; simp at hy ⊢; grind
    split
    · refine Done.write hb hb2 hbW (hs2.write hb2 hbl hbG _ _) ?_
      intro y hy; simp at hy ⊢; grind
    split
    · refine Done.write hb ha2 haW (hs1.write ha2 hal haG _ _) ?_
      intro y hy; simp at hy ⊢; grind
    split
    · refine Done.write hb ha2 haW ((hs1.append (Reps.single hr) hd3).write ha2 hal ?_ _ _) ?_
      · simp [haG, haG2, hab]
      · intro y hy; simp at hy ⊢; grind
    split
    · refine Done.write hb hb2 hbW ((hs2.append (Reps.single hq) hd4).write hb2 hbl ?_ _ _) ?_
      · simp [hbG, hbG1, Ne.symm hab]
      · intro y hy; simp at hy ⊢; grind
    generalize Query.factor (q.trigram.length + r.trigram.length) q.trigram r.trigram = f
    obtain ⟨qt, rt, common⟩ := f
    simp only
    generalize hm : (n.set a ⟨q.op, qt, (get n a).sub⟩).set b ⟨r.op, rt, (get n b).sub⟩ = m
    have hbm : Base m := by rw [← hm]; exact (hb.set ha2 _).set hb2 _
    have hlm : m.length = n.length := by rw [← hm]; simp
    have hqm : Rep m (.mk q.op qt q.sub) a (a :: G1) := by
      rw [← hm]
      refine (hs1.write ha2 hal haG q.op qt).set hb2 ?_ _
      simp [hbG1, Ne.symm hab]
    have hrm : Rep m (.mk r.op rt r.sub) b (b :: G2) := by
      rw [← hm]
      refine (hs2.set ha2 haG2 _).write hb2 (by simpa using hbl) hbG r.op rt
    have hkm : ∀ x, x < n.length → x ∉ a :: G1 ++ b :: G2 → m[x]? = n[x]? := by
      intro x _ hx
      rw [← hm, List.getElem?_set_ne, List.getElem?_set_ne]
      · exact fun e => hx (e ▸ haW)
      · exact fun e => hx (e ▸ hbW)
    have lift : ∀ {n' : Nodes} {c : Nat} {s : Query}, Done m (a :: G1 ++ b :: G2) n' c s →
        Done n (a :: G1 ++ b :: G2) n' c s := by
      intro n' c s hdn
      obtain ⟨K, hK, hm'⟩ := hdn.rep
      exact ⟨hdn.base, by have := hdn.len; omega, fun x hx hn => by rw [hdn.keep x (by omega) hn, hkm x hx hn], K, hK,
        fun x hx => by rw [← hlm]; exact hm' x hx⟩
    apply lift
    split
    · refine (ih op hbm hqm hrm hd).trans ?_
      intro K hbs hK
      generalize andOrF fuel m a b op = s at hbs hK ⊢
      generalize Query.andOrF fuel (.mk q.op qt q.sub) (.mk r.op rt r.sub) op = sq at hK ⊢
      refine Done.alloc (x := ⟨Query.otherOp op, common, []⟩) (ih _ (hbs.new _) (((Reps.nil s.1)).make hbs _ _)
        (hK.new hbs _) ?_)
      intro x hx hxK
      have := (hK.facts.2 x hxK).2
      rw [List.mem_singleton.1 hx] at this
      omega
    · exact Done.make hbm (((Reps.single hqm).append (Reps.single hrm) hd).make hbm op []) fun y hy => hy

end QN
end Hound
