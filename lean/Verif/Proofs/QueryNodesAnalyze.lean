import Verif.Proofs.QueryNodesInfo

/-! # `analyze` with queries in memory -/

namespace Hound
namespace QN

/-- From two trees with no node in common to one. -/
def Joins (n : Nodes) (a : Nat) (x : Query) (b : Nat) (y : Query) (n' : Nodes) (c : Nat) (z : Query) : Prop :=
  Base n → ∀ F G, Rep n x a F → Rep n y b G → Apart F G → Done n (F ++ G) n' c z

/-- A tree made of new nodes. -/
def Makes (n n' : Nodes) (a : Nat) (q : Query) : Prop := Base n → Done n [] n' a q

theorem Joins.then {n n1 n2 : Nodes} {a b c d : Nat} {x y z w : Query} (h : Joins n a x b y n1 c z)
    (h' : Turns n1 c z n2 d w) : Joins n a x b y n2 d w :=
  fun hb F G hx hy hd => (h hb F G hx hy hd).trans fun K hb' hK => h' hb' K hK

theorem Makes.then {n n1 n2 : Nodes} {c d : Nat} {z w : Query} (h : Makes n n1 c z) (h' : Turns n1 c z n2 d w) :
    Makes n n2 d w := fun hb => (h hb).trans fun K hb' hK => h' hb' K hK

theorem Makes.join {n n1 n2 : Nodes} {a b c : Nat} {x y z : Query} (h : Makes n n1 b y) (h' : Joins n1 a x b y n2 c z) :
    Turns n a x n2 c z :=
  fun hb F hx => Done.pair hb hx (h hb) fun G hb1 h1 h2 hd => h' hb1 F G h1 h2 hd

theorem Turns.left {n n1 n2 : Nodes} {a a1 b c : Nat} {x x1 y z : Query} (h : Turns n a x n1 a1 x1)
    (h' : Joins n1 a1 x1 b y n2 c z) : Joins n a x b y n2 c z := by
  intro hb F G hx hy hd
  have d := h hb F hx
  obtain ⟨K, hK, hm⟩ := d.rep
  have hl := hb.len
  have hy1 : Rep n1 y b G := by
    refine hy.frame (by rw [d.base.1, hb.1]) (by rw [d.base.2, hb.2]) ?_
    intro u hu
    exact d.keep u (hy.facts.2 u hu).2 fun hf => hd u hf hu
  have hKG : Apart K G := by
    intro u hu hu'
    rcases hm u hu with hu | hu
    · exact hd u hu hu'
    · have := (hy.facts.2 u hu').2; omega
  have dd := h' d.base K G hK hy1 hKG
  obtain ⟨L, hL, hl⟩ := dd.rep
  refine ⟨dd.base, Nat.le_trans d.len dd.len, ?_, L, hL, ?_⟩
  · intro u hu hn
    have huK : u ∉ K ++ G := by
      intro hk
      rcases List.mem_append.1 hk with hk | hk
      · rcases hm u hk with hk | hk
        · exact hn (List.mem_append_left _ hk)
        · omega
      · exact hn (List.mem_append_right _ hk)
    rw [dd.keep u (Nat.lt_of_lt_of_le hu d.len) huK, d.keep u hu fun hf => hn (List.mem_append_left _ hf)]
  · intro u hu
    rcases hl u hu with hu | hu
    · rcases List.mem_append.1 hu with hu | hu
      · exact (hm u hu).imp (List.mem_append_left _) id
      · exact Or.inl (List.mem_append_right _ hu)
    · exact Or.inr (Nat.le_trans d.len hu)

theorem Done.swap {n n' : Nodes} {a : Nat} {q : Query} {F G : List Nat} (h : Done n (F ++ G) n' a q) :
    Done n (G ++ F) n' a q :=
  h.mono fun _ hx => (List.mem_append.1 hx).elim (List.mem_append_right _) (List.mem_append_left _)

theorem Apart.symm {F G : List Nat} (h : Apart F G) : Apart G F := fun x hx hx' => h x hx' hx

theorem Turns.right {n n1 n2 : Nodes} {a b b1 c : Nat} {x y y1 z : Query} (h : Turns n b y n1 b1 y1)
    (h' : Joins n1 a x b1 y1 n2 c z) : Joins n a x b y n2 c z := by
  have h2 : Joins n1 b1 y1 a x n2 c z := fun hb F G hx hy hd => (h' hb G F hy hx hd.symm).swap
  exact fun hb F G hx hy hd => (h.left h2 hb G F hy hx hd.symm).swap

theorem andOr_joins (n : Nodes) (a b : Nat) (x y : Query) (op : QOp) :
    Joins n a x b y (andOr n a b op).1 (andOr n a b op).2 (Query.andOr x y op) :=
  fun hb _ _ hx hy hd => andOr_done op hb hx hy hd

theorem andTrigrams_turns (n : Nodes) (a : Nat) (q : Query) (t : List Bytes) :
    Turns n a q (andTrigrams n a t).1 (andTrigrams n a t).2 (q.andTrigrams t) :=
  fun hb _ h => andTrigrams_done t hb h

/-- The memory with the nodes `n`. -/
def toMem (st : HSt) (n : Nodes) : Mem := ⟨st.heap, st.hazard, n⟩

open RegexpInfo

variable (grow : Nat → Nat → Nat)

theorem concatPre_sim (h : Heap) (x y : HInfo) (a b : Nat) :
    concatPre grow h (toInfo x a) (toInfo y b) = HInfo.concatPre grow h x y := rfl

theorem concatSuf_sim (h : Heap) (x y : HInfo) (a b : Nat) :
    concatSuf grow h (toInfo x a) (toInfo y b) = HInfo.concatSuf grow h x y := rfl

/-- The same part of `concat` with queries as values. -/
def setsH (x y : HInfo) (h : Heap) (m : Query) : Heap × HInfo :=
  match x.exact, y.exact with
  | some a, some b =>
    let (h1, e) := h.cross grow a b false
    (h1, ⟨false, some e, Slice.nil, Slice.nil, m⟩)
  | some a, none =>
    let (h1, p) := h.cross grow a y.pre false
    let (h2, u) := HInfo.concatSuf grow h1 x y
    (h2, ⟨false, none, p, u, m⟩)
  | none, some b =>
    let (h1, p) := HInfo.concatPre grow h x y
    let (h2, u) := h1.cross grow x.suf b true
    (h2, ⟨false, none, p, u, m⟩)
  | none, none =>
    let (h1, p) := HInfo.concatPre grow h x y
    let (h2, u) := HInfo.concatSuf grow h1 x y
    if (h2.read x.suf).length ≤ maxSet ∧ (h2.read y.pre).length ≤ maxSet ∧
        minLen (h2.read x.suf) + minLen (h2.read y.pre) ≥ 3 then
      let (h3, c) := h2.cross grow x.suf y.pre false
      (h3, ⟨false, none, p, u, m.andTrigrams (h3.read c)⟩)
    else (h2, ⟨false, none, p, u, m⟩)

theorem concat_eq (x y : HInfo) (st : HSt) : HInfo.concat grow x y st =
    (⟨(HInfo.simplify grow (setsH grow x y st.heap (x.mat.and y.mat)).1 (setsH grow x y st.heap (x.mat.and y.mat)).2 false).1,
      st.hazard⟩,
     (HInfo.simplify grow (setsH grow x y st.heap (x.mat.and y.mat)).1 (setsH grow x y st.heap (x.mat.and y.mat)).2 false).2) :=
  rfl

theorem concatSets_sim (x y : HInfo) (h : Heap) (n : Nodes) (m : Query) (a b c : Nat) :
    ∃ n' c', concatSets grow (toInfo x a) (toInfo y b) h n c = ((setsH grow x y h m).1, n', toInfo (setsH grow x y h m).2 c') ∧
      Turns n c m n' c' (setsH grow x y h m).2.mat := by
  unfold concatSets setsH
  rw [show (toInfo x a).exact = x.exact from rfl, show (toInfo y b).exact = y.exact from rfl,
    show (toInfo x a).suf = x.suf from rfl, show (toInfo y b).pre = y.pre from rfl]
  cases hx : x.exact with
  | some ex =>
    cases hy : y.exact with
    | some ey => exact ⟨n, c, rfl, Turns.refl _ _ _⟩
    | none => exact ⟨n, c, rfl, Turns.refl _ _ _⟩
  | none =>
    cases hy : y.exact with
    | some ey => exact ⟨n, c, rfl, Turns.refl _ _ _⟩
    | none =>
      dsimp only
      rw [concatPre_sim, concatSuf_sim]
      generalize HInfo.concatPre grow h x y = s
      obtain ⟨h1, p⟩ := s
      dsimp only
      generalize HInfo.concatSuf grow h1 x y = s
      obtain ⟨h2, u⟩ := s
      dsimp only
      split
      · generalize h2.cross grow x.suf y.pre false = s
        obtain ⟨h3, k⟩ := s
        dsimp only
        exact ⟨_, _, rfl, andTrigrams_turns _ _ _ _⟩
      · exact ⟨n, c, rfl, Turns.refl _ _ _⟩

theorem concat_sim (x y : HInfo) (st : HSt) (n : Nodes) (a b : Nat) :
    ∃ n' c, concat grow (toInfo x a) (toInfo y b) (toMem st n) =
        (toMem (HInfo.concat grow x y st).1 n', toInfo (HInfo.concat grow x y st).2 c) ∧
      Joins n a x.mat b y.mat n' c (HInfo.concat grow x y st).2.mat := by
  rw [concat_eq]
  unfold concat
  have hj := andOr_joins n a b x.mat y.mat .and
  rw [show (toInfo x a).mat = a from rfl, show (toInfo y b).mat = b from rfl,
    show (toMem st n).nodes = n from rfl, show (toMem st n).heap = st.heap from rfl,
    show (toMem st n).hazard = st.hazard from rfl]
  unfold Query.and
  generalize Query.andOr x.mat y.mat .and = m at hj ⊢
  generalize andOr n a b .and = s at hj ⊢
  obtain ⟨n1, a1⟩ := s
  dsimp only at hj ⊢
  obtain ⟨n2, a2, e2, d2⟩ := concatSets_sim grow x y st.heap n1 m a b a1
  rw [e2]
  generalize setsH grow x y st.heap m = s at d2 ⊢
  obtain ⟨h', i⟩ := s
  dsimp only at d2 ⊢
  obtain ⟨n3, a3, e3, d3⟩ := simplify_sim grow h' n2 i a2 false
  rw [e3]
  generalize HInfo.simplify grow h' i false = s at d3 ⊢
  exact ⟨n3, a3, rfl, (hj.then d2).then d3⟩

theorem alternate_sim (x y : HInfo) (st : HSt) (n : Nodes) (a b : Nat) :
    ∃ n' c, alternate grow (toInfo x a) (toInfo y b) (toMem st n) =
        (toMem (HInfo.alternate grow x y st).1 n', toInfo (HInfo.alternate grow x y st).2 c) ∧
      Joins n a x.mat b y.mat n' c (HInfo.alternate grow x y st).2.mat := by
  unfold alternate HInfo.alternate
  have key : ∀ (st' : HSt) (n1 : Nodes) (i : HInfo) (a1 : Nat), Joins n a x.mat b y.mat n1 a1 i.mat →
      ∃ n' c, (match simplify grow st'.heap n1 (toInfo i a1) false with
          | (h2, n2, z) => ((⟨h2, st'.hazard, n2⟩, z) : Mem × Info)) =
        (toMem (match HInfo.simplify grow st'.heap i false with
          | (h2, z) => ((⟨h2, st'.hazard⟩, z) : HSt × HInfo)).1 n', toInfo (match HInfo.simplify grow st'.heap i false with
          | (h2, z) => ((⟨h2, st'.hazard⟩, z) : HSt × HInfo)).2 c) ∧
      Joins n a x.mat b y.mat n' c (match HInfo.simplify grow st'.heap i false with
          | (h2, z) => ((⟨h2, st'.hazard⟩, z) : HSt × HInfo)).2.mat := by
    intro st' n1 i a1 hj
    obtain ⟨n2, a2, e2, d2⟩ := simplify_sim grow st'.heap n1 i a1 false
    rw [e2]
    generalize HInfo.simplify grow st'.heap i false = c at d2 ⊢
    exact ⟨n2, a2, rfl, hj.then d2⟩
  simp only [toMem, Query.or]
  have e1 : (toInfo x a).mat = a := rfl
  have e2 : (toInfo y b).mat = b := rfl
  have e3 : (toInfo x a).exact = x.exact := rfl
  have e4 : (toInfo y b).exact = y.exact := rfl
  have e5 : (toInfo x a).suf = x.suf := rfl
  have e6 : (toInfo y b).pre = y.pre := rfl
  have e7 : (toInfo x a).pre = x.pre := rfl
  have e8 : (toInfo y b).suf = y.suf := rfl
  have e9 : (toInfo x a).canEmpty = x.canEmpty := rfl
  have e10 : (toInfo y b).canEmpty = y.canEmpty := rfl
  rw [e1, e2, e3, e4, e5, e6, e7, e8, e9, e10]
  cases hx : x.exact with
  | some ex =>
    cases hy : y.exact with
    | some ey =>
      simp only
      generalize st.heap.union grow ex ey false = c
      obtain ⟨h1, e⟩ := c
      simp only
      exact key ⟨h1, st.hazard⟩ _ ⟨_, some e, Slice.nil, Slice.nil, Query.andOr x.mat y.mat .or⟩ _
        (andOr_joins n a b x.mat y.mat .or)
    | none =>
      simp only
      generalize st.heap.inPlace ex (st.heap.read y.pre) = hz1
      generalize st.heap.union grow ex y.pre false = c
      obtain ⟨h1, p⟩ := c
      simp only
      generalize h1.inPlace ex (h1.read y.suf) = hz2
      generalize h1.union grow ex y.suf true = c
      obtain ⟨h2, u⟩ := c
      simp only
      obtain ⟨n1, a1, e1, d1⟩ := addExact_sim h2 n x a
      rw [e1]
      generalize HInfo.addExact h2 x = x1 at d1 ⊢
      exact key ⟨h2, st.hazard || hz1 || hz2⟩ _ ⟨_, none, p, u, Query.andOr x1.mat y.mat .or⟩ _
        (d1.left (andOr_joins n1 a1 b x1.mat y.mat .or))
  | none =>
    cases hy : y.exact with
    | some ey =>
      simp only
      generalize st.heap.union grow x.pre ey false = c
      obtain ⟨h1, p⟩ := c
      simp only
      generalize h1.union grow x.suf ey true = c
      obtain ⟨h2, u⟩ := c
      simp only
      obtain ⟨n1, b1, e1, d1⟩ := addExact_sim h2 n y b
      rw [e1]
      generalize HInfo.addExact h2 y = y1 at d1 ⊢
      exact key ⟨h2, st.hazard⟩ _ ⟨_, none, p, u, Query.andOr x.mat y1.mat .or⟩ _
        (d1.right (andOr_joins n1 a b1 x.mat y1.mat .or))
    | none =>
      simp only
      generalize st.heap.union grow x.pre y.pre false = c
      obtain ⟨h1, p⟩ := c
      simp only
      generalize h1.union grow x.suf y.suf true = c
      obtain ⟨h2, u⟩ := c
      simp only
      exact key ⟨h2, st.hazard⟩ _ ⟨_, none, p, u, Query.andOr x.mat y.mat .or⟩ _
        (andOr_joins n a b x.mat y.mat .or)

theorem Makes.all (n : Nodes) : Makes n n allQuery Query.allQ := fun hb => Done.refl hb (Rep.all hb)

theorem Makes.none (n : Nodes) : Makes n n noneQuery Query.noneQ := fun hb => Done.refl hb (Rep.none hb)

/-- What the analysis of a part gives. -/
def Sim (f : Mem → Mem × Info) (g : HSt → HSt × HInfo) : Prop :=
  ∀ (st : HSt) (n : Nodes), ∃ n' a, f (toMem st n) = (toMem (g st).1 n', toInfo (g st).2 a) ∧ Makes n n' a (g st).2.mat

theorem anyMatch_sim : Sim anyMatch HInfo.anyMatch := fun _ n => ⟨n, allQuery, rfl, Makes.all n⟩
theorem anyChar_sim : Sim anyChar HInfo.anyChar := fun _ n => ⟨n, allQuery, rfl, Makes.all n⟩
theorem emptyString_sim : Sim emptyString HInfo.emptyString := fun _ n => ⟨n, allQuery, rfl, Makes.all n⟩
theorem noMatch_sim : Sim (fun st => (st, noMatch)) (fun st => (st, HInfo.noMatch)) :=
  fun _ n => ⟨n, noneQuery, rfl, Makes.none n⟩

theorem simplifyAll_sim (h : Heap) (hz : Bool) (n : Nodes) (e : Slice) :
    ∃ n' a, (match simplify grow h n ⟨false, some e, Slice.nil, Slice.nil, allQuery⟩ false with
        | (h2, n2, z) => ((⟨h2, hz, n2⟩, z) : Mem × Info)) =
      (toMem (match HInfo.simplify grow h ⟨false, some e, Slice.nil, Slice.nil, Query.allQ⟩ false with
          | (h2, z) => ((⟨h2, hz⟩, z) : HSt × HInfo)).1 n',
        toInfo (match HInfo.simplify grow h ⟨false, some e, Slice.nil, Slice.nil, Query.allQ⟩ false with
          | (h2, z) => ((⟨h2, hz⟩, z) : HSt × HInfo)).2 a) ∧
      Makes n n' a (match HInfo.simplify grow h ⟨false, some e, Slice.nil, Slice.nil, Query.allQ⟩ false with
          | (h2, z) => ((⟨h2, hz⟩, z) : HSt × HInfo)).2.mat := by
  obtain ⟨n2, a2, e2, d2⟩ := simplify_sim grow h n ⟨false, some e, Slice.nil, Slice.nil, Query.allQ⟩ allQuery false
  unfold toInfo at e2
  rw [e2]
  generalize HInfo.simplify grow h ⟨false, some e, Slice.nil, Slice.nil, Query.allQ⟩ false = s at d2 ⊢
  exact ⟨n2, a2, rfl, (Makes.all n).then d2⟩

theorem analyzeClass_sim (ranges : List (Rune × Rune)) :
    Sim (analyzeClass grow ranges) (HInfo.analyzeClass grow ranges) := by
  intro st n
  unfold analyzeClass HInfo.analyzeClass
  split
  · exact noMatch_sim st n
  · split
    · exact anyChar_sim st n
    · dsimp only [toMem]
      generalize st.heap.addAll grow Slice.nil (classStrings ranges) = s
      obtain ⟨h1, e⟩ := s
      exact simplifyAll_sim grow h1 st.hazard n e

theorem analyzeFolds_sim (orbit : Rune → List Rune) : ∀ (rs : List Rune) (i : HInfo) (st : HSt) (n : Nodes) (a : Nat),
    ∃ n' c, analyzeFolds grow orbit rs (toInfo i a) (toMem st n) =
        (toMem (HInfo.analyzeFolds grow orbit rs i st).1 n', toInfo (HInfo.analyzeFolds grow orbit rs i st).2 c) ∧
      Turns n a i.mat n' c (HInfo.analyzeFolds grow orbit rs i st).2.mat
  | [], i, st, n, a => ⟨n, a, rfl, Turns.refl _ _ _⟩
  | r :: rs, i, st, n, a => by
    unfold analyzeFolds HInfo.analyzeFolds
    obtain ⟨n1, b, e1, d1⟩ := analyzeClass_sim grow ((r, r) :: (orbit r).map fun r1 => (r1, r1)) st n
    unfold analyzeFold1 HInfo.analyzeFold1
    rw [e1]
    generalize HInfo.analyzeClass grow ((r, r) :: (orbit r).map fun r1 => (r1, r1)) st = s at d1 ⊢
    obtain ⟨st1, y⟩ := s
    dsimp only at d1 ⊢
    obtain ⟨n2, c, e2, d2⟩ := concat_sim grow i y st1 n1 a b
    rw [e2]
    generalize HInfo.concat grow i y st1 = s at d2 ⊢
    obtain ⟨st2, z⟩ := s
    dsimp only at d2 ⊢
    obtain ⟨n3, d, e3, d3⟩ := analyzeFolds_sim orbit rs z st2 n2 c
    exact ⟨n3, d, e3, (d1.join d2).trans d3⟩

theorem analyzeLiteral_sim (orbit : Rune → List Rune) (rs : List Rune) (f : Bool) :
    Sim (analyzeLiteral grow orbit rs f) (HInfo.analyzeLiteral grow orbit rs f) := by
  intro st n
  unfold analyzeLiteral HInfo.analyzeLiteral
  split
  · match rs with
    | [] => exact emptyString_sim st n
    | [r] => exact analyzeClass_sim grow _ st n
    | r :: r' :: rs =>
      dsimp only
      obtain ⟨n1, a, e1, d1⟩ := emptyString_sim st n
      rw [e1]
      generalize HInfo.emptyString st = s at d1 ⊢
      obtain ⟨st1, i⟩ := s
      dsimp only at d1 ⊢
      obtain ⟨n2, b, e2, d2⟩ := analyzeFolds_sim grow orbit (r :: r' :: rs) i st1 n1 a
      exact ⟨n2, b, e2, d1.then d2⟩
  · dsimp only [toMem]
    generalize st.heap.alloc [encodeRunes rs] 1 = s
    obtain ⟨h1, e⟩ := s
    exact simplifyAll_sim grow h1 st.hazard n e

theorem analyzePlus_sim (i : HInfo) (st : HSt) (n : Nodes) (a : Nat) :
    ∃ n' c, analyzePlus grow (toInfo i a) (toMem st n) =
        (toMem (HInfo.analyzePlus grow i st).1 n', toInfo (HInfo.analyzePlus grow i st).2 c) ∧
      Turns n a i.mat n' c (HInfo.analyzePlus grow i st).2.mat := by
  obtain ⟨ce, ex, p, u, m⟩ := i
  unfold analyzePlus HInfo.analyzePlus
  cases ex with
  | none =>
    dsimp only [toInfo, toMem]
    obtain ⟨n2, a2, e2, d2⟩ := simplify_sim grow st.heap n ⟨ce, none, p, u, m⟩ a false
    unfold toInfo at e2
    rw [e2]
    generalize HInfo.simplify grow st.heap ⟨ce, none, p, u, m⟩ false = s at d2 ⊢
    exact ⟨n2, a2, rfl, d2⟩
  | some e =>
    dsimp only [toInfo, toMem]
    generalize st.heap.append grow Slice.nil (st.heap.read e) = s
    obtain ⟨h1, u1⟩ := s
    dsimp only
    obtain ⟨n2, a2, e2, d2⟩ := simplify_sim grow h1 n ⟨ce, none, e, u1, m⟩ a false
    unfold toInfo at e2
    rw [e2]
    generalize HInfo.simplify grow h1 ⟨ce, none, e, u1, m⟩ false = s at d2 ⊢
    exact ⟨n2, a2, rfl, d2⟩

mutual
theorem analyze_sim (orbit : Rune → List Rune) : ∀ (re : Re),
    Sim (analyze grow orbit re) (HInfo.analyze grow orbit re)
  | .noMatch => by intro st n; simp only [analyze, HInfo.analyze]; exact noMatch_sim st n
  | .emptyMatch => by intro st n; simp only [analyze, HInfo.analyze]; exact emptyString_sim st n
  | .beginLine => by intro st n; simp only [analyze, HInfo.analyze]; exact emptyString_sim st n
  | .endLine => by intro st n; simp only [analyze, HInfo.analyze]; exact emptyString_sim st n
  | .beginText => by intro st n; simp only [analyze, HInfo.analyze]; exact emptyString_sim st n
  | .endText => by intro st n; simp only [analyze, HInfo.analyze]; exact emptyString_sim st n
  | .wordBoundary => by intro st n; simp only [analyze, HInfo.analyze]; exact emptyString_sim st n
  | .noWordBoundary => by intro st n; simp only [analyze, HInfo.analyze]; exact emptyString_sim st n
  | .literal rs f => by intro st n; simp only [analyze, HInfo.analyze]; exact analyzeLiteral_sim grow orbit rs f st n
  | .anyCharNotNL => by intro st n; simp only [analyze, HInfo.analyze]; exact anyChar_sim st n
  | .anyChar => by intro st n; simp only [analyze, HInfo.analyze]; exact anyChar_sim st n
  | .capture r => by intro st n; simp only [analyze, HInfo.analyze]; exact analyze_sim orbit r st n
  | .concat [] => by intro st n; simp only [analyze, HInfo.analyze]; exact emptyString_sim st n
  | .concat (r :: rs) => by
    intro st n
    rw [analyze, HInfo.analyze]
    obtain ⟨n1, a, e1, d1⟩ := analyze_sim orbit r st n
    rw [e1]
    generalize HInfo.analyze grow orbit r st = s at d1 ⊢
    obtain ⟨st1, x⟩ := s
    dsimp only at d1 ⊢
    obtain ⟨n2, b, e2, d2⟩ := foldConcat_sim orbit rs x st1 n1 a
    exact ⟨n2, b, e2, d1.then d2⟩
  | .alternate [] => by intro st n; simp only [analyze, HInfo.analyze]; exact noMatch_sim st n
  | .alternate (r :: rs) => by
    intro st n
    rw [analyze, HInfo.analyze]
    obtain ⟨n1, a, e1, d1⟩ := analyze_sim orbit r st n
    rw [e1]
    generalize HInfo.analyze grow orbit r st = s at d1 ⊢
    obtain ⟨st1, x⟩ := s
    dsimp only at d1 ⊢
    obtain ⟨n2, b, e2, d2⟩ := foldAlternate_sim orbit rs x st1 n1 a
    exact ⟨n2, b, e2, d1.then d2⟩
  | .quest r => by
    intro st n
    rw [analyze, HInfo.analyze]
    obtain ⟨n1, a, e1, d1⟩ := analyze_sim orbit r st n
    rw [e1]
    generalize HInfo.analyze grow orbit r st = s at d1 ⊢
    obtain ⟨st1, x⟩ := s
    dsimp only at d1 ⊢
    obtain ⟨n2, b, e2, d2⟩ := emptyString_sim st1 n1
    rw [e2]
    generalize HInfo.emptyString st1 = s at d2 ⊢
    obtain ⟨st2, y⟩ := s
    dsimp only at d2 ⊢
    obtain ⟨n3, c, e3, d3⟩ := alternate_sim grow x y st2 n2 a b
    exact ⟨n3, c, e3, d1.then (d2.join d3)⟩
  | .star r => by intro st n; simp only [analyze, HInfo.analyze]; exact anyMatch_sim st n
  | .rep r lo hi => by
    intro st n
    rw [analyze, HInfo.analyze]
    split
    · exact anyMatch_sim st n
    · obtain ⟨n1, a, e1, d1⟩ := analyze_sim orbit r st n
      rw [e1]
      generalize HInfo.analyze grow orbit r st = s at d1 ⊢
      obtain ⟨st1, x⟩ := s
      dsimp only at d1 ⊢
      obtain ⟨n2, b, e2, d2⟩ := analyzePlus_sim grow x st1 n1 a
      exact ⟨n2, b, e2, d1.then d2⟩
  | .plus r => by
    intro st n
    rw [analyze, HInfo.analyze]
    obtain ⟨n1, a, e1, d1⟩ := analyze_sim orbit r st n
    rw [e1]
    generalize HInfo.analyze grow orbit r st = s at d1 ⊢
    obtain ⟨st1, x⟩ := s
    dsimp only at d1 ⊢
    obtain ⟨n2, b, e2, d2⟩ := analyzePlus_sim grow x st1 n1 a
    exact ⟨n2, b, e2, d1.then d2⟩
  | .charClass ranges => by intro st n; simp only [analyze, HInfo.analyze]; exact analyzeClass_sim grow ranges st n
theorem foldConcat_sim (orbit : Rune → List Rune) : ∀ (rs : List Re) (x : HInfo) (st : HSt) (n : Nodes) (a : Nat),
    ∃ n' c, foldConcat grow orbit rs (toInfo x a) (toMem st n) =
        (toMem (HInfo.foldConcat grow orbit rs x st).1 n', toInfo (HInfo.foldConcat grow orbit rs x st).2 c) ∧
      Turns n a x.mat n' c (HInfo.foldConcat grow orbit rs x st).2.mat
  | [], x, st, n, a => ⟨n, a, by rw [foldConcat, HInfo.foldConcat], by rw [HInfo.foldConcat]; exact Turns.refl _ _ _⟩
  | r :: rs, x, st, n, a => by
    rw [foldConcat, HInfo.foldConcat]
    obtain ⟨n1, b, e1, d1⟩ := analyze_sim orbit r st n
    rw [e1]
    generalize HInfo.analyze grow orbit r st = s at d1 ⊢
    obtain ⟨st1, y⟩ := s
    dsimp only at d1 ⊢
    obtain ⟨n2, c, e2, d2⟩ := concat_sim grow x y st1 n1 a b
    rw [e2]
    generalize HInfo.concat grow x y st1 = s at d2 ⊢
    obtain ⟨st2, z⟩ := s
    dsimp only at d2 ⊢
    obtain ⟨n3, d, e3, d3⟩ := foldConcat_sim orbit rs z st2 n2 c
    exact ⟨n3, d, e3, (d1.join d2).trans d3⟩
theorem foldAlternate_sim (orbit : Rune → List Rune) : ∀ (rs : List Re) (x : HInfo) (st : HSt) (n : Nodes) (a : Nat),
    ∃ n' c, foldAlternate grow orbit rs (toInfo x a) (toMem st n) =
        (toMem (HInfo.foldAlternate grow orbit rs x st).1 n', toInfo (HInfo.foldAlternate grow orbit rs x st).2 c) ∧
      Turns n a x.mat n' c (HInfo.foldAlternate grow orbit rs x st).2.mat
  | [], x, st, n, a => ⟨n, a, by rw [foldAlternate, HInfo.foldAlternate], by rw [HInfo.foldAlternate]; exact Turns.refl _ _ _⟩
  | r :: rs, x, st, n, a => by
    rw [foldAlternate, HInfo.foldAlternate]
    obtain ⟨n1, b, e1, d1⟩ := analyze_sim orbit r st n
    rw [e1]
    generalize HInfo.analyze grow orbit r st = s at d1 ⊢
    obtain ⟨st1, y⟩ := s
    dsimp only at d1 ⊢
    obtain ⟨n2, c, e2, d2⟩ := alternate_sim grow x y st1 n1 a b
    rw [e2]
    generalize HInfo.alternate grow x y st1 = s at d2 ⊢
    obtain ⟨st2, z⟩ := s
    dsimp only at d2 ⊢
    obtain ⟨n3, d, e3, d3⟩ := foldAlternate_sim orbit rs z st2 n2 c
    exact ⟨n3, d, e3, (d1.join d2).trans d3⟩
end

/-- `RegexpQuery` in memory makes the query of the analysis with queries as values, out of new nodes. -/
theorem regexpQuery_makes (orbit : Rune → List Rune) (re : Re) (n : Nodes) :
    Makes n (regexpQuery grow orbit re n).1 (regexpQuery grow orbit re n).2 (HInfo.regexpQuery grow orbit re).1 := by
  unfold regexpQuery HInfo.regexpQuery
  obtain ⟨n1, a, e1, d1⟩ := analyze_sim grow orbit re ⟨⟨[]⟩, false⟩ n
  unfold toMem at e1
  rw [e1]
  generalize HInfo.analyze grow orbit re ⟨⟨[]⟩, false⟩ = s at d1 ⊢
  obtain ⟨st1, x⟩ := s
  dsimp only at d1 ⊢
  obtain ⟨n2, b, e2, d2⟩ := simplify_sim grow st1.heap n1 x a true
  rw [e2]
  generalize HInfo.simplify grow st1.heap x true = s at d2 ⊢
  obtain ⟨h2, i2⟩ := s
  dsimp only at d2 ⊢
  obtain ⟨n3, c, e3, d3⟩ := addExact_sim h2 n2 i2 b
  rw [e3]
  exact (d1.then d2).then d3

end QN
end Hound
