import Verif.Spec.Config

namespace Hound.Config
open Spec

theorem insertMember_perm (e : Bytes × Json) (l : List (Bytes × Json)) :
    (insertMember e l).Perm (e :: l) := by
  induction l with
  | nil => exact .refl _
  | cons x xs ih =>
    simp only [insertMember]
    split
    · exact .refl _
    · exact (List.Perm.cons x ih).trans (.swap e x xs)

theorem sortMembers_perm (l : List (Bytes × Json)) : (l.foldr insertMember []).Perm l := by
  induction l with
  | nil => exact .refl _
  | cons x xs ih =>
    simp only [List.foldr_cons]
    exact (insertMember_perm x _).trans (.cons x ih)

theorem perm_small {α : Type} {a b : List α} (h : a.Perm b) (hl : b.length ≤ 1) : a = b := by
  cases b with
  | nil => exact h.eq_nil
  | cons x xs =>
    cases xs with
    | nil => exact h.eq_singleton
    | cons y ys => simp at hl

theorem filter_toMap (p : Bytes → Bool) (ms : List (Bytes × Json))
    (h : (ms.filter fun e => p e.1).length ≤ 1) :
    (toMap ms).filter (fun e => p e.1) = ms.filter fun e => p e.1 := by
  induction ms with
  | nil => rfl
  | cons e r ih =>
    obtain ⟨k, v⟩ := e
    simp only [toMap]
    cases hp : p k with
    | false =>
      have h' : (r.filter fun e => p e.1).length ≤ 1 := by simpa [hp] using h
      split
      · simp [hp, ih h']
      · simp [hp, ih h']
    | true =>
      have h0 : r.filter (fun e => p e.1) = [] := by
        simp [hp] at h
        simpa using h
      split
      · rename_i hany
        obtain ⟨x, hx, hxk⟩ := List.any_eq_true.1 hany
        have : x ∈ r.filter (fun e => p e.1) :=
          List.mem_filter.2 ⟨hx, by rw [beq_iff_eq.1 hxk]; exact hp⟩
        rw [h0] at this
        simp at this
      · simp [hp, ih (by rw [h0]; simp)]

theorem toMap_key (ms : List (Bytes × Json)) (k : Bytes) :
    (toMap ms).filter (fun e => e.1 == k) = ((ms.filter fun e => e.1 == k).getLast?).toList := by
  induction ms with
  | nil => rfl
  | cons e r ih =>
    obtain ⟨k', v⟩ := e
    simp only [toMap]
    by_cases hk : k' = k
    · subst hk
      simp only [List.filter_cons, beq_self_eq_true, if_true]
      cases hf : r.filter (fun e => e.1 == k') with
      | nil =>
        have hnone : (r.any fun e => e.1 == k') = false := by
          rw [← Bool.not_eq_true, List.any_eq_true]
          rintro ⟨x, hx, hxk⟩
          have : x ∈ r.filter (fun e => e.1 == k') := List.mem_filter.2 ⟨hx, hxk⟩
          rw [hf] at this; simp at this
        rw [hf] at ih
        simp [hnone, ih]
      | cons y ys =>
        have hany : (r.any fun e => e.1 == k') = true := by
          have : y ∈ r.filter (fun e => e.1 == k') := by rw [hf]; simp
          obtain ⟨h1, h2⟩ := List.mem_filter.1 this
          exact List.any_eq_true.2 ⟨y, h1, h2⟩
        rw [hf] at ih
        simp [hany, ih, List.getLast?_cons_cons]
    · have hb : (k' == k) = false := by simpa using hk
      split
      · simp [hb, ih]
      · simp [hb, ih]

theorem lookup_eq_filter (k : Bytes) (l : List (Bytes × Json)) :
    l.lookup k = ((l.filter fun e => e.1 == k).head?).map (·.2) := by
  induction l with
  | nil => rfl
  | cons e r ih =>
    obtain ⟨k', v⟩ := e
    simp only [List.lookup_cons, List.filter_cons]
    by_cases hk : k = k'
    · simp [hk]
    · have h1 : (k == k') = false := by simpa using hk
      have h2 : (k' == k) = false := by simpa using Ne.symm hk
      simp [h1, h2, ih]

theorem lookup_toMap (k : Bytes) (ms : List (Bytes × Json)) :
    (toMap ms).lookup k = memberValue k (.obj ms) := by
  rw [lookup_eq_filter, toMap_key]
  simp only [memberValue]
  cases (ms.filter fun e => e.1 == k).getLast? <;> simp

/-- At most one member per key. -/
def OneEach (m : List (Bytes × Json)) : Prop := ∀ k, (m.filter fun e => e.1 == k).length ≤ 1

theorem oneEach_toMap (ms : List (Bytes × Json)) : OneEach (toMap ms) := by
  intro k
  rw [toMap_key]
  cases (ms.filter fun e => e.1 == k).getLast? <;> simp

theorem mergeVals_key (g r : List (Bytes × Json)) (k : Bytes) :
    (mergeVals g r).filter (fun e => e.1 == k) =
      r.filter (fun e => e.1 == k) ++
        if (r.lookup k).isNone then g.filter (fun e => e.1 == k) else [] := by
  unfold mergeVals
  rw [List.filter_append, List.filter_filter]
  congr 1
  split
  · rename_i hn
    refine List.filter_congr fun e _ => ?_
    by_cases hk : e.1 = k
    · simp [hk, hn]
    · have : (e.1 == k) = false := by simpa using hk
      simp [this]
  · rename_i hn
    refine List.filter_eq_nil_iff.2 fun e _ => ?_
    by_cases hk : e.1 = k
    · simp [hk, hn]
    · have : (e.1 == k) = false := by simpa using hk
      simp [this]

theorem oneEach_merge {g r : List (Bytes × Json)} (hg : OneEach g) (hr : OneEach r) :
    OneEach (mergeVals g r) := by
  intro k
  rw [mergeVals_key, List.length_append]
  split
  · rename_i hn
    have : r.filter (fun e => e.1 == k) = [] := by
      rw [lookup_eq_filter] at hn
      cases hf : r.filter (fun e => e.1 == k) with
      | nil => rfl
      | cons a b => rw [hf] at hn; simp at hn
    rw [this]
    simpa using hg k
  · simpa using hr k

/-- The value of a key in the marshalled map is the value in the map. -/
theorem memberValue_marshal {m : List (Bytes × Json)} (hm : OneEach m) (k : Bytes) :
    memberValue k (marshalMap m) = m.lookup k := by
  simp only [marshalMap, memberValue]
  have hp : ((m.foldr insertMember []).filter fun e => e.1 == k).Perm (m.filter fun e => e.1 == k) :=
    (sortMembers_perm m).filter _
  have hk := hm k
  rw [perm_small hp hk, lookup_eq_filter]
  cases hf : m.filter (fun e => e.1 == k) with
  | nil => rfl
  | cons a b =>
    cases b with
    | nil => rfl
    | cons c d => rw [hf] at hk; simp at hk

theorem mergeVals_lookup (g r : List (Bytes × Json)) (k : Bytes) :
    (mergeVals g r).lookup k = (r.lookup k).or (g.lookup k) := by
  rw [lookup_eq_filter, mergeVals_key]
  cases hl : r.lookup k with
  | none =>
    have hn := hl
    rw [lookup_eq_filter] at hn
    cases hf : r.filter (fun e => e.1 == k) with
    | nil => simp [lookup_eq_filter k g]
    | cons a b => rw [hf] at hn; simp at hn
  | some v =>
    have hn := hl
    rw [lookup_eq_filter] at hn
    cases hf : r.filter (fun e => e.1 == k) with
    | nil => rw [hf] at hn; simp at hn
    | cons a b => rw [hf] at hn; simp at hn; simp [hn]

theorem oneEach_nil : OneEach [] := by intro k; simp

theorem mergeMessage_setting {g : List (Bytes × Json)} (hg : OneEach g) {msg : Option Json} {j : Json}
    (h : mergeMessage g msg = .ok j) (k : Bytes) :
    memberValue k j = (msg.bind (memberValue k)).or (g.lookup k) := by
  unfold mergeMessage at h
  split at h
  · obtain rfl := Except.ok.inj h
    rw [memberValue_marshal (oneEach_merge hg oneEach_nil), mergeVals_lookup]
    simp
  · rename_i j'
    cases j' with
    | obj ms =>
      simp only [unmarshalMap, Except.ok.injEq] at h
      rw [← h, memberValue_marshal (oneEach_merge hg (oneEach_toMap ms)), mergeVals_lookup, lookup_toMap]
      rfl
    | null =>
      simp only [unmarshalMap] at h
      split at h
      · rename_i hgn
        simp only [Except.ok.injEq] at h
        subst h; subst hgn
        simp [memberValue]
      · simp at h
    | bool b => simp [unmarshalMap] at h
    | num b => simp [unmarshalMap] at h
    | str b => simp [unmarshalMap] at h
    | arr b => simp [unmarshalMap] at h

theorem decodeGlobals_lookup {ms : List (Bytes × Option Json)} :
    ∀ {gs : List (Bytes × List (Bytes × Json))}, decodeGlobals ms = .ok gs → ∀ vcs,
    (gs.lookup vcs = none ↔ ms.lookup vcs = none) ∧
    (∀ g, gs.lookup vcs = some g → OneEach g ∧
      ∃ m, ms.lookup vcs = some (some m) ∧ (∀ k, g.lookup k = memberValue k m) ∧
        ((∃ members, m = .obj members ∧ g = toMap members) ∨ (m = .null ∧ g = []))) := by
  induction ms with
  | nil => intro gs h vcs; simp [decodeGlobals] at h; subst h; simp
  | cons e rest ih =>
    intro gs h vcs
    obtain ⟨v, m⟩ := e
    cases m with
    | none => simp [decodeGlobals] at h
    | some msg =>
      simp only [decodeGlobals] at h
      cases hu : unmarshalMap msg with
      | error e => simp [hu] at h
      | ok vals =>
        simp only [hu] at h
        cases hd : decodeGlobals rest with
        | error e => simp [hd] at h
        | ok r =>
          simp only [hd, Except.ok.injEq] at h
          subst h
          obtain ⟨i1, i2⟩ := ih hd vcs
          simp only [List.lookup_cons]
          by_cases hv : vcs = v
          · simp only [hv, beq_self_eq_true]
            refine ⟨by simp, ?_⟩
            intro g hgg
            obtain rfl := Option.some.inj hgg
            cases msg with
            | obj members =>
              simp only [unmarshalMap, Except.ok.injEq] at hu
              subst hu
              exact ⟨oneEach_toMap _, _, rfl, fun k => lookup_toMap k members, .inl ⟨members, rfl, rfl⟩⟩
            | null =>
              simp only [unmarshalMap, Except.ok.injEq] at hu
              subst hu
              exact ⟨oneEach_nil, _, rfl, fun k => rfl, .inr ⟨rfl, rfl⟩⟩
            | bool b => simp [unmarshalMap] at hu
            | num b => simp [unmarshalMap] at hu
            | str b => simp [unmarshalMap] at hu
            | arr b => simp [unmarshalMap] at hu
          · have hb : (vcs == v) = false := by simpa using hv
            simp only [hb]
            exact ⟨i1, i2⟩

/-- What merging does to one repository. -/
def MergedFrom (messages : List (Bytes × Option Json)) (r r' : Repo) : Prop :=
  (∃ m, r' = { r with vcsConfigMessage := m }) ∧
  (messages = [] ∨ messages.lookup r.vcs = none → r' = r) ∧
  (∀ msg, messages.lookup r.vcs = some msg → ∃ g gm j, OneEach g ∧ msg = some gm ∧
    (∀ k, g.lookup k = memberValue k gm) ∧
    ((∃ members, gm = .obj members ∧ g = toMap members) ∨ (gm = .null ∧ g = [])) ∧
    mergeMessage g r.vcsConfigMessage = .ok j ∧ r'.vcsConfigMessage = some j)

theorem mergeRepo_spec {ms : List (Bytes × Option Json)} {gs : List (Bytes × List (Bytes × Json))}
    (hd : decodeGlobals ms = .ok gs) {r r' : Repo} (h : mergeRepo gs r = .ok r') :
    MergedFrom ms r r' := by
  obtain ⟨i1, i2⟩ := decodeGlobals_lookup hd r.vcs
  unfold mergeRepo at h
  split at h
  · rename_i hl
    obtain rfl := Except.ok.inj h
    refine ⟨⟨_, rfl⟩, fun _ => rfl, ?_⟩
    intro msg hm
    rw [i1.1 hl] at hm
    simp at hm
  · rename_i g hl
    split at h
    · simp at h
    · rename_i j hj
      obtain rfl := Except.ok.inj h
      obtain ⟨hg, m, hm, hk, hshape⟩ := i2 g hl
      refine ⟨⟨_, rfl⟩, ?_, ?_⟩
      · rintro (rfl | hn)
        · simp [decodeGlobals] at hd; subst hd; simp at hl
        · rw [hm] at hn; simp at hn
      · intro msg hmsg
        rw [hm] at hmsg
        exact ⟨g, m, j, hg, (Option.some.inj hmsg).symm, hk, hshape, hj, rfl⟩

theorem mergeRepos_mem {gs : List (Bytes × List (Bytes × Json))} :
    ∀ {rs rs' : List (Bytes × Repo)}, mergeRepos gs rs = .ok rs' →
    rs'.map (·.1) = rs.map (·.1) ∧
    (∀ n r, (n, r) ∈ rs → ∃ r', (n, r') ∈ rs' ∧ mergeRepo gs r = .ok r') ∧
    (∀ n r', (n, r') ∈ rs' → ∃ r, (n, r) ∈ rs ∧ mergeRepo gs r = .ok r') := by
  intro rs
  induction rs with
  | nil => intro rs' h; simp [mergeRepos] at h; subst h; simp
  | cons e rest ih =>
    intro rs' h
    obtain ⟨n0, r0⟩ := e
    simp only [mergeRepos] at h
    split at h
    · simp at h
    · rename_i r0' h0
      split at h
      · simp at h
      · rename_i rs0 hrs
        obtain rfl := Except.ok.inj h
        obtain ⟨a, b, c⟩ := ih hrs
        refine ⟨by simp [a], ?_, ?_⟩
        · intro n r hm
          rcases List.mem_cons.1 hm with heq | hm
          · simp only [Prod.mk.injEq] at heq
            obtain ⟨rfl, rfl⟩ := heq
            exact ⟨r0', by simp, h0⟩
          · obtain ⟨r', hr', hh⟩ := b n r hm
            exact ⟨r', by simp [hr'], hh⟩
        · intro n r' hm
          rcases List.mem_cons.1 hm with heq | hm
          · simp only [Prod.mk.injEq] at heq
            obtain ⟨rfl, rfl⟩ := heq
            exact ⟨r0, by simp, h0⟩
          · obtain ⟨r, hr, hh⟩ := c n r' hm
            exact ⟨r, by simp [hr], hh⟩

theorem initRepos_mem : ∀ {rs : List (Bytes × Option Repo)} {rs' : List (Bytes × Repo)},
    initRepos rs = .ok rs' →
    rs'.map (·.1) = rs.map (·.1) ∧ (∀ n m, (n, m) ∈ rs → ∃ r, m = some r ∧ (n, initRepo r) ∈ rs') ∧
    (∀ n r', (n, r') ∈ rs' → ∃ r, (n, some r) ∈ rs ∧ r' = initRepo r) := by
  intro rs
  induction rs with
  | nil => intro rs' h; simp [initRepos] at h; subst h; simp
  | cons e rest ih =>
    intro rs' h
    obtain ⟨n0, m0⟩ := e
    cases m0 with
    | none => simp [initRepos] at h
    | some r0 =>
      simp only [initRepos] at h
      split at h
      · simp at h
      · rename_i rs0 hrs
        obtain rfl := Except.ok.inj h
        obtain ⟨a, b, c⟩ := ih hrs
        refine ⟨by simp [a], ?_, ?_⟩
        · intro n m hm
          rcases List.mem_cons.1 hm with heq | hm
          · simp only [Prod.mk.injEq] at heq
            obtain ⟨rfl, rfl⟩ := heq
            exact ⟨r0, rfl, by simp⟩
          · obtain ⟨r, hr, hh⟩ := b n m hm
            exact ⟨r, hr, by simp [hh]⟩
        · intro n r' hm
          rcases List.mem_cons.1 hm with heq | hm
          · simp only [Prod.mk.injEq] at heq
            obtain ⟨rfl, rfl⟩ := heq
            exact ⟨r0, by simp, rfl⟩
          · obtain ⟨r, hr, hh⟩ := c n r' hm
            exact ⟨r, by simp [hr], hh⟩

theorem mergeRepos_length {gs : List (Bytes × List (Bytes × Json))} {rs rs' : List (Bytes × Repo)}
    (h : mergeRepos gs rs = .ok rs') : rs'.length = rs.length := by
  have := congrArg List.length (mergeRepos_mem h).1
  simpa using this

/-- What loading does to the repositories, both ways. -/
theorem load_repos {c : Config} {L : Loaded} (h : load c = .ok L) :
    L.repos.map (·.1) = c.repos.map (·.1) ∧
    (∀ n m, (n, m) ∈ c.repos → ∃ r r', m = some r ∧ (n, r') ∈ L.repos ∧
      MergedFrom c.vcsConfigMessages (initRepo r) r') ∧
    (∀ n r', (n, r') ∈ L.repos → ∃ r, (n, some r) ∈ c.repos ∧
      MergedFrom c.vcsConfigMessages (initRepo r) r') := by
  unfold load at h
  split at h
  · simp at h
  · rename_i rs hrs
    obtain ⟨a, b, d⟩ := initRepos_mem hrs
    split at h
    · simp at h
    · rename_i rs' hrs'
      obtain rfl := Except.ok.inj h
      unfold mergeVCSConfigs at hrs'
      split at hrs'
      · rename_i hm0
        obtain rfl := Except.ok.inj hrs'
        have triv : ∀ r, MergedFrom c.vcsConfigMessages (initRepo r) (initRepo r) := by
          intro r
          refine ⟨⟨_, rfl⟩, fun _ => rfl, ?_⟩
          intro msg hmsg
          rw [hm0] at hmsg
          simp at hmsg
        refine ⟨a, ?_, ?_⟩
        · intro n m hm
          obtain ⟨r, hr, hin⟩ := b n m hm
          exact ⟨r, _, hr, hin, triv r⟩
        · intro n r' hr'
          obtain ⟨r, hr, rfl⟩ := d n r' hr'
          exact ⟨r, hr, triv r⟩
      · split at hrs'
        · simp at hrs'
        · rename_i gs hgs
          obtain ⟨p, q, s⟩ := mergeRepos_mem hrs'
          refine ⟨p.trans a, ?_, ?_⟩
          · intro n m hm
            obtain ⟨r, hr, hin⟩ := b n m hm
            obtain ⟨r', hr', hh⟩ := q n _ hin
            exact ⟨r, r', hr, hr', mergeRepo_spec hgs hh⟩
          · intro n r' hr'
            obtain ⟨r1, hr1, hh⟩ := s n r' hr'
            obtain ⟨r, hr, rfl⟩ := d n r1 hr1
            exact ⟨r, hr, mergeRepo_spec hgs hh⟩

/-! ## the driver's view -/

theorem driverField_hits {field : Bytes} {ms ms' : List (Bytes × Json)}
    (h : ms.filter (fun e => foldKey e.1 == foldKey field) = ms'.filter (fun e => foldKey e.1 == foldKey field)) :
    driverField field (some (.obj ms)) = driverField field (some (.obj ms')) := by
  have e : ∀ l : List (Bytes × Json), (l.filter fun e => foldKey e.1 == foldKey field && !e.2.isNull) =
      (l.filter fun e => foldKey e.1 == foldKey field).filter fun e => !e.2.isNull := by
    intro l
    rw [List.filter_filter]
    exact List.filter_congr fun e _ => Bool.and_comm _ _
  simp only [driverField, e, h]

end Hound.Config
