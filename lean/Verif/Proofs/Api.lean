import Verif.Model.Api
import Verif.Spec.Api

namespace Hound.Api
open Spec

theorem digitsVal_some {s : Bytes} : ∀ {a v : Nat}, digitsVal a s = some v →
    (∀ c ∈ s, 48 ≤ c ∧ c ≤ 57) ∧ v = s.foldl (fun a c => a * 10 + (c.toNat - 48)) a := by
  induction s with
  | nil => intro a v h; simp [digitsVal] at h; simp [h]
  | cons c cs ih =>
    intro a v h
    simp only [digitsVal] at h
    split at h
    · rename_i hc
      obtain ⟨h1, h2⟩ := ih h
      refine ⟨?_, by simpa using h2⟩
      intro x hx
      rcases List.mem_cons.1 hx with rfl | hx
      · exact hc
      · exact h1 x hx
    · simp at h

theorem digitsVal_of {s : Bytes} : ∀ (a : Nat), (∀ c ∈ s, 48 ≤ c ∧ c ≤ 57) →
    digitsVal a s = some (s.foldl (fun a c => a * 10 + (c.toNat - 48)) a) := by
  induction s with
  | nil => intro a h; simp [digitsVal]
  | cons c cs ih =>
    intro a h
    simp only [digitsVal]
    rw [if_pos (h c (by simp)), ih _ (fun x hx => h x (by simp [hx]))]
    simp

/-- `ParseUint` accepts exactly the numerals in range. -/
theorem parseUint_iff {bits : Nat} {s : Bytes} {v : Nat} :
    parseUint bits s = some v ↔ IsNumeral s v ∧ v < 2 ^ bits := by
  unfold parseUint IsNumeral
  constructor
  · intro h
    split at h
    · simp at h
    · rename_i hs
      split at h
      · simp at h
      · rename_i w hw
        split at h
        · rename_i hlt
          obtain rfl := Option.some.inj h
          obtain ⟨a, b⟩ := digitsVal_some hw
          exact ⟨⟨hs, a, b⟩, hlt⟩
        · simp at h
  · rintro ⟨⟨hs, hd, hv⟩, hlt⟩
    rw [if_neg hs, digitsVal_of 0 hd, ← hv]
    simp [hlt]

theorem parseUint_none {bits : Nat} {s : Bytes} :
    parseUint bits s = none ↔ ∀ v, IsNumeral s v → 2 ^ bits ≤ v := by
  constructor
  · intro h v hv
    refine Nat.le_of_not_lt fun hlt => ?_
    rw [(parseUint_iff (bits := bits)).2 ⟨hv, hlt⟩] at h
    simp at h
  · intro h
    cases hp : parseUint bits s with
    | none => rfl
    | some v =>
      obtain ⟨a, b⟩ := parseUint_iff.1 hp
      have := h v a
      omega

theorem isNumeral_head {c : UInt8} {s : Bytes} {n : Nat} (h : IsNumeral (c :: s) n) :
    c ≠ 43 ∧ c ≠ 45 := by
  have := (h.2.1 c (by simp)).1
  constructor <;> (rintro rfl; exact absurd this (by decide))

/-- `ParseInt` accepts exactly the signed numerals in range. -/
theorem parseInt_iff {s : Bytes} {v : Int} :
    parseInt s = some v ↔ IsSigned s v ∧ -(2 ^ 63) ≤ v ∧ v < 2 ^ 63 := by
  unfold parseInt IsSigned
  cases s with
  | nil =>
    simp only [reduceCtorEq, false_iff]
    rintro ⟨⟨d, m, hd, h | h | h⟩, -⟩
    · exact hd.1 h.1.symm
    · simp at h
    · simp at h
  | cons c cs =>
    simp only
    split
    · rename_i hc
      subst hc
      cases hp : parseUint 64 cs with
      | none =>
        simp only [reduceCtorEq, false_iff]
        rintro ⟨⟨d, m, hd, ⟨h, -⟩ | ⟨h, -⟩ | ⟨h, hv⟩⟩, hlo, -⟩
        · exact (isNumeral_head (h ▸ hd)).2 rfl
        · simp at h
        · obtain rfl : cs = d := by simpa using h
          have := parseUint_none.1 hp m hd
          omega
      | some w =>
        obtain ⟨hw, hlt⟩ := parseUint_iff.1 hp
        simp only
        constructor
        · intro h
          split at h
          · simp at h
          · simp only [Option.some.injEq] at h
            exact ⟨⟨cs, w, hw, .inr (.inr ⟨rfl, h.symm⟩)⟩, by omega, by omega⟩
        · rintro ⟨⟨d, m, hd, ⟨h, -⟩ | ⟨h, -⟩ | ⟨h, hv⟩⟩, hlo, -⟩
          · exact absurd rfl (isNumeral_head (h ▸ hd)).2
          · simp at h
          · obtain rfl : cs = d := by simpa using h
            have : m = w := by rw [hd.2.2, hw.2.2]
            subst this
            rw [if_neg (by omega)]
            simp [hv]
    · rename_i hc
      have key : (∃ d m, IsNumeral d m ∧ ((c :: cs = d ∧ v = m) ∨ (c :: cs = 43 :: d ∧ v = m) ∨
          (c :: cs = 45 :: d ∧ v = -(m : Int)))) ↔
          ∃ m, IsNumeral (if c = 43 then cs else c :: cs) m ∧ v = m := by
        constructor
        · rintro ⟨d, m, hd, ⟨h, hv⟩ | ⟨h, hv⟩ | ⟨h, hv⟩⟩
          · refine ⟨m, ?_, hv⟩
            rw [if_neg (isNumeral_head (h ▸ hd)).1, h]; exact hd
          · simp only [List.cons.injEq] at h
            exact ⟨m, by rw [if_pos h.1, h.2]; exact hd, hv⟩
          · simp only [List.cons.injEq] at h
            exact absurd h.1 hc
        · rintro ⟨m, hm, hv⟩
          split at hm
          · rename_i h43
            exact ⟨cs, m, hm, .inr (.inl ⟨by rw [h43], hv⟩)⟩
          · exact ⟨_, m, hm, .inl ⟨rfl, hv⟩⟩
      rw [key]
      cases hp : parseUint 64 (if c = 43 then cs else c :: cs) with
      | none =>
        simp only [reduceCtorEq, false_iff]
        rintro ⟨⟨m, hm, hv⟩, -, hhi⟩
        have := parseUint_none.1 hp m hm
        omega
      | some w =>
        obtain ⟨hw, hlt⟩ := parseUint_iff.1 hp
        simp only
        constructor
        · intro h
          split at h
          · simp at h
          · simp only [Option.some.injEq] at h
            exact ⟨⟨w, hw, h.symm⟩, by omega, by omega⟩
        · rintro ⟨⟨m, hm, hv⟩, -, hhi⟩
          have : m = w := by rw [hm.2.2, hw.2.2]
          subst this
          rw [if_neg (by omega)]
          simp [hv]

theorem indexByte_split {b : Bytes} {c : UInt8} :
    (indexByte b c = none → c ∉ b) ∧
    (∀ i, indexByte b c = some i → b = b.take i ++ c :: b.drop (i + 1) ∧ c ∉ b.take i) := by
  induction b with
  | nil => simp [indexByte]
  | cons x xs ih =>
    simp only [indexByte]
    by_cases hx : x = c
    · subst hx; simp
    · simp only [if_neg hx, Option.map_eq_none_iff, Option.map_eq_some_iff]
      refine ⟨fun h => ?_, ?_⟩
      · simp [Ne.symm hx, ih.1 h]
      · rintro i ⟨j, hj, rfl⟩
        obtain ⟨h1, h2⟩ := ih.2 j hj
        simp only [List.take_succ_cons, List.drop_succ_cons, List.cons_append, List.cons.injEq, true_and]
        exact ⟨h1, by simp [Ne.symm hx, h2]⟩

theorem indexByte_append {l r : Bytes} {c : UInt8} (h : c ∉ l) :
    indexByte (l ++ c :: r) c = some l.length := by
  induction l with
  | nil => simp [indexByte]
  | cons x xs ih =>
    simp only [List.mem_cons, not_or] at h
    simp [indexByte, Ne.symm h.1, ih h.2]

/-! ## trimming and splitting -/

theorem trimLeftLoop_spec (ws : List Bytes) (hne : ∀ w ∈ ws, w ≠ []) :
    ∀ (fuel : Nat) (s : Bytes), s.length ≤ fuel →
      ∃ l, AllSpace ws l ∧ s = l ++ trimLeftLoop ws fuel s ∧
        ∀ w ∈ ws, ¬ w <+: trimLeftLoop ws fuel s := by
  intro fuel
  induction fuel with
  | zero =>
    intro s hs
    have : s = [] := List.length_eq_zero_iff.1 (by omega)
    subst this
    refine ⟨[], .nil, by simp [trimLeftLoop], ?_⟩
    intro w hw hp
    simp [trimLeftLoop] at hp
    exact hne w hw hp
  | succ n ih =>
    intro s hs
    simp only [trimLeftLoop]
    cases hf : ws.find? (fun w => w.isPrefixOf s) with
    | none =>
      refine ⟨[], .nil, by simp, ?_⟩
      intro w hw hp
      have := List.find?_eq_none.1 hf w hw
      exact this (List.isPrefixOf_iff_prefix.2 hp)
    | some w =>
      have hmem := List.mem_of_find?_eq_some hf
      have hpre : w <+: s := List.isPrefixOf_iff_prefix.1 (by simpa using List.find?_some hf)
      obtain ⟨t, ht⟩ := hpre
      have hw : 0 < w.length := List.length_pos_iff.2 (hne w hmem)
      have hd : s.drop w.length = t := by rw [← ht]; simp
      obtain ⟨l, hl, he, hno⟩ := ih (s.drop w.length) (by simp; omega)
      refine ⟨w ++ l, .cons hmem hl, ?_, hno⟩
      simp only
      rw [List.append_assoc, ← he, hd, ht]

theorem allSpace_append {ws : List Bytes} {a b : Bytes} (ha : AllSpace ws a) (hb : AllSpace ws b) :
    AllSpace ws (a ++ b) := by
  induction ha with
  | nil => simpa using hb
  | cons hw _ ih => rw [List.append_assoc]; exact .cons hw ih

theorem allSpace_reverse {ws : List Bytes} {a : Bytes} (ha : AllSpace (ws.map List.reverse) a) :
    AllSpace ws a.reverse := by
  induction ha with
  | nil => exact .nil
  | cons hw _ ih =>
    rw [List.reverse_append]
    refine allSpace_append ih ?_
    obtain ⟨v, hv, rfl⟩ := List.mem_map.1 hw
    have := AllSpace.cons hv (.nil (ws := ws))
    simpa using this

theorem trimSpace_spec (s : Bytes) :
    ∃ l r, AllSpace spaces l ∧ AllSpace spaces r ∧ s = l ++ trimSpace s ++ r ∧
      ∀ w ∈ spaces, ¬ w <+: trimSpace s ∧ ¬ w <:+ trimSpace s := by
  have hne : ∀ w ∈ spaces, w ≠ [] := by decide
  have hne' : ∀ w ∈ spaces.map List.reverse, w ≠ [] := by decide
  obtain ⟨l, hl, he, hno⟩ := trimLeftLoop_spec spaces hne s.length s (Nat.le_refl _)
  unfold trimSpace
  simp only
  generalize trimLeftLoop spaces s.length s = m at *
  obtain ⟨r, hr, he', hno'⟩ := trimLeftLoop_spec (spaces.map List.reverse) hne' m.length m.reverse (by simp)
  generalize trimLeftLoop (spaces.map List.reverse) m.length m.reverse = t at *
  have hm : m = t.reverse ++ r.reverse := by
    have := congrArg List.reverse he'
    simpa using this
  refine ⟨l, r.reverse, hl, allSpace_reverse hr, ?_, ?_⟩
  · rw [List.append_assoc, ← hm, ← he]
  · intro w hw
    constructor
    · intro hp
      exact hno w hw (hp.trans ⟨r.reverse, hm.symm⟩)
    · intro hp
      refine hno' w.reverse (List.mem_map.2 ⟨w, hw, rfl⟩) ?_
      have := List.reverse_prefix.2 hp
      simpa using this

theorem splitByte_ne (sep : UInt8) (s : Bytes) : splitByte sep s ≠ [] := by
  cases s with
  | nil => simp [splitByte]
  | cons c cs =>
    simp only [splitByte]
    split
    · simp
    · split <;> simp

theorem splitByte_spec (s : Bytes) :
    joinComma (splitByte 44 s) = s ∧ ∀ x ∈ splitByte 44 s, (44 : UInt8) ∉ x := by
  induction s with
  | nil => simp [splitByte, joinComma]
  | cons c cs ih =>
    have hne := splitByte_ne 44 cs
    simp only [splitByte]
    cases hsp : splitByte 44 cs with
    | nil => exact absurd hsp hne
    | cons x xs =>
      rw [hsp] at ih
      split
      · rename_i hc
        subst hc
        refine ⟨by simp only [joinComma, List.nil_append]; rw [ih.1], ?_⟩
        intro y hy
        rcases List.mem_cons.1 hy with rfl | hy
        · simp
        · exact ih.2 y hy
      · rename_i hc
        constructor
        · cases xs with
          | nil => simp only [joinComma] at ih ⊢; rw [ih.1]
          | cons y ys => simp only [joinComma, List.cons_append] at ih ⊢; rw [ih.1]
        · intro y hy
          rcases List.mem_cons.1 hy with rfl | hy
          · simp only [List.mem_cons, not_or]
            exact ⟨Ne.symm hc, ih.2 x (by simp)⟩
          · exact ih.2 y (by simp [hy])

/-- Splitting is determined: any items without commas that join to the string are its parts. -/
theorem splitByte_join : ∀ (items : List Bytes), items ≠ [] → (∀ x ∈ items, (44 : UInt8) ∉ x) →
    splitByte 44 (joinComma items) = items := by
  intro items
  have single : ∀ x : Bytes, (44 : UInt8) ∉ x → splitByte 44 x = [x] := by
    intro x
    induction x with
    | nil => simp [splitByte]
    | cons c cs ih =>
      intro h
      simp only [List.mem_cons, not_or] at h
      simp only [splitByte, ih h.2, if_neg (Ne.symm h.1)]
  have app : ∀ x y : Bytes, (44 : UInt8) ∉ x → splitByte 44 (x ++ 44 :: y) = x :: splitByte 44 y := by
    intro x y
    induction x with
    | nil => simp [splitByte]
    | cons c cs ih =>
      intro h
      simp only [List.mem_cons, not_or] at h
      simp only [List.cons_append, splitByte, ih h.2, if_neg (Ne.symm h.1)]
  induction items with
  | nil => intro h; exact absurd rfl h
  | cons x r ih =>
    intro _ hc
    cases r with
    | nil => simp only [joinComma]; exact single x (hc x (by simp))
    | cons y ys =>
      simp only [joinComma]
      rw [app x _ (hc x (by simp)), ih (by simp) (fun z hz => hc z (by simp [hz]))]

/-! ## collecting the answers -/

theorem collect_error {as : List Answer} : ∀ {acc : AllFound} {e : SearchErr},
    collect as acc = .error e → ∃ repo, (repo, Except.error e) ∈ as := by
  induction as with
  | nil => intro acc e h; simp [collect] at h
  | cons a as ih =>
    intro acc e h
    obtain ⟨repo, res⟩ := a
    cases res with
    | error e' =>
      simp only [collect, Except.error.injEq] at h
      exact ⟨repo, by simp [h]⟩
    | ok r =>
      simp only [collect] at h
      split at h
      all_goals
        obtain ⟨x, hx⟩ := ih h
        exact ⟨x, by simp [hx]⟩

/-- Sum of the files opened by the searches that found something. -/
def openedSum (as : List Answer) : Nat :=
  (as.map fun a => match a.2 with
    | .ok r => if r.matches_ = [] then 0 else r.filesOpened
    | .error _ => 0).sum

theorem collect_ok {as : List Answer} : ∀ {acc out : AllFound}, collect as acc = .ok out →
    (∀ a ∈ as, ∃ r, a.2 = .ok r) ∧ out.filesOpened = acc.filesOpened + openedSum as ∧
    (∀ n r, out.results n = some r →
      (((n, Except.ok r) ∈ as ∧ r.matches_ ≠ []) ∨ acc.results n = some r)) ∧
    (∀ n, out.results n = none ↔ acc.results n = none ∧ ∀ r, (n, Except.ok r) ∈ as → r.matches_ = []) := by
  induction as with
  | nil =>
    intro acc out h
    simp only [collect, Except.ok.injEq] at h
    subst h
    simp [openedSum]
  | cons a as ih =>
    intro acc out h
    obtain ⟨repo, res⟩ := a
    cases res with
    | error e' => simp [collect] at h
    | ok r0 =>
      simp only [collect] at h
      split at h
      · rename_i hm
        obtain ⟨h1, h2, h3, h4⟩ := ih h
        refine ⟨?_, ?_, ?_, ?_⟩
        · intro a ha
          rcases List.mem_cons.1 ha with rfl | ha
          · exact ⟨r0, rfl⟩
          · exact h1 a ha
        · rw [h2]; simp [openedSum, hm]
        · intro n r hn
          rcases h3 n r hn with ⟨hmem, hr⟩ | hn
          · exact .inl ⟨by simp [hmem], hr⟩
          · exact .inr hn
        · intro n
          rw [h4]
          refine and_congr_right fun _ => ⟨fun hh r hr => ?_, fun hh r hr => hh r (by simp [hr])⟩
          rcases List.mem_cons.1 hr with heq | hr
          · simp only [Prod.mk.injEq, Except.ok.injEq] at heq
            rw [heq.2]; exact hm
          · exact hh r hr
      · rename_i hm
        obtain ⟨h1, h2, h3, h4⟩ := ih h
        refine ⟨?_, ?_, ?_, ?_⟩
        · intro a ha
          rcases List.mem_cons.1 ha with rfl | ha
          · exact ⟨r0, rfl⟩
          · exact h1 a ha
        · rw [h2]; simp [openedSum, hm]; omega
        · intro n r hn
          rcases h3 n r hn with ⟨hmem, hr⟩ | hn
          · exact .inl ⟨by simp [hmem], hr⟩
          · simp only at hn
            split at hn
            · rename_i heq
              simp only [Option.some.injEq] at hn
              subst heq; subst hn
              exact .inl ⟨by simp, hm⟩
            · exact .inr hn
        · intro n
          rw [h4]
          simp only
          by_cases heq : n = repo
          · subst heq
            simp only [if_true, reduceCtorEq, false_and, false_iff, not_and]
            intro _ hh
            exact hm (hh r0 (by simp))
          · simp only [if_neg heq]
            refine and_congr_right fun _ => ⟨fun hh r hr => ?_, fun hh r hr => hh r (by simp [hr])⟩
            rcases List.mem_cons.1 hr with he | hr
            · simp only [Prod.mk.injEq] at he
              exact absurd he.1 heq
            · exact hh r hr

theorem openedSum_perm {a b : List Answer} (h : a.Perm b) : openedSum a = openedSum b :=
  (h.map _).sum_nat

/-! ## update requests -/

theorem lookup_setSrch (repo : Bytes) (s : Srch) (idx : List (Bytes × Srch)) (n : Bytes) :
    (setSrch repo s idx).lookup n =
      if n = repo then (idx.lookup n).map fun _ => s else idx.lookup n := by
  unfold setSrch
  induction idx with
  | nil => simp
  | cons e es ih =>
    obtain ⟨k, v⟩ := e
    simp only [List.map_cons]
    by_cases hk : k = repo
    · subst hk
      simp only [if_true, List.lookup_cons]
      by_cases hn : n = k
      · simp [hn]
      · have : (n == k) = false := by simpa using hn
        simp only [this, ih, if_neg hn]
    · simp only [if_neg hk, List.lookup_cons]
      by_cases hn : n = k
      · subst hn; simp [hk]
      · have : (n == k) = false := by simpa using hn
        simp only [this, ih]

theorem updateLoop_ok : ∀ {repos : List Bytes} {idx idx' : List (Bytes × Srch)},
    updateLoop repos idx = (.ok, idx') →
    (∀ r ∈ repos, ∃ s, idx.lookup r = some s ∧ s.push = true ∧
      idx'.lookup r = some { s with pending := true }) ∧
    (∀ r, r ∉ repos → idx'.lookup r = idx.lookup r) := by
  intro repos
  induction repos with
  | nil => intro idx idx' h; simp [updateLoop] at h; simp [h]
  | cons repo rest ih =>
    intro idx idx' h
    simp only [updateLoop] at h
    split at h
    · simp at h
    · rename_i s hs
      unfold Srch.update at h
      cases hp : s.push with
      | false => simp [hp] at h
      | true =>
        simp only [hp, Bool.true_eq_false, if_false] at h
        obtain ⟨h1, h2⟩ := ih h
        constructor
        · intro r hr
          by_cases hrr : r = repo
          · subst hrr
            refine ⟨s, hs, hp, ?_⟩
            by_cases hin : r ∈ rest
            · obtain ⟨s', a, b, c⟩ := h1 r hin
              rw [lookup_setSrch, if_pos rfl, hs] at a
              simp only [Option.map_some, Option.some.injEq] at a
              rw [c, ← a]; simp [hp]
            · rw [h2 r hin, lookup_setSrch, if_pos rfl, hs]; simp [hp]
          · have hin : r ∈ rest := by simpa [hrr] using hr
            obtain ⟨s', a, b, c⟩ := h1 r hin
            rw [lookup_setSrch, if_neg hrr] at a
            exact ⟨s', a, b, c⟩
        · intro r hr
          simp only [List.mem_cons, not_or] at hr
          rw [h2 r hr.2, lookup_setSrch, if_neg hr.1]

theorem updateLoop_all : ∀ {repos : List Bytes} {idx : List (Bytes × Srch)},
    (∀ r ∈ repos, ∃ s, idx.lookup r = some s ∧ s.push = true) → (updateLoop repos idx).1 = .ok := by
  intro repos
  induction repos with
  | nil => intro idx _; rfl
  | cons repo rest ih =>
    intro idx h
    obtain ⟨s, hs, hp⟩ := h repo (by simp)
    have hu : s.update = (true, { s with pending := true }) := by simp [Srch.update, hp]
    simp only [updateLoop, hs, hu]
    refine ih fun r hr => ?_
    obtain ⟨s', hs', hp'⟩ := h r (by simp [hr])
    rw [lookup_setSrch]
    by_cases hrr : r = repo
    · subst hrr
      rw [if_pos rfl, hs]
      exact ⟨_, rfl, hp⟩
    · rw [if_neg hrr]; exact ⟨s', hs', hp'⟩

/-- Whatever the reply, each searcher ends up unchanged or with a pending request, and the latter only
if it is named and accepts push updates. -/
theorem updateLoop_any : ∀ {repos : List Bytes} {idx : List (Bytes × Srch)} (r : Bytes),
    (updateLoop repos idx).2.lookup r = idx.lookup r ∨
    (r ∈ repos ∧ ∃ s, idx.lookup r = some s ∧ s.push = true ∧
      (updateLoop repos idx).2.lookup r = some { s with pending := true }) := by
  intro repos
  induction repos with
  | nil => intro idx r; exact .inl rfl
  | cons repo rest ih =>
    intro idx r
    cases hs : idx.lookup repo with
    | none => simp only [updateLoop, hs]; exact .inl trivial
    | some s =>
      cases hp : s.push with
      | false =>
        have hu : s.update = (false, s) := by simp [Srch.update, hp]
        simp only [updateLoop, hs, hu]
        exact .inl trivial
      | true =>
        have hu : s.update = (true, { s with pending := true }) := by simp [Srch.update, hp]
        simp only [updateLoop, hs, hu]
        have := ih (idx := setSrch repo { s with pending := true } idx) r
        rw [lookup_setSrch] at this
        by_cases hrr : r = repo
        · subst hrr
          rw [if_pos rfl, hs] at this
          refine .inr ⟨by simp, s, hs, hp, ?_⟩
          rcases this with h | ⟨_, s', h1, _, h3⟩
          · rw [h]; rfl
          · simp only [Option.map_some, Option.some.injEq] at h1
            rw [h3, ← h1]
        · rw [if_neg hrr] at this
          rcases this with h | ⟨hin, s', h1, h2, h3⟩
          · exact .inl h
          · exact .inr ⟨by simp [hin], s', h1, h2, h3⟩

end Hound.Api
