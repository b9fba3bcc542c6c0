import Verif.Model.Paths
import Verif.Spec.Paths

/-!
# `filepath.Clean` and its relatives follow the names of a path
-/

namespace Hound.Path

open Spec

/-- A name that goes down. -/
def Proper (n : Bytes) : Prop := n ≠ [] ∧ n ≠ [DOT] ∧ n ≠ [DOT, DOT] ∧ SL ∉ n

/-- The output for a stack of names, topmost first, in reverse. -/
def rendR (base : Bytes) : List Bytes → Bytes
  | [] => base
  | [n] => n.reverse ++ base
  | n :: m :: T => n.reverse ++ SL :: rendR base (m :: T)

/-- What a name does to a stack of names on top of `u` times `..`. -/
def nstep (rooted : Bool) (s : Nat × List Bytes) (n : Bytes) : Nat × List Bytes :=
  if n = [] ∨ n = [DOT] then s
  else if n = [DOT, DOT] then
    match s.2 with
    | _ :: S => (s.1, S)
    | [] => if rooted then s else (s.1 + 1, [])
  else (s.1, n :: s.2)

def baseOf (rooted : Bool) : Bytes := if rooted then [SL] else []

def dots (u : Nat) : List Bytes := List.replicate u [DOT, DOT]

theorem rendR_cons (base n : Bytes) (T : List Bytes) (h : T ≠ []) : rendR base (n :: T) = n.reverse ++ SL :: rendR base T := by
  cases T with
  | nil => exact absurd rfl h
  | cons => rfl

theorem rendR_len (base : Bytes) : ∀ (S D : List Bytes), (∀ n ∈ S, n ≠ []) → S ≠ [] →
    (rendR base (S ++ D)).length > (rendR base D).length
  | [], _, _, h => absurd rfl h
  | [n], D, hn, _ => by
    have : 0 < n.length := List.length_pos_iff.2 (hn n List.mem_cons_self)
    cases D with
    | nil => simp [rendR]; omega
    | cons => simp [rendR]; omega
  | n :: m :: S, D, hn, _ => by
    have ih := rendR_len base (m :: S) D (fun x hx => hn x (List.mem_cons_of_mem _ hx)) (by simp)
    rw [List.cons_append, rendR_cons _ _ _ (by simp)]
    simp only [List.length_append, List.length_cons, List.length_reverse]
    omega

theorem rendR_ge (base : Bytes) (S D : List Bytes) (hn : ∀ n ∈ S, n ≠ []) :
    (rendR base D).length ≤ (rendR base (S ++ D)).length := by
  cases S with
  | nil => exact Nat.le_refl _
  | cons n S => exact Nat.le_of_lt (rendR_len base _ D hn (by simp))

theorem back_sl (dd : Nat) : ∀ (n X : Bytes), SL ∉ n → dd ≤ X.length → back dd (n ++ SL :: X) = X
  | [], X, _, _ => by simp [back]
  | c :: n, X, hn, hd => by
    have hc : c ≠ SL := fun e => hn (e ▸ List.mem_cons_self)
    rw [List.cons_append, back, if_pos ⟨by simp; omega, hc⟩]
    exact back_sl dd n X (fun h => hn (List.mem_cons_of_mem _ h)) hd

theorem back_end (X : Bytes) : ∀ (n : Bytes), SL ∉ n → n ≠ [] → back X.length (n ++ X) = X
  | [], _, h => absurd rfl h
  | [c], hn, _ => by simp [back]
  | c :: d :: n, hn, _ => by
    have hc : c ≠ SL := fun e => hn (e ▸ List.mem_cons_self)
    rw [List.cons_append, back, if_pos ⟨by simp; omega, hc⟩]
    exact back_end X (d :: n) (fun h => hn (List.mem_cons_of_mem _ h)) (by simp)

theorem back_rendR (base n : Bytes) (S D : List Bytes) (hn : Proper n) (hS : ∀ n ∈ S, Proper n) :
    back (rendR base D).length (rendR base (n :: S ++ D)) = rendR base (S ++ D) := by
  have hr : SL ∉ n.reverse := by rw [List.mem_reverse]; exact hn.2.2.2
  by_cases h : S ++ D = []
  · have hD : D = [] := (List.append_eq_nil_iff.1 h).2
    rw [List.cons_append, h, hD]
    exact back_end base _ hr (by rw [Ne, List.reverse_eq_nil_iff]; exact hn.1)
  · rw [List.cons_append, rendR_cons _ _ _ h]
    exact back_sl _ _ _ hr (rendR_ge base S D fun n hn => (hS n hn).1)

/-- The first name, and what follows it. -/
theorem pathNames_split : ∀ s : Bytes, ∃ tail, pathNames s = s.takeWhile (· ≠ SL) :: tail ∧
    pathNames (s.drop (s.takeWhile (· ≠ SL)).length) = [] :: tail
  | [] => ⟨[], rfl, rfl⟩
  | c :: t => by
    by_cases hc : c = SL
    · subst hc
      exact ⟨pathNames t, rfl, rfl⟩
    · obtain ⟨tail, h1, h2⟩ := pathNames_split t
      have e : (c :: t).takeWhile (· ≠ SL) = c :: t.takeWhile (· ≠ SL) := by simp [hc]
      rw [e]
      refine ⟨tail, ?_, ?_⟩
      · rw [pathNames, if_neg (show ¬ c = 47 from hc), h1]
      · rw [List.length_cons, List.drop_succ_cons]
        exact h2

theorem takeWhile_end {s : Bytes} (h : s.head? = none ∨ s.head? = some SL) : s.takeWhile (· ≠ SL) = [] := by
  cases s with
  | nil => rfl
  | cons c t =>
    rcases h with h | h
    · cases h
    · have : c = SL := Option.some.inj h
      simp [this]

theorem takeWhile_nil {s : Bytes} (h : s.takeWhile (· ≠ SL) = []) : s.head? = none ∨ s.head? = some SL := by
  cases s with
  | nil => exact .inl rfl
  | cons c t =>
    by_cases hc : c = SL
    · exact .inr (by rw [hc]; rfl)
    · simp [hc] at h

theorem takeWhile_one {c : UInt8} {t : Bytes} (hc : c ≠ SL) :
    (c = DOT ∧ (t.head? = none ∨ t.head? = some SL)) ↔ (c :: t).takeWhile (· ≠ SL) = [DOT] := by
  have e : (c :: t).takeWhile (· ≠ SL) = c :: t.takeWhile (· ≠ SL) := by simp [hc]
  rw [e]
  constructor
  · rintro ⟨rfl, h⟩
    rw [takeWhile_end h]
  · intro h
    injection h with h1 h2
    exact ⟨h1, takeWhile_nil h2⟩

theorem takeWhile_two {c : UInt8} {t : Bytes} (hc : c ≠ SL) :
    (c = DOT ∧ t.head? = some DOT ∧ ((t.drop 1).head? = none ∨ (t.drop 1).head? = some SL)) ↔
      (c :: t).takeWhile (· ≠ SL) = [DOT, DOT] := by
  have e : (c :: t).takeWhile (· ≠ SL) = c :: t.takeWhile (· ≠ SL) := by simp [hc]
  rw [e]
  cases t with
  | nil => simp
  | cons d t =>
    by_cases hd : d = SL
    · subst hd
      simp [SL, DOT]
    · have e : (d :: t).takeWhile (· ≠ SL) = d :: t.takeWhile (· ≠ SL) := by simp [hd]
      rw [e]
      constructor
      · rintro ⟨rfl, h, h'⟩
        rw [show t.takeWhile (· ≠ SL) = [] from takeWhile_end h', Option.some.inj h]
      · intro h
        injection h with h1 h2
        injection h2 with h2 h3
        exact ⟨h1, by rw [h2]; rfl, takeWhile_nil h3⟩

theorem takeWhile_noSL (s : Bytes) : SL ∉ s.takeWhile (· ≠ SL) := by
  induction s with
  | nil => simp
  | cons c t ih =>
    by_cases hc : c = SL
    · simp [hc]
    · rw [List.takeWhile_cons_of_pos (by simp [hc])]
      intro h
      rcases List.mem_cons.1 h with h | h
      · exact hc h.symm
      · exact ih h

theorem foldl_nil (r : Bool) (s : Nat × List Bytes) (tail : List Bytes) :
    ([] :: tail).foldl (nstep r) s = tail.foldl (nstep r) s := rfl

theorem dots_succ (u : Nat) : dots (u + 1) = [DOT, DOT] :: dots u := rfl

theorem rendR_dots_len (u : Nat) : 0 < (rendR [] (dots u)).length ↔ u ≠ 0 := by
  cases u with
  | zero => simp [dots, rendR]
  | succ u =>
    rw [dots_succ]
    cases u with
    | zero => simp [dots, rendR]
    | succ u => rw [dots_succ, rendR_cons _ _ _ (by simp)]; simp

theorem cleanLoop_eq (r : Bool) : ∀ (fuel : Nat) (s : Bytes) (u : Nat) (S : List Bytes), s.length ≤ fuel →
    (r = true → u = 0) → (∀ n ∈ S, Proper n) →
    cleanLoop r fuel s (rendR (baseOf r) (S ++ dots u)) (rendR (baseOf r) (dots u)).length =
      (let q := (pathNames s).foldl (nstep r) (u, S)
       rendR (baseOf r) (q.2 ++ dots q.1))
  | 0, s, u, S, hf, hr, hS => by
    have : s = [] := List.eq_nil_of_length_eq_zero (Nat.le_zero.1 hf)
    subst this
    rfl
  | fuel + 1, [], u, S, hf, hr, hS => rfl
  | fuel + 1, c :: t, u, S, hf, hr, hS => by
    have hf' : t.length ≤ fuel := by simp at hf; exact hf
    obtain ⟨tail, h1, h2⟩ := pathNames_split (c :: t)
    rw [cleanLoop]
    by_cases hc : c = SL
    · subst hc
      rw [if_pos rfl, cleanLoop_eq r fuel t u S hf' hr hS]
      rfl
    rw [if_neg hc]
    by_cases hd1 : c = DOT ∧ (t.head? = none ∨ t.head? = some SL)
    · rw [if_pos hd1, cleanLoop_eq r fuel t u S hf' hr hS]
      have e := (takeWhile_one hc).1 hd1
      rw [e] at h1 h2
      rw [h1, show pathNames t = [] :: tail from h2]
      rfl
    rw [if_neg hd1]
    by_cases hd2 : c = DOT ∧ t.head? = some DOT ∧ ((t.drop 1).head? = none ∨ (t.drop 1).head? = some SL)
    · rw [if_pos hd2]
      have e := (takeWhile_two hc).1 hd2
      rw [e] at h1 h2
      have h2 : pathNames (t.drop 1) = [] :: tail := h2
      have hl : (t.drop 1).length ≤ fuel := by rw [List.length_drop]; omega
      have fold1 : ([DOT, DOT] :: tail).foldl (nstep r) (u, S) = tail.foldl (nstep r) (nstep r (u, S) [DOT, DOT]) := rfl
      rw [h1, fold1]
      cases S with
      | cons n S =>
        have hgt := rendR_len (baseOf r) (n :: S) (dots u) (fun x hx => (hS x hx).1) (by simp)
        have hS' : ∀ n ∈ S, Proper n := fun x hx => hS x (List.mem_cons_of_mem _ hx)
        rw [if_pos hgt, back_rendR _ n S _ (hS n List.mem_cons_self) hS', cleanLoop_eq r fuel _ u S hl hr hS', h2]
        rfl
      | nil =>
        rw [if_neg (by simp)]
        cases r with
        | true =>
          simp only [Bool.not_true, Bool.false_eq_true, if_false]
          rw [cleanLoop_eq true fuel _ u [] hl hr hS, h2]
          rfl
        | false =>
          simp only [Bool.not_false, if_true]
          have eo : DOT :: DOT :: (if (rendR (baseOf false) ([] ++ dots u)).length > 0 then
              SL :: rendR (baseOf false) ([] ++ dots u) else rendR (baseOf false) ([] ++ dots u)) =
              rendR (baseOf false) ([] ++ dots (u + 1)) := by
            simp only [List.nil_append, baseOf, Bool.false_eq_true, if_false]
            by_cases hu : u = 0
            · subst hu
              rfl
            · rw [if_pos ((rendR_dots_len u).2 hu), dots_succ, rendR_cons _ _ _ (by
                intro h
                apply hu
                simpa [dots] using h)]
              rfl
          rw [eo]
          have := cleanLoop_eq false fuel (t.drop 1) (u + 1) [] hl (by simp) hS
          rw [show ([] : List Bytes) ++ dots (u + 1) = dots (u + 1) from rfl] at *
          rw [this, h2]
          rfl
    · rw [if_neg hd2]
      have e1 : (c :: t).takeWhile (· ≠ SL) ≠ [DOT] := fun h => hd1 ((takeWhile_one hc).2 h)
      have e2 : (c :: t).takeWhile (· ≠ SL) ≠ [DOT, DOT] := fun h => hd2 ((takeWhile_two hc).2 h)
      have e0 : (c :: t).takeWhile (· ≠ SL) ≠ [] := by simp [hc]
      have e3 := takeWhile_noSL (c :: t)
      generalize hN : (c :: t).takeWhile (· ≠ SL) = name at *
      have hl : ((c :: t).drop name.length).length ≤ fuel := by
        have : 0 < name.length := List.length_pos_iff.2 e0
        rw [List.length_drop]
        simp
        omega
      have eo : name.reverse ++ (if (r = true ∧ (rendR (baseOf r) (S ++ dots u)).length ≠ 1) ∨
          ((!r) = true ∧ (rendR (baseOf r) (S ++ dots u)).length ≠ 0) then SL :: rendR (baseOf r) (S ++ dots u)
          else rendR (baseOf r) (S ++ dots u)) = rendR (baseOf r) ((name :: S) ++ dots u) := by
        by_cases hE : S ++ dots u = []
        · rw [List.cons_append, hE]
          cases r <;> rfl
        · have : (rendR (baseOf r) (S ++ dots u)).length > (baseOf r).length := by
            have := rendR_len (baseOf r) (S ++ dots u) [] (by
              intro n hn
              rcases List.mem_append.1 hn with hn | hn
              · exact (hS n hn).1
              · rw [(List.mem_replicate.1 hn).2]
                simp) hE
            rw [List.append_nil] at this
            exact this
          rw [List.cons_append, rendR_cons _ _ _ hE, if_pos]
          cases r with
          | true => exact .inl ⟨rfl, Nat.ne_of_gt this⟩
          | false => exact .inr ⟨rfl, Nat.ne_of_gt (Nat.lt_of_le_of_lt (Nat.zero_le _) this)⟩
      simp only []
      rw [eo, cleanLoop_eq r fuel _ u (name :: S) hl hr (by
        intro n hn
        rcases List.mem_cons.1 hn with rfl | hn
        · exact ⟨e0, e1, e2, e3⟩
        · exact hS n hn), h2, h1]
      have : nstep r (u, S) name = (u, name :: S) := by
        rw [nstep, if_neg (by simp [e0, e1]), if_neg e2]
      rw [foldl_nil, List.foldl_cons, this]

theorem pathNames_ne (s : Bytes) : pathNames s ≠ [] := by
  obtain ⟨tail, h, -⟩ := pathNames_split s
  rw [h]
  simp

theorem pathNames_append_sl : ∀ a b : Bytes, pathNames (a ++ SL :: b) = pathNames a ++ pathNames b
  | [], b => rfl
  | c :: a, b => by
    rw [List.cons_append, pathNames, pathNames, pathNames_append_sl a b]
    by_cases hc : c = 47
    · rw [if_pos hc, if_pos hc]
      rfl
    · rw [if_neg hc, if_neg hc]
      cases h : pathNames a with
      | nil => exact absurd h (pathNames_ne a)
      | cons n ns => rfl

theorem pathNames_name : ∀ n : Bytes, SL ∉ n → pathNames n = [n]
  | [], _ => rfl
  | c :: n, h => by
    rw [pathNames, if_neg (show ¬ c = 47 from fun e => h (e ▸ List.mem_cons_self)),
      pathNames_name n fun hm => h (List.mem_cons_of_mem _ hm)]

theorem pathNames_noSL : ∀ (s : Bytes), ∀ n ∈ pathNames s, SL ∉ n
  | [], n, h => by
    rw [List.mem_singleton.1 h]
    simp
  | c :: t, n, h => by
    have ih := pathNames_noSL t
    rw [pathNames] at h
    split at h
    · rcases List.mem_cons.1 h with rfl | h
      · simp
      · exact ih n h
    · rename_i hc
      cases e : pathNames t with
      | nil => exact absurd e (pathNames_ne t)
      | cons m ns =>
        rw [e] at h ih
        rcases List.mem_cons.1 h with rfl | h
        · intro hm
          rcases List.mem_cons.1 hm with hm | hm
          · exact hc hm.symm
          · exact ih m List.mem_cons_self hm
        · exact ih n (List.mem_cons_of_mem _ h)

theorem pathNames_rendR : ∀ T : List Bytes, T ≠ [] → (∀ n ∈ T, SL ∉ n) → pathNames (rendR [] T).reverse = T.reverse
  | [], h, _ => absurd rfl h
  | [n], _, hn => by
    simp only [rendR, List.append_nil, List.reverse_reverse]
    exact pathNames_name n (hn n List.mem_cons_self)
  | n :: m :: T, _, hn => by
    have ih := pathNames_rendR (m :: T) (by simp) fun x hx => hn x (List.mem_cons_of_mem _ hx)
    rw [rendR_cons _ _ _ (by simp)]
    simp only [List.reverse_append, List.reverse_cons, List.append_assoc, List.reverse_reverse] at ih ⊢
    rw [show ([SL] ++ n : Bytes) = SL :: n from rfl, pathNames_append_sl, ih, pathNames_name n (hn n List.mem_cons_self)]
    simp

theorem rendR_root : ∀ T : List Bytes, rendR [SL] T = rendR [] T ++ [SL]
  | [] => rfl
  | [n] => by simp [rendR]
  | n :: m :: T => by
    rw [rendR_cons [SL] n (m :: T) (by simp), rendR_cons [] n (m :: T) (by simp), rendR_root (m :: T)]
    simp

theorem rendR_abs : ∀ T : List Bytes, T ≠ [] → (rendR [SL] T).reverse = T.reverse.flatMap fun n => 47 :: n
  | [], h => absurd rfl h
  | [n], _ => by simp [rendR, SL]
  | n :: m :: T, _ => by
    have ih := rendR_abs (m :: T) (by simp)
    rw [rendR_cons _ _ _ (by simp), List.reverse_append, List.reverse_cons, List.reverse_reverse, ih, List.reverse_cons,
      List.reverse_cons, List.flatMap_append]
    simp [SL]

theorem rendR_absolute (T : List Bytes) : (rendR [SL] T).reverse = absolutePath T.reverse := by
  by_cases h : T = []
  · subst h
    rfl
  · rw [rendR_abs T h, absolutePath, if_neg (by simpa using h)]

theorem rendR_pos (r : Bool) (T : List Bytes) (hn : ∀ n ∈ T, n ≠ []) : (rendR (baseOf r) T).length = 0 ↔ r = false ∧ T = [] := by
  by_cases h : T = []
  · subst h
    cases r <;> simp [rendR, baseOf]
  · have := rendR_len (baseOf r) T [] hn h
    rw [List.append_nil] at this
    constructor
    · intro e; omega
    · intro e; exact absurd e.2 h

theorem nstep_proper (r : Bool) (ns : List Bytes) : ∀ (s : Nat × List Bytes), (∀ n ∈ ns, SL ∉ n) → (∀ n ∈ s.2, Proper n) →
    ∀ n ∈ (ns.foldl (nstep r) s).2, Proper n := by
  induction ns with
  | nil => exact fun s _ h => h
  | cons n ns ih =>
    intro s hns hs
    rw [List.foldl_cons]
    refine ih _ (fun x hx => hns x (List.mem_cons_of_mem _ hx)) ?_
    obtain ⟨u, S⟩ := s
    unfold nstep
    split
    · exact hs
    · rename_i h1
      split
      · cases S with
        | nil => cases r <;> simp
        | cons m S => exact fun x hx => hs x (List.mem_cons_of_mem _ hx)
      · rename_i h2
        intro x hx
        rcases List.mem_cons.1 hx with rfl | hx
        · exact ⟨fun e => h1 (.inl e), fun e => h1 (.inr e), h2, hns x List.mem_cons_self⟩
        · exact hs x hx

theorem follow_cons (place : List Bytes) (n : Bytes) (ns : List Bytes) : follow place (n :: ns) =
    if n = [] ∨ n = [DOT] then follow place ns
    else if n = [DOT, DOT] then follow place.dropLast ns
    else follow (place ++ [n]) ns := rfl

theorem follow_append : ∀ (a b place : List Bytes), follow place (a ++ b) = follow (follow place a) b
  | [], b, place => rfl
  | n :: a, b, place => by
    rw [List.cons_append, follow, follow]
    split
    · exact follow_append a b place
    · split
      · exact follow_append a b _
      · exact follow_append a b _

theorem nstep_root (ns : List Bytes) : ∀ S : List Bytes,
    ns.foldl (nstep true) (0, S) = (0, (follow S.reverse ns).reverse) := by
  induction ns with
  | nil => intro S; simp [follow]
  | cons n ns ih =>
    intro S
    rw [List.foldl_cons, follow_cons]
    by_cases h1 : n = [] ∨ n = [DOT]
    · rw [nstep, if_pos h1, if_pos h1]
      exact ih S
    · rw [nstep, if_neg h1, if_neg h1]
      by_cases h2 : n = [DOT, DOT]
      · rw [if_pos h2, if_pos h2]
        cases S with
        | nil => exact ih []
        | cons m S =>
          rw [List.reverse_cons, List.dropLast_concat]
          exact ih S
      · rw [if_neg h2, if_neg h2, ih, List.reverse_cons]

theorem follow_down {n : Bytes} (h : Proper n) (place ns : List Bytes) : follow place (n :: ns) = follow (place ++ [n]) ns := by
  rw [follow_cons, if_neg (fun e => e.elim h.1 h.2.1), if_neg h.2.2.1]

theorem follow_up (place ns : List Bytes) : follow place ([DOT, DOT] :: ns) = follow place.dropLast ns := rfl

theorem dots_snoc (u : Nat) : dots (u + 1) = dots u ++ [[DOT, DOT]] := by
  rw [dots, List.replicate_succ']
  rfl

theorem nstep_rel (ns : List Bytes) : ∀ (s : Nat × List Bytes) (place : List Bytes), (∀ n ∈ ns, SL ∉ n) → (∀ n ∈ s.2, Proper n) →
    follow place (dots (ns.foldl (nstep false) s).1 ++ (ns.foldl (nstep false) s).2.reverse) =
      follow place (dots s.1 ++ s.2.reverse ++ ns) := by
  induction ns with
  | nil => intro s place _ _; simp
  | cons n ns ih =>
    intro s place hns hs
    obtain ⟨u, S⟩ := s
    have hns' : ∀ n ∈ ns, SL ∉ n := fun x hx => hns x (List.mem_cons_of_mem _ hx)
    rw [List.foldl_cons, follow_append (dots _ ++ _), follow_cons]
    by_cases h1 : n = [] ∨ n = [DOT]
    · rw [show nstep false (u, S) n = (u, S) by rw [nstep, if_pos h1], ih _ _ hns' hs, if_pos h1, follow_append (dots _ ++ _)]
    · rw [if_neg h1]
      by_cases h2 : n = [DOT, DOT]
      · rw [if_pos h2]
        cases S with
        | nil =>
          rw [show nstep false (u, []) n = (u + 1, []) by rw [nstep, if_neg h1, if_pos h2]; rfl, ih _ _ hns' (by simp)]
          simp only [List.reverse_nil, List.append_nil]
          rw [dots_snoc, List.append_assoc, follow_append]
          rfl
        | cons m S =>
          have hm := hs m List.mem_cons_self
          rw [show nstep false (u, m :: S) n = (u, S) by rw [nstep, if_neg h1, if_pos h2], ih _ _ hns'
            fun x hx => hs x (List.mem_cons_of_mem _ hx)]
          simp only []
          rw [List.reverse_cons, ← List.append_assoc, follow_append, follow_append _ [m], follow_down hm]
          simp only [follow, List.dropLast_concat]
      · rw [if_neg h2, show nstep false (u, S) n = (u, n :: S) by rw [nstep, if_neg h1, if_neg h2], ih _ _ hns' ?_]
        · simp only []
          rw [List.reverse_cons, ← List.append_assoc, follow_append, follow_append _ [n], follow_cons, if_neg h1, if_neg h2]
          rfl
        · intro x hx
          rcases List.mem_cons.1 hx with rfl | hx
          · exact ⟨fun e => h1 (.inl e), fun e => h1 (.inr e), h2, hns x List.mem_cons_self⟩
          · exact hs x hx

theorem isAbs_iff (p : Bytes) : isAbs p = true ↔ FromRoot p := by
  cases p with
  | nil => simp [isAbs, FromRoot]
  | cons c t => simp [isAbs, FromRoot, SL]

/-- An absolute path is cleaned to the absolute path of the directory its names lead to. -/
theorem clean_abs {p : Bytes} (h : FromRoot p) : clean p = absolutePath (follow [] (pathNames p)) := by
  have ha := (isAbs_iff p).2 h
  obtain ⟨t, rfl⟩ := h
  have e := cleanLoop_eq true (t.length + 1) t 0 [] (by omega) (by simp) (by simp)
  have e' : cleanLoop true (t.length + 1) t [SL] 1 = _ := e
  rw [nstep_root] at e'
  have hp : ∀ n ∈ (follow [] (pathNames t)).reverse ++ dots 0, n ≠ [] := by
    have := nstep_proper true (pathNames t) (0, []) (pathNames_noSL t) (by simp)
    rw [nstep_root] at this
    intro n hn
    rw [show dots 0 = [] from rfl, List.append_nil] at hn
    exact (this n hn).1
  simp only [List.reverse_nil] at e'
  rw [clean, if_neg (by simp)]
  simp only [ha, if_true, List.length_cons, List.drop_succ_cons, List.drop_zero]
  rw [e', if_neg fun e => by
    have := (rendR_pos true _ hp).1 e
    simp at this]
  show (rendR [SL] _).reverse = _
  rw [rendR_absolute]
  simp [dots, pathNames, follow]

/-- The result of cleaning, a relative path. -/
theorem clean_rel {p : Bytes} (h : ¬ FromRoot p) : ∃ T : List Bytes, (∀ n ∈ T, n ≠ [] ∧ SL ∉ n) ∧
    clean p = (if T = [] then [DOT] else (rendR [] T).reverse) ∧
    ∀ place, follow place T.reverse = follow place (pathNames p) := by
  by_cases h0 : p = []
  · subst h0
    exact ⟨[], by simp, rfl, fun _ => rfl⟩
  have ha : isAbs p = false := by
    cases e : isAbs p with
    | false => rfl
    | true => exact absurd ((isAbs_iff p).1 e) h
  have e := cleanLoop_eq false p.length p 0 [] (Nat.le_refl _) (by simp) (by simp)
  have e' : cleanLoop false p.length p [] 0 = _ := e
  have hp := nstep_proper false (pathNames p) (0, []) (pathNames_noSL p) (by simp)
  have hr := nstep_rel (pathNames p) (0, [])
  generalize hq : (pathNames p).foldl (nstep false) (0, []) = q at *
  have hT : ∀ n ∈ q.2 ++ dots q.1, n ≠ [] ∧ SL ∉ n := by
    intro n hn
    rcases List.mem_append.1 hn with hn | hn
    · exact ⟨(hp n hn).1, (hp n hn).2.2.2⟩
    · rw [(List.mem_replicate.1 hn).2]
      exact ⟨by simp, by decide⟩
  refine ⟨q.2 ++ dots q.1, hT, ?_, ?_⟩
  · rw [clean, if_neg h0]
    simp only [ha, Bool.false_eq_true, if_false]
    rw [e']
    simp only []
    have hz := rendR_pos false (q.2 ++ dots q.1) fun n hn => (hT n hn).1
    by_cases hT0 : q.2 ++ dots q.1 = []
    · rw [if_pos hT0, if_pos (hz.2 ⟨rfl, hT0⟩)]
    · rw [if_neg hT0, if_neg fun e => hT0 (hz.1 e).2]
      rfl
  · intro place
    have := hr place (pathNames_noSL p) (by simp)
    rw [List.reverse_append, show (dots q.1).reverse = dots q.1 from List.reverse_replicate, this]
    rfl

theorem rendR_head (T : List Bytes) (hT : T ≠ []) (hn : ∀ n ∈ T, n ≠ [] ∧ SL ∉ n) : ¬ FromRoot (rendR [] T).reverse := by
  rintro ⟨t, ht⟩
  have h1 := pathNames_rendR T hT fun n h => (hn n h).2
  rw [ht, pathNames, if_pos rfl] at h1
  have : [] ∈ T := List.mem_reverse.1 (h1 ▸ List.mem_cons_self)
  exact (hn _ this).1 rfl

theorem clean_fromRoot (p : Bytes) : FromRoot (clean p) ↔ FromRoot p := by
  constructor
  · intro h
    by_cases hp : FromRoot p
    · exact hp
    · obtain ⟨T, hT, e, -⟩ := clean_rel hp
      rw [e] at h
      split at h
      · obtain ⟨t, ht⟩ := h
        cases ht
      · rename_i h0
        exact absurd h (rendR_head T h0 hT)
  · intro h
    rw [clean_abs h, absolutePath]
    split
    · exact ⟨[], rfl⟩
    · rename_i h0
      cases e : follow [] (pathNames p) with
      | nil => exact absurd e h0
      | cons n ns => exact ⟨_, rfl⟩

theorem clean_ne (p : Bytes) : clean p ≠ [] := by
  by_cases hp : FromRoot p
  · obtain ⟨t, ht⟩ := (clean_fromRoot p).2 hp
    rw [ht]
    simp
  · obtain ⟨T, hT, e, -⟩ := clean_rel hp
    rw [e]
    split
    · simp
    · rename_i h0
      intro h
      have := (rendR_pos false T fun n hn => (hT n hn).1).1 (by rw [show rendR (baseOf false) T = rendR [] T from rfl, List.reverse_eq_nil_iff.1 h]; rfl)
      exact h0 this.2

theorem clean_follow {p : Bytes} (h : ¬ FromRoot p) (place : List Bytes) :
    follow place (pathNames (clean p)) = follow place (pathNames p) := by
  obtain ⟨T, hT, e, hf⟩ := clean_rel h
  rw [e]
  split
  · rename_i h0
    rw [← hf, h0]
    rfl
  · rename_i h0
    rw [pathNames_rendR T h0 fun n hn => (hT n hn).2, hf]

/-- The names of a place that was followed to. -/
theorem follow_proper (ns : List Bytes) : ∀ place : List Bytes, (∀ n ∈ ns, SL ∉ n) → (∀ n ∈ place, Proper n) →
    ∀ n ∈ follow place ns, Proper n := by
  intro place hns hp n hn
  have := nstep_proper true ns (0, place.reverse) hns (fun x hx => hp x (List.mem_reverse.1 hx))
  rw [nstep_root, List.reverse_reverse] at this
  exact this n (List.mem_reverse.2 hn)

theorem follow_self (place : List Bytes) : ∀ (ns : List Bytes), (∀ n ∈ ns, Proper n) → follow place ns = place ++ ns := by
  intro ns
  induction ns generalizing place with
  | nil => intro _; simp [follow]
  | cons n ns ih =>
    intro h
    rw [follow_down (h n List.mem_cons_self), ih _ fun x hx => h x (List.mem_cons_of_mem _ hx)]
    simp

theorem pathNames_absolute (place : List Bytes) (h : ∀ n ∈ place, Proper n) :
    follow [] (pathNames (absolutePath place)) = place := by
  have e : absolutePath place = SL :: (rendR [] place.reverse).reverse := by
    have := rendR_absolute place.reverse
    rw [List.reverse_reverse] at this
    rw [← this, rendR_root]
    simp
  rw [e, show pathNames (SL :: (rendR [] place.reverse).reverse) = [] :: pathNames (rendR [] place.reverse).reverse from rfl]
  by_cases h0 : place = []
  · subst h0
    rfl
  · rw [pathNames_rendR place.reverse (by simpa using h0) (fun n hn => (h n (List.mem_reverse.1 hn)).2.2.2), List.reverse_reverse]
    show follow [] place = place
    rw [follow_self [] place h]
    rfl

theorem clean_follow_abs {p : Bytes} (h : FromRoot p) : follow [] (pathNames (clean p)) = follow [] (pathNames p) := by
  rw [clean_abs h]
  exact pathNames_absolute _ (follow_proper _ _ (pathNames_noSL p) (by simp))

/-- The part of a path up to its last separator. -/
theorem pathNames_dir (p : Bytes) :
    pathNames ((p.reverse.dropWhile (· ≠ SL)).reverse) = (pathNames p).dropLast ++ [[]] := by
  have hsplit := List.takeWhile_append_dropWhile (p := (· ≠ SL)) (l := p.reverse)
  have hno := takeWhile_noSL p.reverse
  generalize p.reverse.takeWhile (· ≠ SL) = a at *
  cases hd : p.reverse.dropWhile (· ≠ SL) with
  | nil =>
    rw [hd, List.append_nil] at hsplit
    have : p = a.reverse := by rw [hsplit, List.reverse_reverse]
    rw [this, pathNames_name a.reverse (by simpa using hno)]
    rfl
  | cons c b =>
    have hc : c = SL := by
      have := List.head?_dropWhile_not (· ≠ SL) p.reverse
      rw [hd] at this
      simpa using this
    subst hc
    have : p = b.reverse ++ SL :: a.reverse := by
      rw [hd] at hsplit
      rw [← List.reverse_reverse p, ← hsplit]
      simp
    rw [this, pathNames_append_sl, pathNames_name a.reverse (by simpa using hno), List.dropLast_concat, List.reverse_cons,
      show b.reverse ++ [SL] = b.reverse ++ SL :: [] from rfl, pathNames_append_sl]
    rfl

theorem dir_fromRoot (p : Bytes) : FromRoot (dir p) ↔ FromRoot p := by
  rw [dir, clean_fromRoot]
  have hsplit := List.takeWhile_append_dropWhile (p := (· ≠ SL)) (l := p.reverse)
  have hno := takeWhile_noSL p.reverse
  constructor
  · rintro ⟨t, ht⟩
    have : p = (47 :: t) ++ (p.reverse.takeWhile (· ≠ SL)).reverse := by
      rw [← ht, ← List.reverse_append, hsplit, List.reverse_reverse]
    exact ⟨t ++ (p.reverse.takeWhile (· ≠ SL)).reverse, this⟩
  · rintro ⟨t, rfl⟩
    have hp : (47 :: t : Bytes) = ((47 :: t : Bytes).reverse.dropWhile (· ≠ SL)).reverse ++
        ((47 :: t : Bytes).reverse.takeWhile (· ≠ SL)).reverse := by
      rw [← List.reverse_append, hsplit, List.reverse_reverse]
    cases e : ((47 :: t : Bytes).reverse.dropWhile (· ≠ SL)).reverse with
    | nil =>
      rw [e, List.nil_append] at hp
      exact absurd (List.mem_reverse.1 (hp ▸ List.mem_cons_self : (47 : UInt8) ∈ _)) hno
    | cons c r =>
      rw [e, List.cons_append] at hp
      injection hp with h1 h2
      exact ⟨r, by rw [← h1]⟩

theorem dir_follow (p : Bytes) (place : List Bytes) (h : FromRoot p → place = []) :
    follow place (pathNames (dir p)) = follow place (pathNames p).dropLast := by
  have e : follow place (pathNames ((p.reverse.dropWhile (· ≠ SL)).reverse)) = follow place (pathNames p).dropLast := by
    rw [pathNames_dir, follow_append]
    rfl
  rw [← e, dir]
  by_cases hp : FromRoot p
  · rw [h hp]
    exact clean_follow_abs ((clean_fromRoot _).1 ((dir_fromRoot p).2 hp))
  · exact clean_follow (fun h => hp ((dir_fromRoot p).1 ((clean_fromRoot _).2 h))) place

theorem fromRoot_append {a : Bytes} (b : Bytes) (h : a ≠ []) : FromRoot (a ++ b) ↔ FromRoot a := by
  cases a with
  | nil => exact absurd rfl h
  | cons c a =>
    constructor
    · rintro ⟨t, ht⟩
      injection ht with h1 h2
      exact ⟨a, by rw [h1]⟩
    · rintro ⟨t, ht⟩
      injection ht with h1 h2
      exact ⟨a ++ b, by rw [h1]; rfl⟩

theorem join_eq {a : Bytes} (b : Bytes) (h : a ≠ []) : join a b = clean (a ++ SL :: b) := by
  rw [join, if_pos h]
  simp

/-- `filepath.Abs(filepath.Join(filepath.Dir(file), rel))`. -/
theorem abs_join_dir {cwd : Bytes} (hc : FromRoot cwd) (file rel : Bytes) :
    (FromRoot file → abs cwd (join (dir file) rel) =
      absolutePath (follow [] ((pathNames file).dropLast ++ pathNames rel))) ∧
    (¬ FromRoot file → abs cwd (join (dir file) rel) =
      absolutePath (follow (follow [] (pathNames cwd)) ((pathNames file).dropLast ++ pathNames rel))) := by
  have hne : dir file ≠ [] := clean_ne _
  have hroot : FromRoot (join (dir file) rel) ↔ FromRoot file := by
    rw [join_eq _ hne, clean_fromRoot, fromRoot_append _ hne, dir_fromRoot]
  have hin : FromRoot (dir file ++ SL :: rel) ↔ FromRoot file := by rw [fromRoot_append _ hne, dir_fromRoot]
  have hfol : ∀ place, (FromRoot file → place = []) → follow place (pathNames (join (dir file) rel)) =
      follow place ((pathNames file).dropLast ++ pathNames rel) := by
    intro place hpl
    rw [join_eq _ hne]
    have : follow place (pathNames (clean (dir file ++ SL :: rel))) = follow place (pathNames (dir file ++ SL :: rel)) := by
      by_cases hf : FromRoot file
      · rw [hpl hf]
        exact clean_follow_abs (hin.2 hf)
      · exact clean_follow (fun h => hf (hin.1 h)) place
    rw [this, pathNames_append_sl, follow_append, dir_follow _ _ hpl, follow_append]
  constructor
  · intro hf
    rw [abs, if_pos ((isAbs_iff _).2 (hroot.2 hf)), clean_abs (hroot.2 hf), hfol [] fun _ => rfl]
  · intro hf
    obtain ⟨t, rfl⟩ := hc
    have hcl : clean (47 :: t ++ SL :: join (dir file) rel) = _ := clean_abs ⟨t ++ SL :: join (dir file) rel, rfl⟩
    rw [abs, if_neg fun h => hf (hroot.1 ((isAbs_iff _).1 h)), join_eq _ (by simp), hcl,
      pathNames_append_sl, follow_append, hfol _ fun h => absurd h hf]

end Hound.Path
