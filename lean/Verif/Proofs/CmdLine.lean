import Verif.Spec.CmdLine
import Verif.Proofs.GoInt
/-! Lemmas for C106. -/

namespace Hound
namespace Flag

theorem formal_iff {flags : List (Bytes × Kind)} (h : (flags.map (·.1)).Nodup) (name : Bytes) (k : Kind) :
    formal flags name = some k ↔ (name, k) ∈ flags := by
  unfold formal
  induction flags with
  | nil => simp
  | cons e r ih =>
    obtain ⟨n, k'⟩ := e
    simp only [List.map_cons, List.nodup_cons] at h
    rw [List.lookup_cons]
    by_cases hn : name = n
    · subst hn
      simp only [beq_self_eq_true, Option.some.injEq, List.mem_cons, Prod.mk.injEq, true_and]
      constructor
      · rintro rfl; exact .inl rfl
      · rintro (rfl | hm)
        · rfl
        · exact absurd (List.mem_map.2 ⟨_, hm, rfl⟩) h.1
    · have : (name == n) = false := by simpa using hn
      rw [this]
      simp [ih h.2, hn]

theorem setValue_iff (k : Kind) (v : Bytes) (x : Val) :
    setValue k v = some x ↔ Says k v x := by
  cases k with
  | str =>
    constructor
    · intro h; cases h; exact .str v
    · intro h; cases h; rfl
  | int =>
    simp only [setValue, Option.map_eq_some_iff, GoInt.parseInt_iff]
    constructor
    · rintro ⟨i, h, rfl⟩; exact .number v i h
    · intro h; cases h with
      | number _ i h => exact ⟨i, h, rfl⟩
  | bool =>
    simp only [setValue, parseBool]
    constructor
    · intro h
      split at h
      · cases h; exact .yes v ‹_›
      · split at h
        · cases h; exact .no v ‹_›
        · cases h
    · intro h
      cases h with
      | yes _ h => rw [if_pos h]; rfl
      | no _ h =>
        have : v ∉ [b!"1", b!"t", b!"T", b!"TRUE", b!"true", b!"True"] := by
          intro h'
          simp only [List.mem_cons, List.not_mem_nil, or_false] at h h'
          rcases h with rfl | rfl | rfl | rfl | rfl | rfl <;> revert h' <;> decide
        rw [if_neg this, if_pos h]; rfl

theorem splitEq_none {v : Bytes} (h : (61 : UInt8) ∉ v) : splitEq v = (v, none) := by
  induction v with
  | nil => rfl
  | cons c r ih =>
    simp only [List.mem_cons, not_or] at h
    rw [splitEq, if_neg (fun e => h.1 e.symm), ih h.2]

theorem splitEq_some {a : Bytes} (h : (61 : UInt8) ∉ a) (v : Bytes) : splitEq (a ++ 61 :: v) = (a, some v) := by
  induction a with
  | nil => simp [splitEq]
  | cons c r ih =>
    simp only [List.mem_cons, not_or] at h
    rw [List.cons_append, splitEq, if_neg (fun e => h.1 e.symm), ih h.2]

theorem splitEq_back (v : Bytes) : (∃ w, splitEq v = (v, none) ∧ w = v) ∨ ∃ a w, splitEq v = (a, some w) ∧ v = a ++ 61 :: w := by
  induction v with
  | nil => exact .inl ⟨_, rfl, rfl⟩
  | cons c r ih =>
    rw [splitEq]
    by_cases hc : c = 61
    · subst hc; exact .inr ⟨[], r, by simp⟩
    · rw [if_neg hc]
      rcases ih with ⟨w, h, _⟩ | ⟨a, w, h, h'⟩
      · exact .inl ⟨_, by rw [h], rfl⟩
      · exact .inr ⟨c :: a, w, by rw [h], by rw [h']; rfl⟩

section
variable {flags : List (Bytes × Kind)}

/-- What comes of a name and a value. -/
theorem flagOf_set (hg : GoodFlags flags) {name : Bytes} {value : Option Bytes} {args rest : List Bytes} {nm : Bytes} {x : Val} :
    flagOf (formal flags) name value args = .set nm x rest ↔ nm = name ∧
      ((∃ k v, value = some v ∧ (name, k) ∈ flags ∧ Says k v x ∧ rest = args) ∨
       (value = none ∧ (name, Kind.bool) ∈ flags ∧ x = .bool true ∧ rest = args) ∨
       (∃ k v, value = none ∧ (name, k) ∈ flags ∧ k ≠ .bool ∧ Says k v x ∧ args = v :: rest)) := by
  have htrue : ∀ x, setValue .bool b!"true" = some x ↔ x = .bool true := by
    intro x
    have : setValue .bool b!"true" = some (.bool true) := by simp [setValue, parseBool]
    rw [this]; simp [eq_comm]
  simp only [← formal_iff hg.1, ← setValue_iff]
  unfold flagOf
  cases hf : formal flags name with
  | none => simp; split <;> simp
  | some k =>
    cases k with
    | bool =>
      cases value with
      | none =>
        simp only [Option.getD_none]
        cases hs : setValue .bool b!"true" with
        | none => have := (htrue (.bool true)).2 rfl; rw [hs] at this; cases this
        | some y =>
          have := (htrue y).1 hs; subst this
          simp only [One.set.injEq]
          constructor
          · rintro ⟨rfl, rfl, rfl⟩; refine ⟨rfl, .inr (.inl ?_)⟩; simp
          · rintro ⟨rfl, ⟨_, _, h, _⟩ | ⟨_, _, rfl, rfl⟩ | ⟨k, v, _, h, hk, _⟩⟩
            · cases h
            · exact ⟨rfl, rfl, rfl⟩
            · cases h; exact absurd rfl hk
      | some v =>
        simp only [Option.getD_some]
        cases hs : setValue .bool v with
        | none => simp; grind
        | some y => simp only [One.set.injEq]; grind
    | str =>
      cases value with
      | some v =>
        simp only
        cases hs : setValue .str v with
        | none => simp; grind
        | some y => simp only [One.set.injEq]; grind
      | none =>
        cases args with
        | nil => simp
        | cons v args =>
          simp only
          cases hs : setValue .str v with
          | none => simp; grind
          | some y => simp only [One.set.injEq]; grind
    | int =>
      cases value with
      | some v =>
        simp only
        cases hs : setValue .int v with
        | none => simp; grind
        | some y => simp only [One.set.injEq]; grind
      | none =>
        cases args with
        | nil => simp
        | cons v args =>
          simp only
          cases hs : setValue .int v with
          | none => simp; grind
          | some y => simp only [One.set.injEq]; grind

theorem flagOf_not_stop {name : Bytes} {value : Option Bytes} {args rest : List Bytes} {f : Bytes → Option Kind} :
    flagOf f name value args ≠ .stop rest := by
  unfold flagOf
  repeat' split
  all_goals simp

/-- A flag as it is written is looked up. -/
theorem parseOne_written (hg : GoodFlags flags) {d name : Bytes} {k : Kind} (hd : Dashes d) (hn : (name, k) ∈ flags) (args : List Bytes) :
    parseOne (formal flags) ((d ++ name) :: args) = flagOf (formal flags) name none args ∧
    ∀ v, parseOne (formal flags) ((d ++ name ++ b!"=" ++ v) :: args) = flagOf (formal flags) name (some v) args := by
  obtain ⟨h1, h2, h3⟩ := hg.2 _ hn
  match name, h1 with
  | n :: nr, _ =>
    simp only [List.mem_cons, not_or, List.head?_cons, ne_eq, Option.some.injEq] at h2 h3
    have hne : n ≠ 61 := fun e => h2.1 e.symm
    have e1 := splitEq_none h2.2
    have e2 := splitEq_some h2.2
    rcases hd with rfl | rfl
    · constructor
      · show parseOne _ ((45 :: n :: nr) :: args) = _
        simp [parseOne, h3, hne, e1]
      · intro v
        show parseOne _ ((45 :: n :: (nr ++ [61] ++ v)) :: args) = _
        have : nr ++ [61] ++ v = nr ++ 61 :: v := by simp
        rw [this]
        simp [parseOne, h3, hne, e2]
    · constructor
      · show parseOne _ ((45 :: 45 :: n :: nr) :: args) = _
        simp [parseOne, h3, hne, e1]
      · intro v
        show parseOne _ ((45 :: 45 :: n :: (nr ++ [61] ++ v)) :: args) = _
        have : nr ++ [61] ++ v = nr ++ 61 :: v := by simp
        rw [this]
        simp [parseOne, h3, hne, e2]

theorem parseOne_set (hg : GoodFlags flags) {args rest : List Bytes} {name : Bytes} {x : Val} :
    parseOne (formal flags) args = .set name x rest ↔ Opt flags args name x rest := by
  constructor
  · intro h
    unfold parseOne at h
    split at h
    · cases h
    rename_i s args
    split at h
    rotate_left
    · cases h
    rename_i d c r
    split at h
    · cases h
    rename_i hd
    have hd : d = 45 := by simpa using hd
    subst hd
    split at h
    · cases h
    split at h
    · cases h
    rename_i n nr hname
    split at h
    · cases h
    have hw : ∃ d, Dashes d ∧ (45 : UInt8) :: c :: r = d ++ (n :: nr) := by
      by_cases hc : c = 45
      · rw [if_pos hc] at hname; subst hc; subst hname; exact ⟨_, .inr rfl, rfl⟩
      · rw [if_neg hc] at hname; rw [← hname]; exact ⟨_, .inl rfl, rfl⟩
    obtain ⟨d, hd, hw⟩ := hw
    rw [hw]
    obtain ⟨rfl, h2⟩ := (flagOf_set hg).1 h
    clear h hname
    rcases splitEq_back nr with ⟨_, he, _⟩ | ⟨a, w, he, hnr⟩
    · rw [he] at h2 ⊢
      rcases h2 with ⟨_, _, h, _⟩ | ⟨_, hm, rfl, rfl⟩ | ⟨k, v, _, hm, hk, hs, rfl⟩
      · cases h
      · exact .alone d _ _ hd hm
      · exact .apart d _ v k x _ hd hm hk hs
    · rw [he] at h2 ⊢
      rcases h2 with ⟨k, v, hv, hm, hs, rfl⟩ | ⟨h, _⟩ | ⟨_, _, h, _⟩
      · cases hv
        have := Opt.joined (flags := flags) d _ w k x rest hd hm hs
        have e : d ++ n :: nr = d ++ (n :: a) ++ b!"=" ++ w := by rw [hnr]; simp
        rw [e]; exact this
      · cases h
      · cases h
  · intro h
    cases h with
    | joined d _ v k _ _ hd hm hs =>
      rw [(parseOne_written hg hd hm _).2, flagOf_set hg]
      exact ⟨rfl, .inl ⟨k, v, rfl, hm, hs, rfl⟩⟩
    | alone d _ _ hd hm =>
      rw [(parseOne_written hg hd hm _).1, flagOf_set hg]
      exact ⟨rfl, .inr (.inl ⟨rfl, hm, rfl, rfl⟩)⟩
    | apart d _ v k _ _ hd hm hk hs =>
      rw [(parseOne_written hg hd hm _).1, flagOf_set hg]
      exact ⟨rfl, .inr (.inr ⟨k, v, rfl, hm, hk, hs, rfl⟩)⟩

theorem parseOne_stop {f : Bytes → Option Kind} {args rest : List Bytes} :
    parseOne f args = .stop rest ↔ (args = [] ∧ rest = []) ∨
      (∃ a r, args = a :: r ∧ rest = args ∧ (a.head? ≠ some 45 ∨ a = b!"-")) ∨ args = b!"--" :: rest := by
  match args with
  | [] =>
    constructor
    · intro h; cases h; exact .inl ⟨rfl, rfl⟩
    · rintro (⟨_, rfl⟩ | ⟨_, _, h, _⟩ | h)
      · rfl
      · cases h
      · cases h
  | [] :: args =>
    constructor
    · intro h; cases h; exact .inr (.inl ⟨_, _, rfl, rfl, .inl (by simp)⟩)
    · rintro (⟨h, _⟩ | ⟨_, _, h, rfl, _⟩ | h)
      · cases h
      · rfl
      · cases h
  | [c] :: args =>
    constructor
    · intro h; cases h
      refine .inr (.inl ⟨_, _, rfl, rfl, ?_⟩)
      by_cases hc : c = 45
      · subst hc; exact .inr rfl
      · exact .inl (by simpa using hc)
    · rintro (⟨h, _⟩ | ⟨_, _, h, rfl, _⟩ | h)
      · cases h
      · rfl
      · cases h
  | (d :: c :: r) :: args =>
    by_cases hd : d = 45
    · subst hd
      by_cases hcr : c = 45 ∧ r = []
      · obtain ⟨rfl, rfl⟩ := hcr
        constructor
        · intro h
          have : parseOne f (b!"--" :: args) = .stop args := by simp [parseOne]
          rw [show ([45, 45] : Bytes) = b!"--" from rfl, this] at h
          cases h; exact .inr (.inr rfl)
        · rintro (⟨h, _⟩ | ⟨a, r, h, _, h'⟩ | h)
          · cases h
          · cases h; simp at h'
          · cases h; simp [parseOne]
      · have hno : parseOne f ((45 :: c :: r) :: args) ≠ .stop rest := by
          unfold parseOne
          simp only [ne_eq, not_true_eq_false, if_false, hcr]
          split
          · simp
          · split
            · simp
            · exact flagOf_not_stop
        simp only [hno, false_iff]
        rintro (⟨h, _⟩ | ⟨a, r', h, _, h'⟩ | h)
        · cases h
        · cases h; simp at h'
        · simp only [List.cons.injEq, true_and] at h
          exact hcr ⟨h.1.1, h.1.2⟩
    · have : d ≠ 45 := hd
      have e : parseOne f ((d :: c :: r) :: args) = .stop ((d :: c :: r) :: args) := by simp [parseOne, this]
      rw [e]
      constructor
      · intro h; cases h; exact .inr (.inl ⟨_, _, rfl, rfl, .inl (by simpa using hd)⟩)
      · rintro (⟨h, _⟩ | ⟨_, _, _, rfl, _⟩ | h)
        · cases h
        · rfl
        · cases h; exact absurd rfl hd

theorem opt_shorter {args rest : List Bytes} {name : Bytes} {x : Val} (h : Opt flags args name x rest) :
    rest.length < args.length := by
  cases h <;> simp <;> omega

theorem parseLoop_iff (hg : GoodFlags flags) : ∀ (k : Nat) (args : List Bytes) (sets : List (Bytes × Val)) (rest : List Bytes),
    args.length < k → (parseLoop (formal flags) k args = .ok sets rest ↔ Line flags args sets rest) := by
  intro k
  induction k with
  | zero => intro args _ _ h; omega
  | succ k ih =>
    intro args sets rest hl
    rw [parseLoop]
    constructor
    · intro h
      split at h
      · rename_i r hp
        cases h
        rcases parseOne_stop.1 hp with ⟨rfl, rfl⟩ | ⟨a, r, rfl, rfl, h'⟩ | rfl
        · exact .none
        · exact .rest a r h'
        · exact .ended _
      · cases h
      · cases h
      · rename_i name x args' hp
        have ho := (parseOne_set hg).1 hp
        split at h
        · rename_i sets' rest' hk
          cases h
          exact .opt _ _ _ _ _ _ ho ((ih args' _ _ (by have := opt_shorter ho; omega)).1 hk)
        · rename_i hno
          exact absurd h (by intro h; exact hno _ _ h)
    · intro h
      cases h with
      | none => rw [(parseOne_stop (rest := [])).2 (.inl ⟨rfl, rfl⟩)]
      | rest a r h' => rw [(parseOne_stop (rest := a :: r)).2 (.inr (.inl ⟨a, r, rfl, rfl, h'⟩))]
      | ended => rw [(parseOne_stop (rest := rest)).2 (.inr (.inr rfl))]
      | opt _ args' _ name x sets' ho hr =>
        rw [(parseOne_set hg).2 ho]
        simp only
        rw [(ih args' _ _ (by have := opt_shorter ho; omega)).2 hr]

end

theorem current_has (sets : List (Bytes × Val)) (name : Bytes) (dflt : Val) : Has sets name dflt (current sets name dflt) := by
  unfold current
  induction sets generalizing dflt with
  | nil => exact .inl ⟨rfl, fun y h => by cases h⟩
  | cons e r ih =>
    obtain ⟨n, v⟩ := e
    rw [List.foldl_cons]
    by_cases hn : n = name
    · subst hn
      simp only [if_true]
      rcases ih v with ⟨h1, h2⟩ | ⟨a, b, h1, h2⟩
      · exact .inr ⟨[], r, by rw [h1]; rfl, h2⟩
      · refine .inr ⟨(n, v) :: a, b, ?_, h2⟩
        rw [List.cons_append, ← h1]
    · simp only [hn, if_false]
      rcases ih dflt with ⟨h1, h2⟩ | ⟨a, b, h1, h2⟩
      · exact .inl ⟨h1, fun y h => by
          rcases List.mem_cons.1 h with h | h
          · cases h; exact hn rfl
          · exact h2 y h⟩
      · refine .inr ⟨(n, v) :: a, b, ?_, h2⟩
        rw [List.cons_append, ← h1]

theorem flagOf_help {flags : List (Bytes × Kind)} {name : Bytes} {value : Option Bytes} {args : List Bytes} :
    flagOf (formal flags) name value args = .help ↔ formal flags name = none ∧ (name = b!"help" ∨ name = b!"h") := by
  unfold flagOf
  cases hf : formal flags name with
  | none => simp only [true_and]; split <;> simp_all
  | some k =>
    simp only [reduceCtorEq, false_and, iff_false]
    repeat' split
    all_goals simp_all

/-- Any name is looked up as it is written. -/
theorem parseOne_named {f : Bytes → Option Kind} {d name : Bytes} (hd : Dashes d) (h1 : name ≠ []) (h2 : (61 : UInt8) ∉ name)
    (h3 : name.head? ≠ some 45) (args : List Bytes) :
    parseOne f ((d ++ name) :: args) = flagOf f name none args ∧
    ∀ v, parseOne f ((d ++ name ++ b!"=" ++ v) :: args) = flagOf f name (some v) args := by
  match name, h1 with
  | n :: nr, _ =>
    simp only [List.mem_cons, not_or, List.head?_cons, ne_eq, Option.some.injEq] at h2 h3
    have hne : n ≠ 61 := fun e => h2.1 e.symm
    have e1 := splitEq_none h2.2
    have e2 := splitEq_some h2.2
    rcases hd with rfl | rfl
    · constructor
      · show parseOne _ ((45 :: n :: nr) :: args) = _
        simp [parseOne, h3, hne, e1]
      · intro v
        show parseOne _ ((45 :: n :: (nr ++ [61] ++ v)) :: args) = _
        have : nr ++ [61] ++ v = nr ++ 61 :: v := by simp
        rw [this]
        simp [parseOne, h3, hne, e2]
    · constructor
      · show parseOne _ ((45 :: 45 :: n :: nr) :: args) = _
        simp [parseOne, h3, hne, e1]
      · intro v
        show parseOne _ ((45 :: 45 :: n :: (nr ++ [61] ++ v)) :: args) = _
        have : nr ++ [61] ++ v = nr ++ 61 :: v := by simp
        rw [this]
        simp [parseOne, h3, hne, e2]

theorem parseOne_help {flags : List (Bytes × Kind)} {args : List Bytes} (h : parseOne (formal flags) args = .help) : Asks flags args := by
  unfold parseOne at h
  split at h
  · cases h
  rename_i s args
  split at h
  rotate_left
  · cases h
  rename_i d c r
  split at h
  · cases h
  rename_i hd
  have hd : d = 45 := by simpa using hd
  subst hd
  split at h
  · cases h
  split at h
  · cases h
  rename_i n nr hname
  split at h
  · cases h
  have hw : ∃ d, Dashes d ∧ (45 : UInt8) :: c :: r = d ++ (n :: nr) := by
    by_cases hc : c = 45
    · rw [if_pos hc] at hname; subst hc; subst hname; exact ⟨_, .inr rfl, rfl⟩
    · rw [if_neg hc] at hname; rw [← hname]; exact ⟨_, .inl rfl, rfl⟩
  obtain ⟨d, hd, hw⟩ := hw
  rw [hw]
  obtain ⟨-, h2⟩ := flagOf_help.1 h
  clear h hname
  rcases splitEq_back nr with ⟨_, he, _⟩ | ⟨a, w, he, hnr⟩
  · rw [he] at h2
    exact .plain d _ _ hd h2
  · rw [he] at h2
    have e : d ++ n :: nr = d ++ (n :: a) ++ b!"=" ++ w := by rw [hnr]; simp
    rw [e]; exact .joined d _ w _ hd h2

theorem parseLoop_help {flags : List (Bytes × Kind)} (hg : GoodFlags flags) (hh : ∀ k, (b!"help", k) ∉ flags ∧ (b!"h", k) ∉ flags) :
    ∀ (k : Nat) (args : List Bytes), args.length < k → (parseLoop (formal flags) k args = .help ↔ Asks flags args) := by
  intro k
  induction k with
  | zero => intro args h; omega
  | succ k ih =>
    intro args hl
    rw [parseLoop]
    constructor
    · intro h
      split at h
      · cases h
      · exact parseOne_help ‹_›
      · cases h
      · rename_i name x args' hs
        have ho := (parseOne_set hg).1 hs
        have := opt_shorter ho
        cases hp : parseLoop (formal flags) k args' with
        | help => exact .opt _ _ _ _ ho ((ih _ (by omega)).1 hp)
        | bad => rw [hp] at h; cases h
        | ok sets rest => rw [hp] at h; cases h
    · intro h
      have none : ∀ name, name = b!"help" ∨ name = b!"h" → formal flags name = none := by
        intro name hn
        cases hf : formal flags name with
        | none => rfl
        | some k =>
          have := (formal_iff hg.1 _ _).1 hf
          rcases hn with rfl | rfl
          · exact absurd this (hh k).1
          · exact absurd this (hh k).2
      have good : ∀ name, name = b!"help" ∨ name = b!"h" → name ≠ [] ∧ (61 : UInt8) ∉ name ∧ name.head? ≠ some 45 := by
        rintro name (rfl | rfl) <;> decide
      cases h with
      | plain d name args hd hn =>
        obtain ⟨g1, g2, g3⟩ := good _ hn
        rw [(parseOne_named hd g1 g2 g3 _).1, flagOf_help.2 ⟨none _ hn, hn⟩]
      | joined d name v args hd hn =>
        obtain ⟨g1, g2, g3⟩ := good _ hn
        rw [(parseOne_named hd g1 g2 g3 _).2, flagOf_help.2 ⟨none _ hn, hn⟩]
      | opt _ args' name x ho ha =>
        have := opt_shorter ho
        rw [(parseOne_set hg).2 ho]
        simp only
        rw [(ih _ (by omega)).2 ha]

end Flag
end Hound
