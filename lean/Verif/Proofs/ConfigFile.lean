import Verif.Spec.ConfigFile
import Verif.Proofs.Config

/-!
# Reading the members of a configuration file
-/

namespace Hound.Config

open Spec
open JsonText (Value)

/-- Values taken one after the other. -/
def foldVals {β : Type} (g : Value Bytes → β → Option β) : List (Value Bytes) → β → Option β
  | [], b => some b
  | v :: r, b => (g v b).bind (foldVals g r)

theorem foldVals_snoc {β : Type} (g : Value Bytes → β → Option β) (vs : List (Value Bytes)) (v : Value Bytes) :
    ∀ b, foldVals g (vs ++ [v]) b = (foldVals g vs b).bind (g v) := by
  induction vs with
  | nil => intro b; simp [foldVals]
  | cons w vs ih =>
    intro b
    simp only [List.cons_append, foldVals]
    cases g w b with
    | none => rfl
    | some b => exact ih b

theorem readMembers_append {α : Type} (f : Bytes × Value Bytes → α → Option α) (a b : List (Bytes × Value Bytes)) :
    ∀ s, readMembers f (a ++ b) s = (readMembers f a s).bind (readMembers f b) := by
  induction a with
  | nil => intro s; rfl
  | cons m a ih =>
    intro s
    simp only [List.cons_append, readMembers]
    cases f m s with
    | none => rfl
    | some s => exact ih s

theorem said_cons (name : Bytes) (m : Bytes × Value Bytes) (ms : List (Bytes × Value Bytes)) :
    said name (m :: ms) = if foldKey m.1 = name then m.2 :: said name ms else said name ms := by
  simp only [said, List.filterMap_cons]
  by_cases h : inSmall m.1 = name
  · rw [if_pos h, if_pos (show foldKey m.1 = name from h)]
  · rw [if_neg h, if_neg (show ¬ foldKey m.1 = name from h)]

/-- A field of the result is made of what is said under its name. -/
theorem readMembers_field {α β : Type} {f : Bytes × Value Bytes → α → Option α} (π : α → β) (name : Bytes)
    (g : Value Bytes → β → Option β)
    (hf : ∀ m s s', f m s = some s' → (foldKey m.1 = name → g m.2 (π s) = some (π s')) ∧ (foldKey m.1 ≠ name → π s' = π s))
    (ms : List (Bytes × Value Bytes)) : ∀ {s s'}, readMembers f ms s = some s' → foldVals g (said name ms) (π s) = some (π s') := by
  induction ms with
  | nil =>
    intro s s' h
    cases h
    rfl
  | cons m ms ih =>
    intro s s' h
    simp only [readMembers] at h
    obtain ⟨s1, h1, h2⟩ := Option.bind_eq_some_iff.1 h
    obtain ⟨ha, hb⟩ := hf m s s1 h1
    rw [said_cons]
    by_cases hk : foldKey m.1 = name
    · rw [if_pos hk, foldVals, ha hk]
      exact ih h2
    · rw [if_neg hk, ← hb hk]
      exact ih h2

/-- When reading fails. -/
theorem readMembers_none {α : Type} {f : Bytes × Value Bytes → α → Option α} {P : Bytes × Value Bytes → Prop}
    (hf : ∀ m s, f m s = none ↔ ¬ P m) (ms : List (Bytes × Value Bytes)) :
    ∀ s, readMembers f ms s = none ↔ ¬ ∀ m ∈ ms, P m := by
  induction ms with
  | nil => intro s; simp [readMembers]
  | cons m ms ih =>
    intro s
    simp only [readMembers]
    cases h : f m s with
    | none =>
      have := (hf m s).1 h
      simp only [Option.bind_none, List.mem_cons, true_iff]
      exact fun hall => this (hall m (.inl rfl))
    | some s1 =>
      have hm : P m := Classical.byContradiction fun hn => by
        rw [(hf m s).2 hn] at h
        cases h
      rw [Option.bind_some, ih]
      simp [hm]

theorem filter_snoc (vs : List (Value Bytes)) (v : Value Bytes) :
    ((vs ++ [v]).filter Says).getLast? = if Says v then some v else (vs.filter Says).getLast? := by
  rw [List.filter_append]
  cases h : Says v <;> simp [h]

theorem snocInd {α : Type} {P : List α → Prop} (h0 : P []) (h1 : ∀ l a, P l → P (l ++ [a])) (l : List α) : P l := by
  have : ∀ k : List α, P k.reverse := by
    intro k
    induction k with
    | nil => exact h0
    | cons a k ih =>
      rw [List.reverse_cons]
      exact h1 _ _ ih
  have := this l.reverse
  rwa [List.reverse_reverse] at this

/-- A way to describe what values taken one after the other come to. -/
theorem foldVals_said {β : Type} {g : Value Bytes → β → Option β} (F : List (Value Bytes) → β)
    (hg : ∀ vs v b, g v (F vs) = some b → b = F (vs ++ [v])) (vs : List (Value Bytes)) :
    ∀ {r}, foldVals g vs (F []) = some r → r = F vs := by
  induction vs using snocInd with
  | h0 => intro r h; cases h; rfl
  | h1 vs v ih =>
    intro r h
    rw [foldVals_snoc] at h
    obtain ⟨x, e1, e2⟩ := Option.bind_eq_some_iff.1 h
    rw [ih e1] at e2
    exact hg vs v r e2

theorem text_said {vs : List (Value Bytes)} {r : Bytes} (h : foldVals readText vs [] = some r) : r = textSaid vs := by
  refine foldVals_said textSaid ?_ vs h
  intro vs v b h
  rw [textSaid, filter_snoc]
  cases v <;> cases h <;> rfl

theorem number_said {vs : List (Value Bytes)} {r : Int} (h : foldVals readInt vs 0 = some r) : r = numberSaid vs := by
  refine foldVals_said numberSaid ?_ vs h
  intro vs v b h
  rw [numberSaid, filter_snoc]
  cases v with
  | null => cases h; rfl
  | num n =>
    simp only [readInt] at h
    split at h
    · cases h; rfl
    · cases h
  | _ => cases h

theorem flag_said {vs : List (Value Bytes)} {r : Bool} (h : foldVals readFlag vs false = some r) : r = flagSaid vs := by
  refine foldVals_said flagSaid ?_ vs h
  intro vs v b h
  rw [flagSaid, filter_snoc]
  cases v <;> cases h <;> rfl

theorem choice_said {vs : List (Value Bytes)} {r : Option Bool} (h : foldVals (fun v _ => readOptFlag v) vs none = some r) :
    r = choiceSaid vs := by
  refine foldVals_said choiceSaid ?_ vs h
  intro vs v b h
  rw [choiceSaid, List.getLast?_concat]
  cases v <;> cases h <;> rfl

theorem elems_said : ∀ {xs : List (Value Bytes)} {r : List Bytes}, readElems xs = some r → r = xs.map fun x => textSaid [x]
  | [], r, h => by cases h; rfl
  | x :: xs, r, h => by
    simp only [readElems] at h
    obtain ⟨s, h1, h2⟩ := Option.bind_eq_some_iff.1 h
    obtain ⟨t, h3, rfl⟩ := Option.map_eq_some_iff.1 h2
    rw [List.map_cons, ← elems_said h3]
    congr 1
    cases x <;> cases h1 <;> rfl

theorem texts_said {vs : List (Value Bytes)} {r : List Bytes} (h : foldVals (fun v _ => readTexts v) vs [] = some r) :
    r = textsSaid vs := by
  refine foldVals_said textsSaid ?_ vs h
  intro vs v b h
  rw [textsSaid, List.getLast?_concat]
  cases v with
  | null => cases h; rfl
  | arr xs => exact elems_said h
  | _ => cases h

theorem value_said {vs : List (Value Bytes)} {r : Option Json} (h : foldVals (fun v _ => some (readMessage v)) vs none = some r) :
    r = (valueSaid vs).map rawMessage := by
  refine foldVals_said (fun vs => (valueSaid vs).map rawMessage) ?_ vs h
  intro vs v b h
  simp only [valueSaid, List.getLast?_concat]
  cases v <;> cases h <;> rfl

theorem membersSaid_snoc (vs : List (Value Bytes)) (v : Value Bytes) :
    membersSaid (vs ++ [v]) = if Says v then membersSaid vs ++ objectMembers v else [] := by
  simp only [membersSaid, List.reverse_append, List.reverse_cons, List.reverse_nil, List.nil_append, List.singleton_append]
  cases h : Says v <;> simp [h]

theorem object_said {α : Type} {f : Bytes × Value Bytes → α → Option α} {g : Value Bytes → α → Option α} (init : α)
    (hnull : ∀ old, g .null old = some init) (hg : ∀ v old, Says v = true → g v old = readObject f v old)
    (vs : List (Value Bytes)) : ∀ {r}, foldVals g vs init = some r → readMembers f (membersSaid vs) init = some r := by
  induction vs using snocInd with
  | h0 => intro r h; cases h; rfl
  | h1 vs v ih =>
    intro r h
    rw [foldVals_snoc] at h
    obtain ⟨x, e1, e2⟩ := Option.bind_eq_some_iff.1 h
    rw [membersSaid_snoc]
    have ih := ih e1
    cases v with
    | null =>
      rw [hnull] at e2
      cases e2
      rfl
    | obj ms =>
      rw [hg _ _ rfl] at e2
      rw [if_pos (show Says (.obj ms) = true from rfl), readMembers_append, ih]
      exact e2
    | _ =>
      rw [hg _ _ rfl] at e2
      cases e2

/-! ## Maps -/

theorem mapSet_lookup {α : Type} (k : Bytes) (v : α) (j : Bytes) : ∀ l : List (Bytes × α),
    (mapSet k v l).lookup j = if j = k then some v else l.lookup j
  | [] => by
    simp only [mapSet, List.lookup_cons, List.lookup_nil]
    by_cases h : j = k
    · simp [h]
    · have : (j == k) = false := by simpa using h
      rw [this, if_neg h]
  | e :: r => by
    obtain ⟨a, b⟩ := e
    rw [mapSet]
    by_cases ha : a = k
    · rw [if_pos ha, List.lookup_cons]
      by_cases h : j = k
      · simp [h]
      · rw [if_neg h, List.lookup_cons]
        have e1 : (j == k) = false := by simpa using h
        have e2 : (j == a) = false := by simpa [ha] using h
        rw [e1, e2]
    · rw [if_neg ha, List.lookup_cons, mapSet_lookup k v j r, List.lookup_cons]
      by_cases h : j = k
      · have : (j == a) = false := by
          rw [h]
          simpa using fun e : k = a => ha e.symm
        rw [this, if_pos h]
      · rw [if_neg h, if_neg h]

theorem mapSet_keys {α : Type} (k : Bytes) (v : α) : ∀ l : List (Bytes × α), ∀ j ∈ (mapSet k v l).map (·.1), j = k ∨ j ∈ l.map (·.1)
  | [], j, h => .inl (by simpa [mapSet] using h)
  | e :: r, j, h => by
    rw [mapSet] at h
    split at h
    · rcases List.mem_cons.1 h with h | h
      · exact .inl h
      · exact .inr (List.mem_cons_of_mem _ h)
    · rcases List.mem_cons.1 h with h | h
      · exact .inr (h ▸ List.mem_cons_self)
      · rcases mapSet_keys k v r j h with h | h
        · exact .inl h
        · exact .inr (List.mem_cons_of_mem _ h)

theorem mapSet_nodup {α : Type} (k : Bytes) (v : α) : ∀ l : List (Bytes × α), (l.map (·.1)).Nodup → ((mapSet k v l).map (·.1)).Nodup
  | [], _ => by simp [mapSet]
  | e :: r, h => by
    rw [List.map_cons, List.nodup_cons] at h
    rw [mapSet]
    split
    · rename_i he
      rw [List.map_cons, List.nodup_cons]
      exact ⟨he ▸ h.1, h.2⟩
    · rename_i he
      rw [List.map_cons, List.nodup_cons]
      refine ⟨fun hm => ?_, mapSet_nodup k v r h.2⟩
      rcases mapSet_keys k v r _ hm with hm | hm
      · exact he hm
      · exact h.1 hm

theorem mem_iff_lookup {α : Type} : ∀ {l : List (Bytes × α)}, (l.map (·.1)).Nodup → ∀ {k : Bytes} {v : α},
    (k, v) ∈ l ↔ l.lookup k = some v
  | [], _, k, v => by simp
  | (a, b) :: r, h, k, v => by
    rw [List.map_cons, List.nodup_cons] at h
    rw [List.lookup_cons, List.mem_cons]
    by_cases hk : k = a
    · subst hk
      simp only [beq_self_eq_true, Prod.mk.injEq, true_and]
      constructor
      · rintro (rfl | hm)
        · rfl
        · exact absurd (List.mem_map.2 ⟨_, hm, rfl⟩) h.1
      · intro e
        exact .inl (Option.some.inj e).symm
    · have : (k == a) = false := by simpa using hk
      simp only [this]
      rw [← mem_iff_lookup h.2]
      simp [hk]

/-- A map that is read: what a key has is what the last member with that name says. -/
theorem readMap {α : Type} {rd : Value Bytes → Option α} (ms : List (Bytes × Value Bytes)) :
    ∀ {l}, readMembers (fun m l => (rd m.2).map fun r => mapSet m.1 r l) ms [] = some l →
      (l.map (·.1)).Nodup ∧ ∀ k, l.lookup k = (valueOf k ms).bind rd ∧ (l.lookup k).isSome = (valueOf k ms).isSome := by
  induction ms using snocInd with
  | h0 => intro l h; cases h; exact ⟨.nil, fun k => ⟨rfl, rfl⟩⟩
  | h1 ms m ih =>
    intro l h
    rw [readMembers_append] at h
    obtain ⟨x, e1, e2⟩ := Option.bind_eq_some_iff.1 h
    simp only [readMembers, Option.bind_eq_some_iff, Option.map_eq_some_iff] at e2
    obtain ⟨_, ⟨r, hr, rfl⟩, e3⟩ := e2
    cases e3
    obtain ⟨i1, i2⟩ := ih e1
    refine ⟨mapSet_nodup _ _ _ i1, fun k => ?_⟩
    rw [mapSet_lookup]
    have ev : valueOf k (ms ++ [m]) = if k = m.1 then some m.2 else valueOf k ms := by
      simp only [valueOf, List.filter_append]
      by_cases h : k = m.1
      · subst h
        simp
      · have : (m.1 == k) = false := by simpa using fun e : m.1 = k => h e.symm
        simp [this, h]
    rw [ev]
    by_cases h : k = m.1
    · simp [h, hr]
    · rw [if_neg h, if_neg h]
      exact i2 k

end Hound.Config
