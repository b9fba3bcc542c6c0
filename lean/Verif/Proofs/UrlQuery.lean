import Verif.Model.UrlQuery
import Verif.Proofs.Vcs

namespace Hound.Url
open Client (fmtD)

/-- Bytes with no meaning in a query. -/
def Safe (c : UInt8) : Prop := c ≠ 35 ∧ c ≠ 38 ∧ c ≠ 59 ∧ c ≠ 61 ∧ c ≠ 63

instance (c : UInt8) : Decidable (Safe c) := inferInstanceAs (Decidable (_ ∧ _))

theorem forall_u8 {P : UInt8 → Prop} (h : ∀ i : Fin 256, P (UInt8.ofFin i)) (c : UInt8) : P c := h c.toFin

theorem pct_hex : ∀ c : UInt8, ∃ x y, unhex (hexUpper (c / 16)) = some x ∧ unhex (hexUpper (c % 16)) = some y ∧
    (x <<< 4) ||| y = c := by
  have h : ∀ c : UInt8, (match unhex (hexUpper (c / 16)), unhex (hexUpper (c % 16)) with
    | some x, some y => decide ((x <<< 4) ||| y = c) | _, _ => false) = true :=
    forall_u8 (by decide +kernel)
  intro c
  have hc := h c
  split at hc
  · rename_i x y hx hy; exact ⟨x, y, hx, hy, of_decide_eq_true hc⟩
  · cases hc

theorem escapeByte_safe : ∀ c : UInt8, ∀ x ∈ escapeByte c, Safe x := forall_u8 (by decide +kernel)

theorem unescape_pct (c : UInt8) (s : Bytes) : queryUnescape (pct c ++ s) = (queryUnescape s).map (c :: ·) := by
  obtain ⟨x, y, hx, hy, hc⟩ := pct_hex c
  simp only [pct, List.cons_append, List.nil_append]
  rw [queryUnescape]
  simp only [hx, hy, hc]

theorem unescape_plain {c : UInt8} (h1 : c ≠ 37) (s : Bytes) :
    queryUnescape (c :: s) = (queryUnescape s).map ((if c = 43 then 32 else c) :: ·) := by
  rw [queryUnescape]
  intro h; exact h1 h

theorem unreserved_plain : ∀ c : UInt8, unreserved c = true → c ≠ 37 ∧ c ≠ 43 := forall_u8 (by decide +kernel)

theorem unescape_escapeByte (c : UInt8) (s : Bytes) :
    queryUnescape (escapeByte c ++ s) = (queryUnescape s).map (c :: ·) := by
  unfold escapeByte
  by_cases h : unreserved c = true
  · rw [if_pos h]
    obtain ⟨h1, h2⟩ := unreserved_plain c h
    rw [List.cons_append, unescape_plain h1, if_neg h2]; rfl
  · rw [if_neg h]
    by_cases h3 : c = 32
    · subst h3; rw [if_pos rfl, List.cons_append, unescape_plain (by decide), if_pos rfl]; rfl
    · rw [if_neg h3, unescape_pct]

theorem unescape_escape (s : Bytes) : queryUnescape (queryEscape s) = some s := by
  unfold queryEscape
  induction s with
  | nil => rfl
  | cons c s ih => rw [List.flatMap_cons, unescape_escapeByte, ih]; rfl

theorem escape_safe (s : Bytes) : ∀ x ∈ queryEscape s, Safe x := by
  intro x hx
  obtain ⟨c, -, h⟩ := List.mem_flatMap.1 hx
  exact escapeByte_safe c x h

theorem cut_append {sep : UInt8} {a : Bytes} (h : sep ∉ a) (b : Bytes) : cut sep (a ++ sep :: b) = (a, b) := by
  unfold cut
  have ht : ∀ c ∈ a, decide (c ≠ sep) = true := fun c hc => by
    simp only [ne_eq, decide_not, Bool.not_eq_true', decide_eq_false_iff_not]; rintro rfl; exact h hc
  rw [List.takeWhile_append_of_pos ht, List.dropWhile_append_of_pos ht]
  simp

theorem cut_none {sep : UInt8} {a : Bytes} (h : sep ∉ a) : cut sep a = (a, []) := by
  unfold cut
  have ht : ∀ c ∈ a, decide (c ≠ sep) = true := fun c hc => by
    simp only [ne_eq, decide_not, Bool.not_eq_true', decide_eq_false_iff_not]; rintro rfl; exact h hc
  have := List.takeWhile_append_of_pos (l₂ := []) ht
  have h2 := List.dropWhile_append_of_pos (l₂ := []) ht
  simp only [List.append_nil] at this h2
  rw [this, h2]; simp

theorem parsePart_escape (k v : Bytes) : parsePart (queryEscape k ++ 61 :: queryEscape v) = some (k, v) := by
  unfold parsePart
  rw [if_neg, cut_append (fun h => (escape_safe k _ h).2.2.2.1 rfl)]
  · simp only [unescape_escape]
  · rintro (h | h)
    · rcases List.mem_append.1 h with h | h
      · exact (escape_safe k _ h).2.2.1 rfl
      · rcases List.mem_cons.1 h with h | h
        · cases h
        · exact (escape_safe v _ h).2.2.1 rfl
    · simp at h

theorem part_noamp (k v : Bytes) : (38 : UInt8) ∉ queryEscape k ++ 61 :: queryEscape v := by
  intro h
  rcases List.mem_append.1 h with h | h
  · exact (escape_safe k _ h).2.1 rfl
  · rcases List.mem_cons.1 h with h | h
    · cases h
    · exact (escape_safe v _ h).2.1 rfl

theorem splitByte_single {sep : UInt8} {a : Bytes} (h : sep ∉ a) : Api.splitByte sep a = [a] := by
  induction a with
  | nil => rfl
  | cons c a ih =>
    simp only [List.mem_cons, not_or] at h
    simp only [Api.splitByte, if_neg (Ne.symm h.1), ih h.2]

theorem parse_encode : ∀ ps : List (Bytes × Bytes), parseQuery (encode ps) = ps
  | [] => by simp [encode, parseQuery, Api.splitByte, parsePart]
  | [(k, v)] => by
    simp only [encode, parseQuery]
    rw [splitByte_single (part_noamp k v)]
    simp [parsePart_escape]
  | (k, v) :: p :: rest => by
    have ih := parse_encode (p :: rest)
    unfold parseQuery at ih ⊢
    simp only [encode]
    rw [Vcs.splitByte_append 38 (part_noamp k v), List.filterMap_cons, parsePart_escape]
    simp only [ih]

theorem encode_safe : ∀ ps : List (Bytes × Bytes), (35 : UInt8) ∉ encode ps
  | [] => by simp [encode]
  | [(k, v)] => by
    intro h
    simp only [encode] at h
    rcases List.mem_append.1 h with h | h
    · exact (escape_safe k _ h).1 rfl
    · rcases List.mem_cons.1 h with h | h
      · cases h
      · exact (escape_safe v _ h).1 rfl
  | (k, v) :: p :: rest => by
    intro h
    have ih := encode_safe (p :: rest)
    simp only [encode] at h
    rcases List.mem_append.1 h with h | h
    · rcases List.mem_append.1 h with h | h
      · exact (escape_safe k _ h).1 rfl
      · rcases List.mem_cons.1 h with h | h
        · cases h
        · exact (escape_safe v _ h).1 rfl
    · rcases List.mem_cons.1 h with h | h
      · cases h
      · exact ih h

theorem rawQuery_of {base q : Bytes} (h1 : (35 : UInt8) ∉ base) (h2 : (63 : UInt8) ∉ base) (h3 : (35 : UInt8) ∉ q) :
    rawQuery (base ++ 63 :: q) = q := by
  unfold rawQuery
  rw [cut_none (sep := 35), cut_append h2]
  simp [h1, h3]

end Hound.Url
