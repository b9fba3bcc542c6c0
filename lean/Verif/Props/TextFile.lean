import Verif.Proofs.TextFile
import Verif.Spec.IndexFiles

/-!
# C18: valid UTF-8 text files are never rejected as binary

`isTextFile r` is the text check for a file whose reads go as `r` says (in whatever pieces); `none` is a
read error.
-/

namespace Hound
open Spec

theorem readFull_take {fails : Bool} : ∀ {cs : List Bytes} {want : Nat},
    (readFull fails cs want).1 = cs.flatten.take want ∧
    ((readFull fails cs want).2.2 = .err ↔ fails = true ∧ cs.flatten.length < want)
  | [], want => by
    by_cases h : want = 0
    · simp [readFull, h]
    · cases fails <;> simp [readFull, h, Nat.pos_of_ne_zero h]
  | c :: cs, want => by
    simp only [readFull]
    by_cases h : want = 0
    · simp [h]
    · rw [if_neg h]
      by_cases hl : c.length ≤ want
      · rw [if_pos hl]
        obtain ⟨h1, h2⟩ := readFull_take (fails := fails) (cs := cs) (want := want - c.length)
        refine ⟨?_, ?_⟩
        · simp only [h1, List.flatten_cons]
          rw [List.take_append, List.take_of_length_le hl]
        · simp only [h2, List.flatten_cons, List.length_append]
          constructor
          · rintro ⟨a, b⟩; exact ⟨a, by omega⟩
          · rintro ⟨a, b⟩; exact ⟨a, by omega⟩
      · rw [if_neg hl]
        refine ⟨?_, ?_⟩
        · simp only [List.flatten_cons]
          rw [List.take_append_of_le_length (by omega)]
        · simp only [List.flatten_cons, List.length_append]
          constructor
          · intro h; cases h
          · rintro ⟨_, h⟩; omega

theorem isTextFile_eq (r : Reader) : isTextFile r =
    if r.fails = true ∧ r.content.length < 2048 then none
    else some (if r.content.length < 2048 then utf8Valid r.content
      else validUTF8IgnoringPartialTrailingRune (r.content.take 2048)) := by
  obtain ⟨h1, h2⟩ := readFull_take (fails := r.fails) (cs := r.chunks) (want := filePeekSize)
  have hp : filePeekSize = 2048 := rfl
  rw [hp] at h1 h2
  simp only [isTextFile, hp]
  change _ ↔ r.fails = true ∧ r.content.length < 2048 at h2
  change _ = r.content.take 2048 at h1
  generalize hx : readFull r.fails r.chunks 2048 = x at h1 h2
  obtain ⟨buf, rest, e⟩ := x
  simp only at h1 h2
  subst h1
  have hlen : (r.content.take 2048).length < 2048 ↔ r.content.length < 2048 := by
    rw [List.length_take]; omega
  have hval : (if (r.content.take 2048).length < 2048 then utf8Valid (r.content.take 2048)
      else validUTF8IgnoringPartialTrailingRune (r.content.take 2048)) =
      if r.content.length < 2048 then utf8Valid r.content
      else validUTF8IgnoringPartialTrailingRune (r.content.take 2048) := by
    by_cases h : r.content.length < 2048
    · rw [if_pos (hlen.mpr h), if_pos h, List.take_of_length_le (by omega)]
    · rw [if_neg (fun g => h (hlen.mp g)), if_neg h]
  cases e with
  | err => rw [if_pos (h2.mp rfl)]
  | eof =>
    rw [if_neg (fun g => by cases h2.mpr g)]
    simp only [hval]
  | full =>
    rw [if_neg (fun g => by cases h2.mpr g)]
    simp only [hval]

theorem utf8Valid_iff {w : Bytes} : utf8Valid w = true ↔ ValidUtf8 w := by
  rw [utf8Valid, validLoop_iff (Nat.le_refl _)]
  constructor
  · rintro ⟨rs, rest, h1, h2, rfl | ⟨_, _, _, _, _, h⟩⟩
    · exact ⟨rs, h1, by simpa using h2⟩
    · exact absurd h (by simp)
  · rintro ⟨rs, h1, h2⟩
    exact ⟨rs, [], h1, by simpa using h2, .inl rfl⟩

/-- **C18, no valid text is refused**: whatever its length and whatever lies across the boundary of the
first 2048 bytes. -/
theorem text_check_accepts {r : Reader} (hr : r.fails = false) (h : ValidUtf8 r.content) :
    isTextFile r = some true := by
  rw [isTextFile_eq, if_neg (by simp [hr])]
  congr 1
  by_cases hl : r.content.length < 2048
  · rw [if_pos hl]; exact utf8Valid_iff.mpr h
  · rw [if_neg hl]
    obtain ⟨rs, h1, h2⟩ := h
    obtain ⟨qs, rest, g1, g2, g3⟩ := take_valid h1 2048
    rw [h2, validUTF8IgnoringPartialTrailingRune, validLoop_iff (Nat.le_refl _)]
    refine ⟨qs, rest, g1, g2, ?_⟩
    rcases g3 with g3 | ⟨b, t, rfl, g4, g5, g6⟩
    · exact .inl g3
    · refine .inr ⟨b, t, rfl, by omega, g6, ?_⟩
      simp only [Bool.and_eq_true, decide_eq_true_eq]
      exact ⟨g5, by simp [runeStart]; omega⟩

/-- **C18, short files**: a file of less than 2048 bytes passes exactly if it is valid UTF-8. -/
theorem text_check_short {r : Reader} (hr : r.fails = false) (hl : r.content.length < 2048) :
    (isTextFile r = some true ↔ ValidUtf8 r.content) ∧ (isTextFile r = some false ↔ ¬ ValidUtf8 r.content) := by
  rw [isTextFile_eq, if_neg (by simp [hr]), if_pos hl, ← utf8Valid_iff]
  cases utf8Valid r.content <;> simp

/-- What the check means for a longer file: its first 2048 bytes are valid UTF-8 up to at most three last bytes, of which the
first is not a continuation byte and which do not begin with an encoded rune. -/
theorem text_check_long {r : Reader} (hl : 2048 ≤ r.content.length) :
    isTextFile r = some true ↔ ∃ a b, r.content.take 2048 = a ++ b ∧ ValidUtf8 a ∧ b.length < 4 ∧
      (∀ x ∈ b.head?, ¬ (0x80 ≤ x ∧ x ≤ 0xBF)) ∧ ∀ c, validRune c = true → ¬ encodeRaw c <+: b := by
  rw [isTextFile_eq, if_neg (by omega), if_neg (by omega), Option.some.injEq,
    validUTF8IgnoringPartialTrailingRune, validLoop_iff (Nat.le_refl _)]
  constructor
  · rintro ⟨rs, rest, h1, h2, h3⟩
    refine ⟨rs.flatMap encodeRaw, rest, h2, ⟨rs, h1, rfl⟩, ?_⟩
    rcases h3 with rfl | ⟨b, t, rfl, h4, h5, h6⟩
    · refine ⟨by simp, by simp, fun c hc hp => encodeRaw_ne_nil c (List.prefix_nil.mp hp)⟩
    · simp only [Bool.and_eq_true, decide_eq_true_eq, runeStart, Bool.or_eq_true] at h6
      refine ⟨h6.1, ?_, ?_⟩
      · simp only [List.head?_cons, Option.mem_def, Option.some.injEq, forall_eq', UInt8.le_iff_toNat_le]
        intro hx
        simp at hx
        omega
      · rintro c hc ⟨u, hu⟩
        have hd := decode_encode hc u
        rw [hu] at hd
        have hlen : (encodeRaw c).length = 1 := by rw [← h5, hd]
        cases he : encodeRaw c with
        | nil => exact encodeRaw_ne_nil _ he
        | cons b' t' =>
          rw [he] at hlen hu
          simp only [List.cons_append, List.cons.injEq] at hu
          obtain ⟨rfl, _⟩ := hu
          have ht : t' = [] := by simpa using hlen
          subst ht
          rw [he] at hd
          have hs := decode_sound (b := b') (t := t)
          simp only [decodeRune] at hd h5
          rw [if_neg (by omega)] at hd
          -- a decoded rune of size 1 at or above 0x80 is the error
          have : c = runeError := by
            have h7 : (decodeRune (b' :: t)).1 = runeError := by
              simp only [decodeRune, if_neg (show ¬ b'.toNat < 0x80 by omega)]
              rw [if_neg (by omega)] at h5
              revert h5
              repeat' split
              all_goals simp
            have h8 := decode_encode hc u
            rw [he] at h8
            simp only [List.cons_append, List.nil_append] at h8 
            simp_all
          subst this
          have h9 : (encodeRaw runeError).length = 3 := by decide
          rw [he] at h9
          simp at h9
  · rintro ⟨a, b, h1, ⟨rs, h2, rfl⟩, h3, h4, h5⟩
    refine ⟨rs, b, h2, h1, ?_⟩
    cases b with
    | nil => exact .inl rfl
    | cons x t =>
      refine .inr ⟨x, t, rfl, ?_, ?_, ?_⟩
      · apply Classical.byContradiction
        intro hx
        obtain ⟨c, hc, he, _⟩ := decode_sound (b := x) (t := t) (.inl (by omega))
        exact h5 c hc (he ▸ List.take_prefix _ _)
      · apply Classical.byContradiction
        intro hx
        obtain ⟨c, hc, he, _⟩ := decode_sound (b := x) (t := t) (.inr hx)
        exact h5 c hc (he ▸ List.take_prefix _ _)
      · have := h4 x (by simp)
        simp only [UInt8.le_iff_toNat_le] at this
        simp at this
        simp only [Bool.and_eq_true, decide_eq_true_eq, runeStart, Bool.or_eq_true]
        exact ⟨h3, by omega⟩

/-- The check is an answer unless a read fails within the first 2048 bytes. -/
theorem text_check_error {r : Reader} : isTextFile r = none ↔ r.fails = true ∧ r.content.length < 2048 := by
  rw [isTextFile_eq]
  split <;> simp_all

/-- 2047 letters and an `é` of two bytes: the boundary goes through the `é`. -/
def straddling : List Rune := List.replicate 2047 0x61 ++ [0xE9]

example : (straddling.flatMap encodeRaw).length = 2049 ∧ (straddling.flatMap encodeRaw)[2047]? = some 0xC3 ∧
    isTextFile ⟨[straddling.flatMap encodeRaw], false⟩ = some true := by
  refine ⟨by decide +kernel, by decide +kernel, text_check_accepts rfl ⟨straddling, ?_, by simp [Reader.content]⟩⟩
  intro r hr
  rcases List.mem_append.mp hr with h | h
  · rw [List.eq_of_mem_replicate h]; rfl
  · rw [List.mem_singleton.mp h]; rfl

/-- The first byte of `é` alone is not text. -/
example : isTextFile ⟨[[0x61], [0xC3]], false⟩ = some false ∧ ¬ ValidUtf8 [0x61, 0xC3] := by
  have h : isTextFile ⟨[[0x61], [0xC3]], false⟩ = some false := by decide +kernel
  exact ⟨h, ((text_check_short (r := ⟨[[0x61], [0xC3]], false⟩) rfl (by decide)).2.mp h)⟩

/-- The rule for long files is lax: 2048 bytes with an `FF` in the last place pass. -/
example : isTextFile ⟨[List.replicate 2047 0x61 ++ [0xFF]], false⟩ = some true := by decide +kernel

end Hound
