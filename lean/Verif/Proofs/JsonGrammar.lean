import Verif.Spec.JsonGrammar
import Verif.Proofs.JsonRead

/-!
# `goRead` reads every JSON text
-/

namespace Hound.JsonText
open Spec.Rfc

/-- The bytes as numbers. -/
def nats (s : Bytes) : List Nat := s.map UInt8.toNat

theorem nats_append (a b : Bytes) : nats (a ++ b) = nats a ++ nats b := List.map_append
theorem nats_cons (c : UInt8) (b : Bytes) : nats (c :: b) = c.toNat :: nats b := rfl
theorem nats_length (a : Bytes) : (nats a).length = a.length := List.length_map _

theorem unhex_of {c : UInt8} {n : Nat} (h : Hex c n) : unhexNat c.toNat = some n ∧ PlainChar c.toNat ∧ c.toNat < 128 := by
  unfold unhexNat PlainChar
  rcases h with ⟨h1, h2, rfl⟩ | ⟨h1, h2, rfl⟩ | ⟨h1, h2, rfl⟩
  · rw [if_pos ⟨h1, h2⟩]
    exact ⟨rfl, by omega, by omega⟩
  · rw [if_neg (by omega), if_pos ⟨h1, h2⟩]
    exact ⟨by congr 1; omega, by omega, by omega⟩
  · rw [if_neg (by omega), if_neg (by omega), if_pos ⟨h1, h2⟩]
    exact ⟨by congr 1; omega, by omega, by omega⟩

theorem fourHex {h : Bytes} {n : Nat} (hh : FourHex h n) :
    (∀ t, hex4 (nats h ++ t) = some (n, t)) ∧ ∀ x ∈ nats h, PlainChar x ∧ x < 128 := by
  obtain ⟨a, b, c, d, w, x, y, z, rfl, ha, hb, hc, hd, rfl⟩ := hh
  have ha := unhex_of ha
  have hb := unhex_of hb
  have hc := unhex_of hc
  have hd := unhex_of hd
  constructor
  · intro t
    simp only [nats, List.map_cons, List.map_nil, List.cons_append, List.nil_append, hex4, ha.1, hb.1, hc.1, hd.1]
    congr 2
    omega
  · intro v hv
    simp only [nats, List.map_cons, List.map_nil, List.mem_cons, List.not_mem_nil, or_false] at hv
    rcases hv with rfl | rfl | rfl | rfl
    · exact ha.2
    · exact hb.2
    · exact hc.2
    · exact hd.2

theorem goCode_nats (r : Nat) : goCode r = nats (encodeRaw r) := rfl

theorem goUnquote_step {e : List Nat} {r : Nat} {fuel : Nat} {t : List Nat}
    (h : goUnquote (fuel + 1) (e ++ t) = (goUnquote fuel t).map (encodeRaw r ++ ·)) {x : Bytes} (ht : goUnquote fuel t = some x) :
    goUnquote (fuel + 1) (e ++ t) = some (encodeRaw r ++ x) := by rw [h, ht]; rfl

theorem not_surrogate {r : Nat} (hv : validRune r = true) : ¬ (0xD800 ≤ r ∧ r < 0xE000) := by
  have : r < 0xD800 ∨ (0xE000 ≤ r ∧ r ≤ 0x10FFFF) := by
    simpa [validRune, Bool.or_eq_true, Bool.and_eq_true] using hv
  omega

theorem valid_pair {a b : Nat} (h1 : 0xD800 ≤ a) (h2 : a < 0xDC00) (h3 : 0xDC00 ≤ b) (h4 : b < 0xE000) :
    validRune (0x10000 + (a - 0xD800) * 1024 + (b - 0xDC00)) = true := by
  have : 0x10000 + (a - 0xD800) * 1024 + (b - 0xDC00) < 0xD800 ∨
      (0xE000 ≤ 0x10000 + (a - 0xD800) * 1024 + (b - 0xDC00) ∧ 0x10000 + (a - 0xD800) * 1024 + (b - 0xDC00) ≤ 0x10FFFF) := by omega
  simpa [validRune, Bool.or_eq_true, Bool.and_eq_true] using this

/-- Strings: where they end and what they are. -/
theorem chars_read {b : Bytes} {rs : List Rune} (h : Chars b rs) :
    (∀ t, scanStr (nats b ++ 34 :: t) = some (nats b, t)) ∧
    ∀ fuel, b.length ≤ fuel → goUnquote fuel (nats b) = some (rs.flatMap encodeRaw) := by
  induction h with
  | nil =>
    constructor
    · intro t; rw [scanStr.eq_def]; simp [nats]
    · intro fuel _; exact goUnquote_nil fuel
  | plain r t rs hv h1 h2 h3 _ ih =>
    have hw : Written r [r] := .inl ⟨rfl, h1, h2, h3⟩
    constructor
    · intro u
      have := scan_written goCoding hv hw (nats t ++ 34 :: u)
      rw [List.flatMap_cons, List.flatMap_nil, List.append_nil, goCode_nats, ih.1 u] at this
      rw [nats_append, List.append_assoc, this]
      rfl
    · intro fuel hf
      have hp : 0 < (encodeRaw r).length := List.length_pos_iff.2 (encodeRaw_ne_nil r)
      rw [List.length_append] at hf
      obtain ⟨fuel, rfl⟩ : ∃ f, fuel = f + 1 := ⟨fuel - 1, by omega⟩
      have := goUnquote_written hv hw fuel (nats t)
      rw [List.flatMap_cons, List.flatMap_nil, List.append_nil, goCode_nats] at this
      rw [nats_append, goUnquote_step this (ih.2 fuel (by omega)), List.flatMap_cons]
  | short c r t rs hc _ ih =>
    have hx : c.toNat < 128 ∧ c.toNat ≠ 117 ∧ escaped c.toNat = some r ∧ validRune r = true := by
      have : ∀ p ∈ shortForms, p.1.toNat < 128 ∧ p.1.toNat ≠ 117 ∧ escaped p.1.toNat = some p.2 ∧ validRune p.2 = true := by
        decide
      exact this _ hc
    constructor
    · intro u
      rw [nats_cons, nats_cons]
      show scanStr (92 :: c.toNat :: (nats t ++ 34 :: u)) = _
      rw [scan_escape, ih.1 u]
      rfl
    · intro fuel hf
      simp only [List.length_cons] at hf
      obtain ⟨fuel, rfl⟩ : ∃ f, fuel = f + 1 := ⟨fuel - 1, by omega⟩
      have := goUnquote_written hx.2.2.2 (.inr (.inl ⟨c.toNat, rfl, hx.1, hx.2.1, hx.2.2.1⟩)) fuel (nats t)
      rw [flatMap_ascii goCoding (by simpa using hx.1)] at this
      exact goUnquote_step this (ih.2 fuel (by omega))
  | code h r t rs hh hv _ ih =>
    obtain ⟨h4, hp⟩ := fourHex hh
    constructor
    · intro u
      rw [nats_cons, nats_cons, nats_append]
      show scanStr (92 :: 117 :: (nats h ++ nats t ++ 34 :: u)) = _
      rw [scan_escape, List.append_assoc, scan_plains (fun x hx => (hp x hx).1), ih.1 u]
      rfl
    · intro fuel hf
      simp only [List.length_cons] at hf
      obtain ⟨fuel, rfl⟩ : ∃ f, fuel = f + 1 := ⟨fuel - 1, by omega⟩
      rw [nats_cons, nats_cons, nats_append]
      have hs := not_surrogate hv
      have e1 : (92 : UInt8).toNat = 92 := rfl
      have e2 : (117 : UInt8).toNat = 117 := rfl
      rw [List.length_append] at hf
      simp only [e1, e2, goUnquote, if_pos, h4, if_neg hs, encodeRune_valid hv, ih.2 fuel (by omega), Option.map_some,
        List.flatMap_cons]
  | pair h h' a b t rs hh hh' h1 h2 h3 h5 _ ih =>
    obtain ⟨h4, hp⟩ := fourHex hh
    obtain ⟨h4', hp'⟩ := fourHex hh'
    constructor
    · intro u
      rw [nats_cons, nats_cons, nats_append, nats_cons, nats_cons, nats_append]
      show scanStr (92 :: 117 :: (nats h ++ 92 :: 117 :: (nats h' ++ nats t) ++ 34 :: u)) = _
      have : nats h ++ 92 :: 117 :: (nats h' ++ nats t) ++ 34 :: u =
          nats h ++ (92 :: 117 :: (nats h' ++ (nats t ++ 34 :: u))) := by simp
      rw [scan_escape, this, scan_plains (fun x hx => (hp x hx).1), scan_escape, scan_plains (fun x hx => (hp' x hx).1), ih.1 u]
      rfl
    · intro fuel hf
      simp only [List.length_cons, List.length_append] at hf
      obtain ⟨fuel, rfl⟩ : ∃ f, fuel = f + 1 := ⟨fuel - 1, by omega⟩
      rw [nats_cons, nats_cons, nats_append, nats_cons, nats_cons, nats_append]
      have e1 : (92 : UInt8).toNat = 92 := rfl
      have e2 : (117 : UInt8).toNat = 117 := rfl
      have hv := valid_pair h1 h2 h3 h5
      simp only [e1, e2, goUnquote, if_pos, h4, h4', if_pos (show 0xD800 ≤ a ∧ a < 0xE000 by omega),
        if_pos (show a < 0xDC00 ∧ 0xDC00 ≤ b ∧ b < 0xE000 by omega), encodeRune_valid hv, ih.2 fuel (by omega), Option.map_some,
        List.flatMap_cons]

/-- Blanks are skipped. -/
theorem skip_blank {w : Bytes} (h : Blank w) (t : List Nat) : skip (nats w ++ t) = skip t := by
  induction w with
  | nil => rfl
  | cons c w ih =>
    have hc : c.toNat = 32 ∨ c.toNat = 9 ∨ c.toNat = 10 ∨ c.toNat = 13 := by
      rcases h c (by simp) with rfl | rfl | rfl | rfl <;> decide
    have := ih fun c hc => h c (by simp [hc])
    rw [← this, nats_cons]
    show skip (c.toNat :: (nats w ++ t)) = _
    rw [skip, List.dropWhile_cons, if_pos (by simp; omega)]
    rfl

theorem skip_skip (t : List Nat) : skip (skip t) = skip t := by
  unfold skip
  induction t with
  | nil => rfl
  | cons c t ih =>
    rw [List.dropWhile_cons]
    split
    · exact ih
    · rename_i h
      rw [List.dropWhile_cons, if_neg h]

section
variable {σ : Type} (unq : List Nat → Option σ)

theorem value_blank {w : Bytes} (h : Blank w) (fuel : Nat) (t : List Nat) : value unq fuel (nats w ++ t) = value unq fuel t := by
  cases fuel with
  | zero => rfl
  | succ fuel => rw [value, value, skip_blank h]

theorem members_blank {w : Bytes} (h : Blank w) (fuel : Nat) (t : List Nat) : members unq fuel (nats w ++ t) = members unq fuel t := by
  cases fuel with
  | zero => rfl
  | succ fuel => rw [members, members, skip_blank h]
end

/-- A natural number. -/
theorem digits_natural {s : Bytes} {n : Nat} (h : Natural s n) {rest : List Nat} (hr : Stop rest) :
    digits (nats s ++ rest) = some (n, rest) := by
  obtain ⟨⟨h1, h2, h3⟩, h4⟩ := h
  have ht : (nats s ++ rest).takeWhile isDigit = nats s := by
    rw [List.takeWhile_append_of_pos, takeWhile_stop hr, List.append_nil]
    intro x hx
    obtain ⟨c, hc, rfl⟩ := List.mem_map.1 hx
    exact isDigit_of (h2 c hc)
  have hz : ¬ (nats s = [] ∨ ((nats s).head? = some 48 ∧ (nats s).length ≠ 1)) := by
    rintro (e | ⟨e1, e2⟩)
    · exact h1 (List.map_eq_nil_iff.1 e)
    · cases s with
      | nil => exact h1 rfl
      | cons c s =>
        simp only [nats, List.map_cons, List.head?_cons, Option.some.injEq] at e1
        have : c = 48 := UInt8.toNat_inj.1 e1
        have := h4 (by rw [this]; rfl)
        rw [this] at e2
        exact e2 rfl
  simp only [digits, ht, if_neg hz, List.drop_left, Option.some.injEq, Prod.mk.injEq, and_true]
  rw [h3, nats, List.foldl_map]

theorem natural_head {s : Bytes} {n : Nat} (h : Natural s n) : ∃ c t, nats s = c :: t ∧ 48 ≤ c ∧ c ≤ 57 := by
  obtain ⟨c, t, e⟩ := List.exists_cons_of_ne_nil h.1.1
  have := isDigit_of (h.1.2.1 c (by rw [e]; simp))
  simp only [isDigit, Bool.and_eq_true, decide_eq_true_eq] at this
  exact ⟨_, _, by rw [e]; rfl, this⟩

/-- The strings of `encoding/json`. -/
abbrev goUnq : List Nat → Option Bytes := fun s => goUnquote s.length s

theorem quoted_read {s x : Bytes} (h : Quoted s x) : ∃ b : Bytes, (∀ t, nats s ++ t = 34 :: (nats b ++ 34 :: t)) ∧
    (∀ t, scanStr (nats b ++ 34 :: t) = some (nats b, t)) ∧ goUnq (nats b) = some x ∧ s.length = b.length + 2 := by
  obtain ⟨b, rs, rfl, hb, rfl⟩ := h
  obtain ⟨h1, h2⟩ := chars_read hb
  refine ⟨b, ?_, h1, h2 _ (by rw [nats_length]; exact Nat.le_refl _), by simp⟩
  intro t
  simp [nats]

theorem doc_head {s : Bytes} {v : Value Bytes} (h : Doc s v) : ∃ c t, nats s = c :: t ∧ 33 ≤ c ∧ c ≠ 93 ∧ c ≠ 125 := by
  cases h with
  | null => exact ⟨110, _, rfl, by omega, by omega, by omega⟩
  | true => exact ⟨116, _, rfl, by omega, by omega, by omega⟩
  | false => exact ⟨102, _, rfl, by omega, by omega, by omega⟩
  | num _ n hn =>
    obtain ⟨c, t, e, h1, h2⟩ := natural_head hn
    exact ⟨c, t, e, by omega, by omega, by omega⟩
  | neg s n hn => exact ⟨45, nats s, rfl, by omega, by omega, by omega⟩
  | str _ x hx =>
    obtain ⟨b, e, _⟩ := quoted_read hx
    exact ⟨34, _, by rw [← List.append_nil (nats s), e], by omega, by omega, by omega⟩
  | arr0 w => exact ⟨91, _, rfl, by omega, by omega, by omega⟩
  | arr s => exact ⟨91, _, rfl, by omega, by omega, by omega⟩
  | obj0 w => exact ⟨123, _, rfl, by omega, by omega, by omega⟩
  | obj s => exact ⟨123, _, rfl, by omega, by omega, by omega⟩

theorem stop_blank {w : Bytes} (hw : Blank w) {t : List Nat} (ht : Stop t) : Stop (nats w ++ t) := by
  cases w with
  | nil => exact ht
  | cons c w =>
    apply stop_of
    rcases hw c (by simp) with rfl | rfl | rfl | rfl <;> decide

theorem skip_to {w : Bytes} (hw : Blank w) {c : Nat} (hc : 33 ≤ c) (t : List Nat) : skip (nats w ++ c :: t) = c :: t := by
  rw [skip_blank hw, skip_of hc]

theorem elems_skip {σ : Type} {unq : List Nat → Option σ} (fuel : Nat) (t : List Nat) : elems unq fuel (skip t) = elems unq fuel t := by
  cases fuel with
  | zero => rfl
  | succ fuel =>
    have : value unq fuel (skip t) = value unq fuel t := by
      cases fuel with
      | zero => rfl
      | succ fuel => rw [value, value, skip_skip]
    rw [elems, elems, this]

theorem members_skip {σ : Type} {unq : List Nat → Option σ} (fuel : Nat) (t : List Nat) :
    members unq fuel (skip t) = members unq fuel t := by
  cases fuel with
  | zero => rfl
  | succ fuel => rw [members, members, skip_skip]

theorem elems_head {s : Bytes} {xs : List (Value Bytes)} (h : Elems s xs) (rest : List Nat) :
    ∃ c t, skip (nats s ++ rest) = c :: t ∧ 33 ≤ c ∧ c ≠ 93 := by
  cases h with
  | one a s b v ha hs hb =>
    obtain ⟨c, t, e, h1, h2, _⟩ := doc_head hs
    refine ⟨c, t ++ (nats b ++ rest), ?_, h1, h2⟩
    rw [nats_append, nats_append, e]
    simp only [List.append_assoc, List.cons_append]
    exact skip_to ha h1 _
  | more a s b u v vs ha hs hb hu =>
    obtain ⟨c, t, e, h1, h2, _⟩ := doc_head hs
    refine ⟨c, t ++ (nats (b ++ 44 :: u) ++ rest), ?_, h1, h2⟩
    rw [nats_append, nats_append, e]
    simp only [List.append_assoc, List.cons_append]
    exact skip_to ha h1 _

theorem members_head {s : Bytes} {ms : List (Bytes × Value Bytes)} (h : Members s ms) (rest : List Nat) :
    ∃ t, skip (nats s ++ rest) = 34 :: t := by
  cases h with
  | one a k b c s d key v ha hk hb hc hs hd =>
    obtain ⟨q, e, _⟩ := quoted_read hk
    refine ⟨nats q ++ 34 :: (nats (b ++ 58 :: (c ++ (s ++ d))) ++ rest), ?_⟩
    rw [nats_append, nats_append, List.append_assoc, List.append_assoc, e]
    exact skip_to ha (by omega) _
  | more a k b c s d u key v ms ha hk hb hc hs hd hu =>
    obtain ⟨q, e, _⟩ := quoted_read hk
    refine ⟨nats q ++ 34 :: (nats (b ++ 58 :: (c ++ (s ++ (d ++ 44 :: u)))) ++ rest), ?_⟩
    rw [nats_append, nats_append, List.append_assoc, List.append_assoc, e]
    exact skip_to ha (by omega) _

theorem members_blank' {a : Bytes} (h : Blank a) {fuel : Nat} {t : Bytes} {rest : List Nat} :
    members goUnq fuel (nats (a ++ t) ++ rest) = members goUnq fuel (nats t ++ rest) := by
  rw [nats_append, List.append_assoc, members_blank _ h]

mutual
theorem doc_read : ∀ {s : Bytes} {v : Value Bytes}, Doc s v → ∀ (fuel : Nat) (rest : List Nat), s.length < fuel → Stop rest →
    value goUnq fuel (nats s ++ rest) = some (v, rest)
  | _, _, _, 0, _, h, _ => absurd h (Nat.not_lt_zero _)
  | _, _, .null, fuel + 1, rest, _, _ => by
    rw [value]
    simp [nats, skip, word]
  | _, _, .true, fuel + 1, rest, _, _ => by
    rw [value]
    simp [nats, skip, word]
  | _, _, .false, fuel + 1, rest, _, _ => by
    rw [value]
    simp [nats, skip, word]
  | s, _, .num _ n hn, fuel + 1, rest, _, hr => by
    obtain ⟨c, t, e, h1, h2⟩ := natural_head hn
    have hd := digits_natural hn hr
    rw [e] at hd ⊢
    rw [List.cons_append] at hd ⊢
    rw [value, skip_of (by omega)]
    simp only [if_neg (show ¬ c = 34 by omega), if_neg (show ¬ c = 91 by omega), if_neg (show ¬ c = 123 by omega),
      if_neg (show ¬ c = 110 by omega), if_neg (show ¬ c = 116 by omega), if_neg (show ¬ c = 102 by omega),
      if_neg (show ¬ c = 45 by omega), hd, Option.map_some]
  | _, _, .neg s n hn, fuel + 1, rest, _, hr => by
    have hd := digits_natural hn hr
    show value goUnq (fuel + 1) (45 :: (nats s ++ rest)) = _
    rw [value, skip_of (by omega)]
    simp only [Nat.reduceEqDiff, if_false, if_true, hd, Option.map_some]
  | s, _, .str _ x hx, fuel + 1, rest, _, _ => by
    obtain ⟨b, e, hs, hu, _⟩ := quoted_read hx
    rw [e, value, skip_of (by omega)]
    simp only [if_true, hs, hu, Option.map_some]
  | _, _, .arr0 w hw, fuel + 1, rest, _, _ => by
    show value goUnq (fuel + 1) (91 :: (nats (w ++ [93]) ++ rest)) = _
    rw [nats_append, List.append_assoc, value, skip_of (by omega)]
    simp only [Nat.reduceEqDiff, if_false, if_true]
    rw [show nats [93] ++ rest = 93 :: rest from rfl, skip_to hw (by omega)]
    simp
  | _, _, .arr s xs hx, fuel + 1, rest, hf, _ => by
    show value goUnq (fuel + 1) (91 :: (nats (s ++ [93]) ++ rest)) = _
    rw [nats_append, List.append_assoc, value, skip_of (by omega), show nats [93] ++ rest = 93 :: rest from rfl]
    simp only [Nat.reduceEqDiff, if_false, if_true]
    simp only [List.length_cons, List.length_append] at hf
    obtain ⟨c, t, e, h1, h2⟩ := elems_head hx (93 :: rest)
    have ih := elems_read hx fuel rest (by omega)
    rw [← elems_skip, e] at ih
    rw [e]
    simp only [if_neg h2, ih, Option.map_some]
  | _, _, .obj0 w hw, fuel + 1, rest, _, _ => by
    show value goUnq (fuel + 1) (123 :: (nats (w ++ [125]) ++ rest)) = _
    rw [nats_append, List.append_assoc, value, skip_of (by omega)]
    simp only [Nat.reduceEqDiff, if_false, if_true]
    rw [show nats [125] ++ rest = 125 :: rest from rfl, skip_to hw (by omega)]
    simp
  | _, _, .obj s ms hm, fuel + 1, rest, hf, _ => by
    show value goUnq (fuel + 1) (123 :: (nats (s ++ [125]) ++ rest)) = _
    rw [nats_append, List.append_assoc, value, skip_of (by omega), show nats [125] ++ rest = 125 :: rest from rfl]
    simp only [Nat.reduceEqDiff, if_false, if_true]
    simp only [List.length_cons, List.length_append] at hf
    obtain ⟨t, e⟩ := members_head hm (125 :: rest)
    have ih := members_read hm fuel rest (by omega)
    rw [← members_skip, e] at ih
    rw [e]
    simp only [Nat.reduceEqDiff, if_false, ih, Option.map_some]
theorem elems_read : ∀ {s : Bytes} {xs : List (Value Bytes)}, Elems s xs → ∀ (fuel : Nat) (rest : List Nat), s.length + 2 ≤ fuel →
    elems goUnq fuel (nats s ++ 93 :: rest) = some (xs, rest)
  | _, _, _, 0, _, h => absurd h (by omega)
  | _, _, .one a s b v ha hs hb, fuel + 1, rest, hf => by
    simp only [List.length_append] at hf
    rw [nats_append, nats_append, List.append_assoc, List.append_assoc, elems, value_blank _ ha,
      doc_read hs fuel (nats b ++ 93 :: rest) (by omega) (stop_blank hb (stop_of (by decide) _))]
    simp only [skip_to hb (show 33 ≤ 93 by omega), if_true]
  | _, _, .more a s b u v vs ha hs hb hu, fuel + 1, rest, hf => by
    simp only [List.length_append, List.length_cons] at hf
    rw [nats_append, nats_append, nats_append, List.append_assoc, List.append_assoc, List.append_assoc, nats_cons, List.cons_append, show (44 : UInt8).toNat = 44 from rfl,
      elems, value_blank _ ha,
      doc_read hs fuel (nats b ++ 44 :: (nats u ++ 93 :: rest)) (by omega) (stop_blank hb (stop_of (by decide) _))]
    simp only [skip_to hb (show 33 ≤ 44 by omega), if_true, Nat.reduceEqDiff, if_false]
    rw [elems_read hu fuel rest (by omega)]
    rfl
theorem members_read : ∀ {s : Bytes} {ms : List (Bytes × Value Bytes)}, Members s ms → ∀ (fuel : Nat) (rest : List Nat),
    s.length + 2 ≤ fuel → members goUnq fuel (nats s ++ 125 :: rest) = some (ms, rest)
  | _, _, _, 0, _, h => absurd h (by omega)
  | _, _, .one a k b c s d key v ha hk hb hc hs hd, fuel + 1, rest, hf => by
    simp only [List.length_append, List.length_cons] at hf
    obtain ⟨q, e, hq, hu, _⟩ := quoted_read hk
    rw [members_blank' ha]
    simp only [nats_append, nats_cons, List.append_assoc, List.cons_append]
    rw [e, members, skip_of (by omega)]
    simp only [if_true, hq, hu]
    rw [show (58 : UInt8).toNat = 58 from rfl, skip_to hb (by omega)]
    simp only [if_true]
    rw [value_blank _ hc, doc_read hs fuel (nats d ++ 125 :: rest) (by omega) (stop_blank hd (stop_of (by decide) _))]
    simp only [skip_to hd (show 33 ≤ 125 by omega), if_true]
  | _, _, .more a k b c s d u key v ms ha hk hb hc hs hd hu', fuel + 1, rest, hf => by
    simp only [List.length_append, List.length_cons] at hf
    obtain ⟨q, e, hq, hu, _⟩ := quoted_read hk
    rw [members_blank' ha]
    simp only [nats_append, nats_cons, List.append_assoc, List.cons_append]
    rw [e, members, skip_of (by omega)]
    simp only [if_true, hq, hu]
    rw [show (58 : UInt8).toNat = 58 from rfl, show (44 : UInt8).toNat = 44 from rfl, skip_to hb (by omega)]
    simp only [if_true]
    rw [value_blank _ hc, doc_read hs fuel (nats d ++ 44 :: (nats u ++ 125 :: rest)) (by omega) (stop_blank hd (stop_of (by decide) _))]
    simp only [skip_to hd (show 33 ≤ 44 by omega), if_true, Nat.reduceEqDiff, if_false]
    rw [members_read hu' fuel rest (by omega)]
    rfl
end

/-- What follows the value is not looked at, as long as it does not look like more of a number. -/
theorem goRead_doc {a s : Bytes} {v : Value Bytes} (ha : Blank a) (h : Doc s v) {rest : Bytes} (hr : Stop (nats rest)) :
    goRead (a ++ (s ++ rest)) = some v := by
  show (value goUnq ((nats (a ++ (s ++ rest))).length + 1) (nats (a ++ (s ++ rest)))).map (·.1) = some v
  rw [nats_length, nats_append, nats_append, value_blank _ ha, doc_read h _ _ _ hr]
  · rfl
  · simp only [List.length_append]
    omega

/-- Every JSON text is read as the value it stands for. -/
theorem goRead_json {text : Bytes} {v : Value Bytes} (h : IsJson text v) : goRead text = some v := by
  obtain ⟨a, s, b, rfl, ha, hs, hb⟩ := h
  refine goRead_doc ha hs ?_
  have := stop_blank hb (t := []) (by rintro _ _ ⟨⟩)
  rwa [List.append_nil] at this

end Hound.JsonText
