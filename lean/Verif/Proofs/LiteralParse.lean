import Verif.Model.LiteralParse
import Verif.Proofs.TextFile
import Verif.Proofs.ThompsonBuild
import Verif.Proofs.ByteProg

/-! # What a quoted text parses to, and the program it is compiled to -/

namespace Hound
open Spec

theorem goQuoteMeta_append : ∀ a b : Bytes, goQuoteMeta (a ++ b) = goQuoteMeta a ++ goQuoteMeta b
  | [], _ => rfl
  | x :: a, b => by
    simp only [List.cons_append, goQuoteMeta, goQuoteMeta_append a b]
    split <;> rfl

theorem goQuoteMeta_high : ∀ {a : Bytes}, (∀ x ∈ a, 128 ≤ x.toNat) → goQuoteMeta a = a
  | [], _ => rfl
  | x :: a, h => by
    have hx := h x (by simp)
    have : x ∉ metaBytes := by
      intro hm
      have : ∀ y ∈ metaBytes, y.toNat < 128 := by decide
      have := this x hm
      omega
    rw [goQuoteMeta, if_neg this, goQuoteMeta_high (fun y hy => h y (by simp [hy]))]

theorem encodeRaw_high {r : Nat} (h : 0x80 ≤ r) : ∀ x ∈ encodeRaw r, 128 ≤ x.toNat ∨ 0x10FFFF < r := by
  intro x hx
  by_cases hr : r ≤ 0x10FFFF
  · left
    rw [encodeRaw_nat, if_neg (by omega)] at hx
    split at hx
    · simp only [List.mem_cons, List.not_mem_nil, or_false] at hx
      rcases hx with rfl | rfl <;> rw [toNat_ofNat_lt (by omega)] <;> omega
    · split at hx
      · simp only [List.mem_cons, List.not_mem_nil, or_false] at hx
        rcases hx with rfl | rfl | rfl <;> rw [toNat_ofNat_lt (by omega)] <;> omega
      · simp only [List.mem_cons, List.not_mem_nil, or_false] at hx
        rcases hx with rfl | rfl | rfl | rfl <;> rw [toNat_ofNat_lt (by omega)] <;> omega
  · right; omega

theorem meta_escape : ∀ b : UInt8, b ∈ metaBytes → (decide (b < 128) && !isAlnum b) = true ∧ b.toNat < 128 := by
  have : ∀ b ∈ metaBytes, (decide (b < 128) && !isAlnum b) = true ∧ b.toNat < 128 := by decide
  exact this

theorem not_meta {b : UInt8} (h : b ∉ metaBytes) : b ≠ 40 ∧ b ≠ 92 ∧ b ∉ b!"|)^$.[*+?{" := by
  refine ⟨?_, ?_, ?_⟩
  · rintro rfl; exact h (by decide)
  · rintro rfl; exact h (by decide)
  · intro hb
    have : ∀ b ∈ b!"|)^$.[*+?{", b ∈ metaBytes := by decide
    exact h (this b hb)

/-- One character of a quoted text. -/
theorem parseLoop_rune {orbit : Rune → List Rune} {r : Nat} (hr : validRune r = true) (t : Bytes) (fuel : Nat) (fold : Bool)
    (st : List (List Rune × Bool)) :
    parseLoop orbit (fuel + 1) (goQuoteMeta (encodeRaw r) ++ t) fold st =
      parseLoop orbit fuel t fold (pushLit orbit fold r st) := by
  have hv : r < 0xD800 ∨ (0xE000 ≤ r ∧ r ≤ 0x10FFFF) := by
    simpa [validRune, Bool.or_eq_true, Bool.and_eq_true] using hr
  by_cases hm : ∃ b, encodeRaw r = [b] ∧ b ∈ metaBytes
  · obtain ⟨b, hb, hm⟩ := hm
    have hrb : b.toNat = r := by
      have hd := decode_encode hr []
      rw [hb] at hd
      simp only [List.append_nil, decodeRune, if_pos (meta_escape b hm).2] at hd
      exact (Prod.mk.inj hd).1
    rw [hb]
    simp only [goQuoteMeta, if_pos hm, List.cons_append, List.nil_append, parseLoop]
    rw [if_neg (by decide), if_pos trivial, if_pos (meta_escape b hm).1, hrb]
  · have hq : goQuoteMeta (encodeRaw r) = encodeRaw r := by
      by_cases h1 : r < 0x80
      · have he : encodeRaw r = [UInt8.ofNat r] := by rw [encodeRaw_nat, if_pos h1]
        rw [he, goQuoteMeta, if_neg (fun h => hm ⟨_, he, h⟩), goQuoteMeta]
      · refine goQuoteMeta_high fun x hx => ?_
        rcases encodeRaw_high (by omega) x hx with h | h <;> omega
    rw [hq]
    have hd := decode_encode hr t
    have hne := encodeRaw_ne_nil r
    have hhead : ∀ b t', encodeRaw r = b :: t' → b ∉ metaBytes := by
      intro b t' he hb
      by_cases h1 : r < 0x80
      · have he' : encodeRaw r = [UInt8.ofNat r] := by rw [encodeRaw_nat, if_pos h1]
        rw [he'] at he
        injection he with he _
        exact hm ⟨b, by rw [he', he], hb⟩
      · have := (meta_escape b hb).2
        rcases encodeRaw_high (r := r) (by omega) b (by rw [he]; simp) with h | h <;> omega
    have herr : ¬ (r = runeError ∧ (encodeRaw r).length = 1) := by
      rintro ⟨rfl, h⟩
      exact absurd h (by decide)
    have hdrop : (encodeRaw r ++ t).drop (encodeRaw r).length = t := List.drop_left
    generalize encodeRaw r = e at *
    cases e with
    | nil => exact absurd rfl hne
    | cons b t' =>
      obtain ⟨n1, n2, n3⟩ := not_meta (hhead b t' rfl)
      simp only [List.cons_append] at hd hdrop ⊢
      rw [parseLoop.eq_def]
      simp only
      rw [if_neg n1, if_neg n2, if_neg n3, hd]
      simp only
      rw [if_neg herr, hdrop]

theorem parseLoop_quoted {orbit : Rune → List Rune} (fold : Bool) : ∀ {rs : List Rune} (_ : ∀ r ∈ rs, validRune r = true)
    {fuel : Nat} (_ : rs.length ≤ fuel) (st : List (List Rune × Bool)),
    parseLoop orbit fuel (goQuoteMeta (rs.flatMap encodeRaw)) fold st =
      .ok (finishParse (rs.foldl (fun st r => pushLit orbit fold r st) st))
  | [], _, fuel, _, st => by cases fuel <;> simp [goQuoteMeta, parseLoop]
  | r :: rs, hv, 0, h, _ => by simp at h
  | r :: rs, hv, fuel + 1, h, st => by
    rw [List.flatMap_cons, goQuoteMeta_append, parseLoop_rune (hv r (by simp)),
      parseLoop_quoted fold (fun x hx => hv x (by simp [hx])) (by simp at h; omega)]
    rfl

theorem foldl_pushLit {orbit : Rune → List Rune} (fold : Bool) : ∀ (rs xs : List Rune),
    rs.foldl (fun st r => pushLit orbit fold r st) [(xs, fold)] =
      [(xs ++ rs.map (fun r => if fold then minFoldRune orbit r else r), fold)]
  | [], xs => by simp
  | r :: rs, xs => by
    rw [List.foldl_cons, pushLit, if_pos rfl, foldl_pushLit fold rs]
    simp

theorem length_le_quoted : ∀ rs : List Rune, rs.length ≤ (goQuoteMeta (rs.flatMap encodeRaw)).length
  | [] => by simp
  | r :: rs => by
    rw [List.flatMap_cons, goQuoteMeta_append, List.length_append, List.length_cons]
    have := length_le_quoted rs
    have h1 : 0 < (goQuoteMeta (encodeRaw r)).length := by
      have := encodeRaw_ne_nil r
      cases h : encodeRaw r with
      | nil => exact absurd h this
      | cons a t => rw [goQuoteMeta]; split <;> simp
    omega

/-- What a quoted text with these code points is read as. -/
def quotedRe (orbit : Rune → List Rune) (fold : Bool) (rs : List Rune) : Re :=
  if rs = [] then .emptyMatch else .literal (if fold then rs.map (minFoldRune orbit) else rs) fold

theorem finish_quoted {orbit : Rune → List Rune} (fold : Bool) (rs : List Rune) :
    finishParse (rs.foldl (fun st r => pushLit orbit fold r st) []) = quotedRe orbit fold rs := by
  cases rs with
  | nil => rfl
  | cons r rs =>
    rw [List.foldl_cons, pushLit, foldl_pushLit, finishParse, quotedRe, if_neg (c := r :: rs = []) (by simp)]
    cases fold <;> simp

/-- The flags in front. -/
theorem goParse_flags {orbit : Rune → List Rune} (fold : Bool) (t : Bytes) : ∃ fuel, t.length ≤ fuel ∧
    goParse orbit ((if fold then b!"(?i)" else []) ++ b!"(?m)" ++ t) = parseLoop orbit fuel t fold [] := by
  have hm : ∀ (fuel : Nat) (fold : Bool) (t : Bytes) (st : List (List Rune × Bool)),
      parseLoop orbit (fuel + 1) (b!"(?m)" ++ t) fold st = parseLoop orbit fuel t fold st := by
    intro fuel fold t st
    show parseLoop orbit (fuel + 1) (40 :: 63 :: 109 :: 41 :: t) fold st = _
    rw [parseLoop.eq_def]
    simp only
    rw [if_pos trivial, if_pos trivial]
    rfl
  have hi : ∀ (fuel : Nat) (fold : Bool) (t : Bytes) (st : List (List Rune × Bool)),
      parseLoop orbit (fuel + 1) (b!"(?i)" ++ t) fold st = parseLoop orbit fuel t true st := by
    intro fuel fold t st
    show parseLoop orbit (fuel + 1) (40 :: 63 :: 105 :: 41 :: t) fold st = _
    rw [parseLoop.eq_def]
    simp only
    rw [if_pos trivial, if_pos trivial]
    rfl
  unfold goParse
  cases fold with
  | false =>
    refine ⟨t.length + 3, by omega, ?_⟩
    have e : ((if false = true then b!"(?i)" else []) ++ b!"(?m)" ++ t) = b!"(?m)" ++ t := rfl
    rw [e, show (b!"(?m)" ++ t).length = (t.length + 3) + 1 by simp, hm]
  | true =>
    refine ⟨t.length + 6, by omega, ?_⟩
    have e : ((if true = true then b!"(?i)" else []) ++ b!"(?m)" ++ t) = b!"(?i)" ++ (b!"(?m)" ++ t) := by simp
    rw [e, show (b!"(?i)" ++ (b!"(?m)" ++ t)).length = ((t.length + 6) + 1) + 1 by simp, hi, hm]

/-- A quoted text behind the flags is read as the text. -/
theorem goParse_quoted {orbit : Rune → List Rune} (fold : Bool) {rs : List Rune} (hv : ∀ r ∈ rs, validRune r = true) :
    goParse orbit ((if fold then b!"(?i)" else []) ++ b!"(?m)" ++ goQuoteMeta (rs.flatMap encodeRaw)) =
      .ok (quotedRe orbit fold rs) := by
  obtain ⟨fuel, h1, h2⟩ := goParse_flags (orbit := orbit) fold (goQuoteMeta (rs.flatMap encodeRaw))
  have hl := length_le_quoted rs
  rw [h2, parseLoop_quoted _ hv (by omega), finish_quoted]

theorem decode_size_one {b : UInt8} {t : Bytes} (hb : ¬ b.toNat < 0x80) (h : (decodeRune (b :: t)).2 = 1) :
    (decodeRune (b :: t)).1 = runeError := by
  have : decodeRune (b :: t) = (runeError, 1) ∨ 2 ≤ (decodeRune (b :: t)).2 := by
    simp only [decodeRune, if_neg hb]
    repeat' split
    all_goals simp
  rcases this with h' | h'
  · rw [h']
  · omega

theorem quote_high_prefix : ∀ {a u t : Bytes}, (∀ x ∈ a, 128 ≤ x.toNat) → goQuoteMeta t = a ++ u →
    ∃ t', t = a ++ t' ∧ u = goQuoteMeta t'
  | [], u, t, _, h => ⟨t, rfl, h.symm⟩
  | x :: a, u, [], _, h => by simp [goQuoteMeta] at h
  | x :: a, u, b :: t, ha, h => by
    rw [goQuoteMeta] at h
    split at h
    · simp only [List.cons_append, List.cons.injEq] at h
      have := ha x (by simp)
      rw [← h.1] at this
      exact absurd this (by decide)
    · simp only [List.cons_append, List.cons.injEq] at h
      obtain ⟨t', h1, h2⟩ := quote_high_prefix (fun y hy => ha y (by simp [hy])) h.2
      exact ⟨t', by rw [h.1, h1]; rfl, h2⟩

/-- A quoted text is read as what it is, or refused because it is not valid UTF-8. -/
theorem parseLoop_verdict {orbit : Rune → List Rune} (fold : Bool) : ∀ {fuel : Nat} {s : Bytes} (_ : (goQuoteMeta s).length ≤ fuel)
    (st : List (List Rune × Bool)), parseLoop orbit fuel (goQuoteMeta s) fold st = .bad ∨
      ∃ rs : List Rune, (∀ r ∈ rs, validRune r = true) ∧ s = rs.flatMap encodeRaw
  | _, [], _, _ => .inr ⟨[], by simp, rfl⟩
  | 0, b :: t, h, _ => by
    rw [goQuoteMeta] at h
    split at h <;> simp at h
  | fuel + 1, b :: t, h, st => by
    by_cases hm : b ∈ metaBytes
    · have hb := meta_escape b hm
      have hv : validRune b.toNat = true := validRune_of (by omega)
      have he : encodeRaw b.toNat = [b] := by rw [encodeRaw_nat, if_pos hb.2]; simp
      have e : goQuoteMeta (b :: t) = goQuoteMeta (encodeRaw b.toNat) ++ goQuoteMeta t := by
        rw [he, ← goQuoteMeta_append]; rfl
      rw [e] at h ⊢
      rw [parseLoop_rune hv]
      have hl : (goQuoteMeta t).length ≤ fuel := by
        rw [he, goQuoteMeta, if_pos hm, List.length_append] at h
        simp at h
        omega
      rcases parseLoop_verdict fold hl (pushLit orbit fold b.toNat st) with h1 | ⟨rs, h1, h2⟩
      · exact .inl h1
      · refine .inr ⟨b.toNat :: rs, ?_, ?_⟩
        · intro r hr
          rcases List.mem_cons.mp hr with rfl | hr
          · exact hv
          · exact h1 r hr
        · rw [List.flatMap_cons, he, ← h2]; rfl
    · by_cases herr : (decodeRune (b :: goQuoteMeta t)).1 = runeError ∧ (decodeRune (b :: goQuoteMeta t)).2 = 1
      · left
        obtain ⟨n1, n2, n3⟩ := not_meta hm
        rw [goQuoteMeta, if_neg hm, parseLoop.eq_def]
        simp only
        rw [if_neg n1, if_neg n2, if_neg n3, if_pos herr]
      · have hb : b.toNat < 0x80 ∨ (decodeRune (b :: goQuoteMeta t)).2 ≠ 1 := by
          by_cases h1 : b.toNat < 0x80
          · exact .inl h1
          · exact .inr fun h2 => herr ⟨decode_size_one h1 h2, h2⟩
        obtain ⟨r, hr, henc, hle, hpos⟩ := decode_sound hb
        have hsp : goQuoteMeta (b :: t) = encodeRaw r ++ (goQuoteMeta (b :: t)).drop (encodeRaw r).length := by
          rw [goQuoteMeta, if_neg hm]
          have hl : (encodeRaw r).length = (decodeRune (b :: goQuoteMeta t)).2 := by
            rw [henc, List.length_take]; omega
          rw [hl, henc, List.take_append_drop]
        have hx : ∃ t', (b :: t) = encodeRaw r ++ t' ∧ goQuoteMeta (encodeRaw r) = encodeRaw r := by
          have hq : goQuoteMeta (b :: t) = b :: goQuoteMeta t := by rw [goQuoteMeta, if_neg hm]
          by_cases h1 : r < 0x80
          · have he' : encodeRaw r = [UInt8.ofNat r] := by rw [encodeRaw_nat, if_pos h1]
            have hbr : b = UInt8.ofNat r := by
              rw [hq, he'] at hsp
              simpa using (List.cons.inj hsp).1
            refine ⟨t, by rw [he', hbr]; rfl, ?_⟩
            rw [he', ← hbr, goQuoteMeta, if_neg hm, goQuoteMeta]
          · have hv := hr
            simp only [validRune, Bool.or_eq_true, Bool.and_eq_true, decide_eq_true_eq] at hv
            have hhigh : ∀ x ∈ encodeRaw r, 128 ≤ x.toNat := by
              intro x hx
              rcases encodeRaw_high (Nat.le_of_not_lt h1) x hx with h | h
              · exact h
              · delta Rune at *; omega
            obtain ⟨t', h2, _⟩ := quote_high_prefix hhigh hsp
            exact ⟨t', h2, goQuoteMeta_high hhigh⟩
        obtain ⟨t', ht, hq⟩ := hx
        rw [ht, goQuoteMeta_append] at h ⊢
        rw [parseLoop_rune hr]
        have hne := encodeRaw_ne_nil r
        have hl : (goQuoteMeta t').length ≤ fuel := by
          rw [hq, List.length_append] at h
          have := List.length_pos_iff.2 hne
          omega
        rcases parseLoop_verdict fold hl (pushLit orbit fold r st) with h1 | ⟨rs, h1, h2⟩
        · exact .inl h1
        · refine .inr ⟨r :: rs, ?_, ?_⟩
          · intro x hx
            rcases List.mem_cons.mp hx with rfl | hx
            · exact hr
            · exact h1 x hx
          · rw [List.flatMap_cons, ← h2]

/-! ## The program -/

theorem litChain_length {orbit : Rune → List Rune} {fold : Bool} : ∀ {n : Nat} {rs : List Rune},
    (litChain orbit fold n rs).length = rs.length
  | _, [] => rfl
  | n, r :: rs => by simp [litChain, litChain_length]

theorem runeInst_has {orbit : Rune → List Rune} {fold : Bool} {r x : Rune} {out : Nat} :
    InstHas orbit (runeInst orbit fold r out) x ↔ FoldsTo orbit fold r x := by
  unfold runeInst
  split
  · rename_i h
    simp only [Bool.and_eq_true] at h
    rw [h.1]; rfl
  · rename_i h
    simp only [InstHas, FoldsTo]
    constructor
    · exact Or.inl
    · rintro (h' | ⟨hf, hx⟩)
      · exact h'
      · subst hf
        cases ho : orbit r with
        | nil => rw [ho] at hx; cases hx
        | cons a t => simp [ho] at h

theorem runeInst_cases (orbit : Rune → List Rune) (fold : Bool) (r : Rune) (out : Nat) :
    runeInst orbit fold r out = .rune [r] true out ∨ runeInst orbit fold r out = .rune1 r out := by
  unfold runeInst; split
  · exact .inl rfl
  · exact .inr rfl

theorem runeInst_out {orbit : Rune → List Rune} {fold : Bool} {r : Rune} {out : Nat} :
    runeOut (runeInst orbit fold r out) = some out := by
  unfold runeInst; split <;> rfl

theorem litChain_thompson {orbit : Rune → List Rune} {fold : Bool} {Z : List Inst} : ∀ {rs : List Rune} {X : List Inst},
    Thompson orbit (X ++ (litChain orbit fold X.length rs ++ Z)) (.literal rs fold) X.length (X.length + rs.length)
  | [], X => by simpa using Thompson.litNil
  | r :: rs, X => by
    have ih := litChain_thompson (orbit := orbit) (fold := fold) (Z := Z) (rs := rs)
      (X := X ++ [runeInst orbit fold r (X.length + 1)])
    have e : X ++ (litChain orbit fold X.length (r :: rs) ++ Z) = X ++ [runeInst orbit fold r (X.length + 1)] ++
        (litChain orbit fold (X ++ [runeInst orbit fold r (X.length + 1)]).length rs ++ Z) := by
      simp [litChain]
    rw [← e] at ih
    rw [List.length_append, List.length_singleton] at ih
    refine .litCons (i := runeInst orbit fold r (X.length + 1)) ?_ runeInst_out (fun x => runeInst_has) ?_
    · simp [litChain]
    · have e2 : X.length + (r :: rs).length = X.length + 1 + rs.length := by simp; omega
      rw [e2]
      exact ih

/-- The instructions of a compiled quoted text. -/
theorem mem_litChain {orbit : Rune → List Rune} {fold : Bool} {i : Inst} : ∀ {n : Nat} {rs : List Rune},
    i ∈ litChain orbit fold n rs → ∃ r ∈ rs, ∃ m, n ≤ m ∧ m < n + rs.length ∧ i = runeInst orbit fold r (m + 1)
  | _, [], h => by cases h
  | n, r :: rs, h => by
    rcases List.mem_cons.mp h with h | h
    · exact ⟨r, by simp, n, by omega, by simp, h⟩
    · obtain ⟨r', h1, m, h2, h3, h4⟩ := mem_litChain h
      exact ⟨r', by simp [h1], m, by omega, by simp; omega, h4⟩

theorem compileLit_compiles {orbit : Rune → List Rune} {re : Re} {p : Prog} (h : compileLit orbit re = some p) :
    Compiles orbit re p := by
  unfold compileLit at h
  split at h
  · cases h
    exact ⟨2, .skip (i := .nop 2) rfl (.inl rfl) .emptyMatch, rfl⟩
  · split at h
    · cases h
    · rename_i rs fold hne
      cases h
      refine ⟨1 + rs.length, ?_, ?_⟩
      · exact litChain_thompson (X := [.fail]) (Z := [.accept])
      · rw [show Inst.fail :: (litChain orbit fold 1 rs ++ [.accept]) = (Inst.fail :: litChain orbit fold 1 rs) ++ [.accept] by simp,
          List.getElem?_append_right (by simp [litChain_length]; omega)]
        simp [litChain_length]
        rw [show 1 + rs.length - (rs.length + 1) = 0 by omega]
        rfl
  · cases h

theorem compileLit_ok {orbit : Rune → List Rune} {re : Re} {p : Prog} (h : compileLit orbit re = some p) :
    p.start < p.inst.length ∧ (p.inst.length < 2 ^ 32 → ProgOK p) ∧ Closed p.inst := by
  suffices hs : p.start < p.inst.length ∧ Closed p.inst from ⟨hs.1, fun hl => ⟨hs.1, hl, hs.2⟩, hs.2⟩
  unfold compileLit at h
  split at h
  · cases h
    refine ⟨by decide, ?_⟩
    intro i hi t ht
    simp only [List.mem_cons, List.not_mem_nil, or_false] at hi
    rcases hi with rfl | rfl | rfl <;> simp at ht <;> simp [ht]
  · split at h
    · cases h
    · rename_i rs fold hne
      cases h
      refine ⟨by simp, ?_⟩
      intro i hi t ht
      simp only [List.length_cons, List.length_append, litChain_length, List.length_nil]
      rcases List.mem_cons.mp hi with rfl | hi
      · simp at ht
      · rcases List.mem_append.mp hi with hi | hi
        · obtain ⟨r, _, m, h1, h2, rfl⟩ := mem_litChain hi
          have : t = m + 1 := by
            rcases runeInst_cases orbit fold r (m + 1) with h | h <;> rw [h] at ht <;> simpa using ht
          omega
        · rw [List.mem_singleton] at hi
          subst hi
          simp at ht
  · cases h

theorem compileLit_noBegin {orbit : Rune → List Rune} {re : Re} {p : Prog} (h : compileLit orbit re = some p) :
    ∀ op out, Inst.empty op out ∉ p.inst := by
  intro op out hm
  unfold compileLit at h
  split at h
  · cases h
    simp at hm
  · split at h
    · cases h
    · cases h
      rcases List.mem_cons.mp hm with hi | hi
      · cases hi
      · rcases List.mem_append.mp hi with hi | hi
        · obtain ⟨r, _, m, _, _, h2⟩ := mem_litChain hi
          unfold runeInst at h2
          split at h2 <;> cases h2
        · simp at hi
  · cases h

end Hound
