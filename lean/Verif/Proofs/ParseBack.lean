import Verif.Proofs.ParseLoop

/-!
# What Go's parser accepts is properly written: characters and sets
-/

namespace Hound.GoRe
open Hound.Spec Hound.Spec.Pat

theorem nextRune_back {s t : Bytes} {r : Rune} (hs : s ≠ []) (h : nextRune s = .ok (r, t)) : validRune r = true ∧ s = encodeRaw r ++ t := by
  cases s with
  | nil => exact absurd rfl hs
  | cons b u =>
    have key : ∃ r', validRune r' = true ∧ ∃ t', b :: u = encodeRaw r' ++ t' := by
      by_cases hb : b.toNat < 0x80
      · obtain ⟨r', h1, h2, h3, h4⟩ := decode_sound (t := u) (.inl hb)
        exact ⟨r', h1, _, by rw [h2, List.take_append_drop]⟩
      · by_cases h1 : (decodeRune (b :: u)).2 = 1
        · have := decode_size_one hb h1
          have e : decodeRune (b :: u) = (runeError, 1) := Prod.ext this h1
          rw [nextRune, e] at h
          simp at h
        · obtain ⟨r', h1, h2, h3, h4⟩ := decode_sound (t := u) (.inr h1)
          exact ⟨r', h1, _, by rw [h2, List.take_append_drop]⟩
    obtain ⟨r', h1, t', e⟩ := key
    rw [e, nextRune_raw h1] at h
    simp only [Except.ok.injEq, Prod.mk.injEq] at h
    obtain ⟨rfl, rfl⟩ := h
    exact ⟨h1, e⟩

theorem raw_byte {r : Rune} (h : r < 128) : encodeRaw r = [UInt8.ofNat r] := JsonText.encodeRaw_lt h

theorem byte_toNat {r : Nat} (h : r < 128) : (UInt8.ofNat r).toNat = r := by
  simp [UInt8.toNat_ofNat']
  omega

theorem byte_lt {r : Nat} (h : r < 128) : UInt8.ofNat r < 128 := by
  rw [UInt8.lt_iff_toNat_lt, byte_toNat h]
  exact h

/-- A character below 128 that was read is a byte. -/
theorem nextRune_byte {s t : Bytes} {r : Rune} (hs : s ≠ []) (h : nextRune s = .ok (r, t)) (hr : r < 128) :
    ∃ c : UInt8, c < 128 ∧ c.toNat = r ∧ s = c :: t := by
  obtain ⟨-, e⟩ := nextRune_back hs h
  rw [raw_byte hr] at e
  exact ⟨UInt8.ofNat r, byte_lt hr, byte_toNat hr, e⟩

theorem unhex_lt {c : Nat} {v : Nat} (h : unhex c = some v) : c < 128 := by
  unfold unhex at h
  split at h
  · rename_i hh; exact Nat.lt_of_le_of_lt hh.2 (by decide)
  · split at h
    · rename_i hh; exact Nat.lt_of_le_of_lt hh.2 (by decide)
    · split at h
      · rename_i hh; exact Nat.lt_of_le_of_lt hh.2 (by decide)
      · simp at h

theorem unhex_back {c : UInt8} {v : Nat} (h : unhex c.toNat = some v) : isHex c = true ∧ digitVal c = v := by
  have key : ∀ c : UInt8, (unhex c.toNat).isSome = true → isHex c = true := by
    intro c
    exact u8_forall (P := fun c => (unhex c.toNat).isSome = true → isHex c = true) (by decide +kernel) c
  have h1 := key c (by rw [h]; rfl)
  refine ⟨h1, ?_⟩
  have := (unhex_digit h1).1
  rw [h] at this
  simpa using this.symm

theorem bracedHex_back : ∀ (fuel : Nat) {t rest : Bytes} {nhex : Nat} {r v : Rune}, bracedHex fuel t nhex r = .ok (v, rest) → r ≤ maxRune →
    ∃ ds, (∀ c ∈ ds, isHex c = true) ∧ t = ds ++ 125 :: rest ∧ (ds ≠ [] ∨ nhex ≠ 0) ∧ v = numeralFrom 16 r ds ∧ v ≤ maxRune
  | 0, t, rest, nhex, r, v, h, _ => by simp [bracedHex] at h
  | fuel + 1, t, rest, nhex, r, v, h, hr => by
    rw [bracedHex] at h
    split at h
    · simp at h
    rename_i ht
    split at h
    · simp at h
    rename_i c t1 e
    split at h
    · rename_i hc
      subst hc
      obtain ⟨d, -, h2, rfl⟩ := nextRune_byte ht e (by decide)
      have : d = 125 := UInt8.toNat_inj.1 h2
      subst this
      split at h
      · simp at h
      · rename_i hn
        simp only [Except.ok.injEq, Prod.mk.injEq] at h
        obtain ⟨rfl, rfl⟩ := h
        exact ⟨[], by simp, rfl, .inr hn, rfl, hr⟩
    · split at h
      · simp at h
      · rename_i v' hv
        split at h
        · simp at h
        · rename_i hm
          obtain ⟨d, -, rfl, rfl⟩ := nextRune_byte ht e (unhex_lt hv)
          obtain ⟨g1, g2⟩ := unhex_back hv
          obtain ⟨ds, i1, i2, -, i4, i5⟩ := bracedHex_back fuel h (Nat.not_lt.1 hm)
          refine ⟨d :: ds, ?_, by rw [i2]; rfl, .inl (by simp), ?_, i5⟩
          · intro c hc
            rcases List.mem_cons.1 hc with rfl | hc
            · exact g1
            · exact i1 c hc
          · rw [i4, ← g2]; rfl

theorem moreOctal_back : ∀ (n : Nat) {t rest : Bytes} {r v : Rune}, moreOctal n r t = (v, rest) →
    ∃ ds, (∀ c ∈ ds, isOctal c = true) ∧ t = ds ++ rest ∧ ds.length ≤ n ∧ (ds.length < n → ∀ c, rest.head? = some c → isOctal c = false) ∧
      v = numeralFrom 8 r ds
  | 0, t, rest, r, v, h => by
    simp only [moreOctal, Prod.mk.injEq] at h
    obtain ⟨rfl, rfl⟩ := h
    exact ⟨[], by simp, rfl, by simp, by simp, rfl⟩
  | n + 1, [], rest, r, v, h => by
    simp only [moreOctal, Prod.mk.injEq] at h
    obtain ⟨rfl, rfl⟩ := h
    exact ⟨[], by simp, rfl, by simp, by simp, rfl⟩
  | n + 1, c :: t, rest, r, v, h => by
    rw [moreOctal] at h
    split at h
    · rename_i hc
      have ho : isOctal c = true := by simp [isOctal, hc.1, hc.2]
      obtain ⟨ds, h1, h2, h3, h4, h5⟩ := moreOctal_back n h
      refine ⟨c :: ds, ?_, by rw [h2]; rfl, by simpa using h3, fun hl => h4 (by simpa using hl), ?_⟩
      · intro d hd
        rcases List.mem_cons.1 hd with rfl | hd
        · exact ho
        · exact h1 d hd
      · rw [h5, (octal_digit ho).2.1]; rfl
    · rename_i hc
      simp only [Prod.mk.injEq] at h
      obtain ⟨rfl, rfl⟩ := h
      refine ⟨[], by simp, rfl, by simp, fun _ d hd => ?_, rfl⟩
      simp only [List.head?_cons, Option.some.injEq] at hd
      subst hd
      cases ho : isOctal c with
      | false => rfl
      | true => exact absurd (octal_digit ho).1 hc

theorem escape_octal {d : UInt8} {t rest : Bytes} {v : Rune} (hd : isOctal d = true) (h : moreOctal 2 (digitVal d) t = (v, rest))
    (h2 : d ≠ 48 → ∃ e u, t = e :: u ∧ isOctal e = true) :
    ∃ w : Written, Escaped w ∧ w.Ok rest ∧ 92 :: d :: t = w.text ++ rest ∧ w.rune = v := by
  obtain ⟨ds, g1, g2, g3, g4, g5⟩ := moreOctal_back 2 h
  refine ⟨.octal (d :: ds), trivial, ⟨by simp, ?_, by simpa using g3, ?_, fun hl => g4 (by simp at hl; omega)⟩, by rw [g2]; rfl, ?_⟩
  · intro c hc
    rcases List.mem_cons.1 hc with rfl | hc
    · exact hd
    · exact g1 c hc
  · intro hne
    obtain ⟨e, u, rfl, he⟩ := h2 (fun h => hne (by simp [h]))
    cases ds with
    | nil =>
      have := g4 (by simp) e (by rw [List.nil_append] at g2; rw [← g2]; rfl)
      rw [he] at this
      exact absurd this (by decide)
    | cons a ds => simp
  · rw [g5]
    simp [Written.rune, numeral, numeralFrom]

theorem parseEscape_back {t rest : Bytes} {c : Rune} (h : parseEscape t = .ok (c, rest)) :
    ∃ w : Written, Escaped w ∧ w.Ok rest ∧ 92 :: t = w.text ++ rest ∧ w.rune = c := by
  rw [parseEscape] at h
  split at h
  · simp at h
  rename_i ht
  split at h
  · simp at h
  rename_i c1 t1 e
  split at h
  · rename_i hc
    obtain ⟨d, -, rfl, rfl⟩ := nextRune_byte ht e (Nat.lt_of_le_of_lt hc.2 (by decide))
    have ho : isOctal d = true := by
      revert hc
      exact u8_forall (P := fun d => 49 ≤ d.toNat ∧ d.toNat ≤ 55 → isOctal d = true) (by decide +kernel) d
    split at h
    · rename_i x y
      split at h
      · rename_i hx
        simp only [Except.ok.injEq] at h
        rw [(octal_digit ho).2.1] at h
        exact escape_octal ho h (fun _ => ⟨x, y, rfl, by simp [isOctal, hx.1, hx.2]⟩)
      · simp at h
    · simp at h
  split at h
  · rename_i hc
    subst hc
    obtain ⟨d, -, hd, rfl⟩ := nextRune_byte ht e (by decide)
    have : d = 48 := UInt8.toNat_inj.1 hd
    subst this
    simp only [Except.ok.injEq] at h
    exact escape_octal (by decide) h (fun hn => absurd rfl hn)
  split at h
  · rename_i hc
    subst hc
    obtain ⟨d, -, hd, rfl⟩ := nextRune_byte ht e (by decide)
    have : d = 120 := UInt8.toNat_inj.1 hd
    subst this
    split at h
    · simp at h
    rename_i ht1
    split at h
    · simp at h
    rename_i a t2 e2
    split at h
    · rename_i ha
      subst ha
      obtain ⟨d, -, hd, rfl⟩ := nextRune_byte ht1 e2 (by decide)
      have : d = 123 := UInt8.toNat_inj.1 hd
      subst this
      obtain ⟨ds, g1, g2, g3, g4, g5⟩ := bracedHex_back _ h (by decide)
      refine ⟨.longHex ds, trivial, ⟨g3.resolve_right (by simp), g1, ?_⟩, ?_, g4.symm⟩
      · rw [g4] at g5; exact g5
      · rw [g2]; simp [Written.text]
    · split at h
      · simp at h
      rename_i b t3 e3
      split at h
      · rename_i x y hx hy
        have ht2 : t2 ≠ [] := by
          rintro rfl
          have : nextRune [] = .ok (runeError, []) := rfl
          rw [this] at e3
          simp only [Except.ok.injEq, Prod.mk.injEq] at e3
          rw [← e3.1] at hy
          exact absurd (unhex_lt hy) (by decide)
        obtain ⟨d, -, rfl, rfl⟩ := nextRune_byte ht1 e2 (unhex_lt hx)
        obtain ⟨d', -, rfl, rfl⟩ := nextRune_byte ht2 e3 (unhex_lt hy)
        obtain ⟨x1, x2⟩ := unhex_back hx
        obtain ⟨y1, y2⟩ := unhex_back hy
        simp only [Except.ok.injEq, Prod.mk.injEq] at h
        obtain ⟨h1, rfl⟩ := h
        refine ⟨.hex d d', trivial, ⟨x1, y1⟩, rfl, ?_⟩
        rw [← h1, ← x2, ← y2]
        simp [Written.rune, numeral]
      · simp at h
  have ctl : ∀ d : UInt8, c1 = d.toNat → d < 128 → ∀ v, controls.lookup d = some v → (Except.ok (v, t1) : Except PErr _) = .ok (c, rest) →
      ∃ w : Written, Escaped w ∧ w.Ok rest ∧ 92 :: t = w.text ++ rest ∧ w.rune = c := by
    intro d hd hl v hv hh
    obtain ⟨d', -, hd', rfl⟩ := nextRune_byte ht e (by rw [hd]; exact hl)
    have : d' = d := UInt8.toNat_inj.1 (by rw [hd', hd])
    subst this
    simp only [Except.ok.injEq, Prod.mk.injEq] at hh
    obtain ⟨rfl, rfl⟩ := hh
    exact ⟨.control d', trivial, by simp [Written.Ok, hv], rfl, by simp [Written.rune, hv]⟩
  split at h
  · rename_i hc; exact ctl 97 hc (by decide) _ (by decide) h
  split at h
  · rename_i hc; exact ctl 102 hc (by decide) _ (by decide) h
  split at h
  · rename_i hc; exact ctl 110 hc (by decide) _ (by decide) h
  split at h
  · rename_i hc; exact ctl 114 hc (by decide) _ (by decide) h
  split at h
  · rename_i hc; exact ctl 116 hc (by decide) _ (by decide) h
  split at h
  · rename_i hc; exact ctl 118 hc (by decide) _ (by decide) h
  split at h
  · rename_i hc
    obtain ⟨d, hd, rfl, rfl⟩ := nextRune_byte ht e hc.1
    simp only [Except.ok.injEq, Prod.mk.injEq] at h
    obtain ⟨rfl, rfl⟩ := h
    refine ⟨.punct d, trivial, ⟨hd, ?_⟩, rfl, rfl⟩
    have := hc.2
    revert this
    exact u8_forall (P := fun d => ¬ ((48 ≤ d.toNat ∧ d.toNat ≤ 57) ∨ (65 ≤ d.toNat ∧ d.toNat ≤ 90) ∨ (97 ≤ d.toNat ∧ d.toNat ≤ 122)) →
      Pat.isAlnum d = false) (by decide +kernel) d
  · simp at h

theorem parseClassChar_back {s rest : Bytes} {c : Rune} (h : parseClassChar s = .ok (c, rest)) :
    ∃ w : Written, w.Ok rest ∧ s = w.text ++ rest ∧ w.rune = c ∧ ∀ r, w = .plain r → r ≠ 92 := by
  unfold parseClassChar at h
  split at h
  · simp at h
  · obtain ⟨w, h1, h2, h3, h4⟩ := parseEscape_back h
    refine ⟨w, h2, h3, h4, ?_⟩
    rintro r rfl
    exact absurd h1 id
  · rename_i s hn hb
    obtain ⟨h1, h2⟩ := nextRune_back hn h
    refine ⟨.plain c, h1, h2, rfl, ?_⟩
    intro r hr
    cases hr
    rintro rfl
    exact hb rest (by rw [h2, raw_byte (by decide)]; rfl)

/-! ## Sets -/

variable {T : Tables} {uni : Bytes → Option (Rune → Prop)}

theorem cutCaret_text (s : Bytes) : s = (if (cutCaret s).1 then [94] else []) ++ (cutCaret s).2 := by
  unfold cutCaret
  split <;> simp

theorem cutCaret_false {s : Bytes} (h : (cutCaret s).1 = false) : s.head? ≠ some 94 := by
  unfold cutCaret at h
  split at h
  · simp at h
  · rename_i hn
    intro e
    cases s with
    | nil => simp at e
    | cons b t =>
      simp only [List.head?_cons, Option.some.injEq] at e
      subst e
      exact hn t rfl

theorem cutAt_back {c : UInt8} : ∀ {s name rest : Bytes}, cutAt c s = some (name, rest) → s = name ++ c :: rest ∧ c ∉ name
  | [], _, _, h => by simp [cutAt] at h
  | b :: t, name, rest, h => by
    rw [cutAt] at h
    split at h
    · rename_i hb
      simp only [Option.some.injEq, Prod.mk.injEq] at h
      obtain ⟨rfl, rfl⟩ := h
      exact ⟨by rw [hb]; rfl, by simp⟩
    · rename_i hb
      cases hx : cutAt c t with
      | none => rw [hx] at h; simp at h
      | some x =>
        rw [hx] at h
        simp only [Option.map_some, Option.some.injEq, Prod.mk.injEq] at h
        obtain ⟨rfl, rfl⟩ := h
        obtain ⟨h1, h2⟩ := cutAt_back (s := t) (name := x.1) (rest := x.2) hx
        refine ⟨by rw [h1]; rfl, ?_⟩
        intro hm
        rcases List.mem_cons.1 hm with e | hm
        · exact hb e.symm
        · exact h2 hm

theorem alnum_facts {c : UInt8} (h : Pat.isAlnum c = true ∨ c = 95) : c < 128 ∧ c ≠ 125 ∧ c ≠ 94 ∧ c ≠ 123 := by
  revert h
  exact u8_forall (P := fun c => (Pat.isAlnum c = true ∨ c = 95) → c < 128 ∧ c ≠ 125 ∧ c ≠ 94 ∧ c ≠ 123) (by decide +kernel) c

theorem unicode_back (hn : NamesOnly T uni) {fold : Bool} {r r' : Ranges} {s rest : Bytes}
    (h : parseUnicodeClass T fold r s = some (.ok (r', rest))) : ∃ n : Named, n.Ok uni ∧ s = n.text ++ rest := by
  unfold parseUnicodeClass at h
  split at h
  · rename_i p t
    split at h
    · rename_i hp
      have hpp : (if decide (p = 80) then (80 : UInt8) else 112) = p := by rcases hp with rfl | rfl <;> rfl
      split at h
      · simp at h
      · rename_i c t' e
        simp only at h
        split at h
        · simp at h
        · rename_i name rest' got
          split at h
          · split at h
            · simp at h
            · rename_i r'' ha
              simp only [Option.some.injEq, Except.ok.injEq, Prod.mk.injEq] at h
              obtain ⟨rfl, rfl⟩ := h
              unfold appendUni at ha
              cases hu : T.uni (cutCaret name).2 with
              | none => rw [hu] at ha; simp at ha
              | some x =>
                obtain ⟨u1, u2, u3⟩ := hn _ x hu
                have ht : t ≠ [] := by
                  rintro rfl
                  have e0 : nextRune [] = .ok (runeError, []) := rfl
                  rw [e0] at e
                  simp only [Except.ok.injEq, Prod.mk.injEq] at e
                  obtain ⟨rfl, rfl⟩ := e
                  rw [if_neg (by decide)] at got
                  simp only [List.take_nil, Option.some.injEq, Prod.mk.injEq] at got
                  rw [← got.1] at u2
                  exact u2 rfl
                split at got
                · rename_i hc
                  subst hc
                  obtain ⟨d, -, hd, rfl⟩ := nextRune_byte ht e (by decide)
                  have : d = 123 := UInt8.toNat_inj.1 hd
                  subst this
                  obtain ⟨e1, e2⟩ := cutAt_back got
                  refine ⟨.word (decide (p = 80)) (cutCaret name).1 (cutCaret name).2, ⟨fun c hc => ?_, ?_, u1⟩, ?_⟩
                  · have := alnum_facts (u3 c hc)
                    exact ⟨this.1, this.2.1⟩
                  · intro hh
                    have := alnum_facts (u3 94 (List.mem_of_mem_head? (by rw [hh]; rfl)))
                    exact this.2.2.1 rfl
                  · have := cutCaret_text name
                    simp only [Named.text, hpp]
                    rw [e1]
                    conv => lhs; rw [this]
                    simp
                · obtain ⟨hv, et⟩ := nextRune_back ht e
                  simp only [Option.some.injEq, Prod.mk.injEq] at got
                  obtain ⟨g1, rfl⟩ := got
                  have hname : name = encodeRaw c := by
                    rw [← g1, et]
                    simp
                  subst hname
                  have hc94 : c ≠ 94 := by
                    rintro rfl
                    exact u2 rfl
                  have hcut : cutCaret (encodeRaw c) = (false, encodeRaw c) :=
                    cutCaret_none (raw_head_ne hv (by decide) hc94)
                  rw [hcut] at u1 u3
                  have hlt : c < 128 := by
                    obtain ⟨b, tl, e1, -⟩ := raw_head hv
                    apply Classical.byContradiction
                    intro hge
                    have h1 := Ui.raw_ascii_head (Nat.not_lt.1 hge) (Ui.valid_le hv) e1
                    have h2 := (alnum_facts (u3 b (by rw [e1]; simp))).1
                    rw [UInt8.lt_iff_toNat_lt] at h2
                    exact absurd h2 (Nat.not_lt.2 h1)
                  rw [raw_byte hlt] at u1 u3 et
                  obtain ⟨a1, a2, a3, a4⟩ := alnum_facts (u3 (UInt8.ofNat c) (by simp))
                  refine ⟨.letter (decide (p = 80)) (UInt8.ofNat c), ⟨a1, a4, a3, u1⟩, ?_⟩
                  simp only [Named.text, hpp]
                  rw [et]
                  rfl
          · simp at h
    · simp at h
  · simp at h

theorem perl_back {fold : Bool} {r r' : Ranges} {s rest : Bytes} (h : parsePerlClass T fold r s = some (r', rest)) :
    ∃ n : Named, n.Ok uni ∧ s = n.text ++ rest := by
  unfold parsePerlClass at h
  split at h
  · rename_i c t
    cases hg : perlGroup c with
    | none => rw [hg] at h; simp at h
    | some g =>
      rw [hg] at h
      simp only [Option.map_some, Option.some.injEq, Prod.mk.injEq] at h
      obtain ⟨-, rfl⟩ := h
      refine ⟨.perl c, ?_, rfl⟩
      have key : ∀ c, (perlGroup c).isSome = true → (perlSets.lookup c).isSome = true := by
        intro c
        exact u8_forall (P := fun c => (perlGroup c).isSome = true → (perlSets.lookup c).isSome = true) (by decide +kernel) c
      exact key c (by rw [hg]; rfl)
  · simp at h

theorem lookup_key {α β γ : Type} [BEq α] : ∀ {l : List (α × β)} {m : List (α × γ)} {a : α}, l.map Prod.fst = m.map Prod.fst →
    (l.lookup a).isSome = (m.lookup a).isSome
  | [], [], _, _ => rfl
  | [], _ :: _, _, h => by simp at h
  | _ :: _, [], _, h => by simp at h
  | (x, y) :: l, (x', y') :: m, a, h => by
    simp only [List.map_cons, List.cons.injEq] at h
    obtain ⟨rfl, h⟩ := h
    have ih := lookup_key (a := a) h
    simp only [List.lookup_cons]
    split
    · rfl
    · exact ih

theorem posix_back {fold : Bool} {r r' : Ranges} {s rest : Bytes} (h : parseNamedClass T fold r s = some (.ok (r', rest))) :
    ∃ neg name, (posixSets.lookup name).isSome ∧ s = (Member.posix neg name).text ++ rest := by
  unfold parseNamedClass at h
  split at h
  · rename_i t
    split at h
    · simp at h
    · rename_i name rest' hc
      split at h
      · simp at h
      · rename_i g hg
        simp only [Option.some.injEq, Except.ok.injEq, Prod.mk.injEq] at h
        obtain ⟨-, rfl⟩ := h
        have e := cutColon_some hc
        subst e
        have keys : posixClasses.map Prod.fst = posixSets.map Prod.fst := by decide
        unfold posixGroup at hg
        split at hg
        · rename_i n
          refine ⟨true, n, ?_, by simp [Member.text]⟩
          rw [← lookup_key keys]
          cases hl : posixClasses.lookup n with
          | none => rw [hl] at hg; simp at hg
          | some _ => rfl
        · rename_i n hne
          refine ⟨false, name, ?_, by simp [Member.text]⟩
          rw [← lookup_key keys]
          cases hl : posixClasses.lookup name with
          | none => rw [hl] at hg; simp at hg
          | some _ => rfl
  · simp at h

theorem cutColon_none : ∀ {t : Bytes}, cutColon t = none → ∀ a b, t ≠ a ++ 58 :: 93 :: b := by
  intro t
  induction t with
  | nil => intro _ a b e; simp at e
  | cons d t ih =>
    intro h a b e
    unfold cutColon at h
    split at h
    · simp at h
    · rename_i b' t' hn e'
      simp only [List.cons.injEq] at e'
      obtain ⟨rfl, rfl⟩ := e'
      cases hc : cutColon t with
      | some x => rw [hc] at h; simp at h
      | none =>
        cases a with
        | nil =>
          simp only [List.nil_append, List.cons.injEq] at e
          exact hn b e.1 e.2
        | cons x a =>
          simp only [List.cons_append, List.cons.injEq] at e
          exact ih hc a b e.2
    · rename_i e'; simp at e'

theorem notPosix_back {fold : Bool} {r : Ranges} {next : Bytes} (h : parseNamedClass T fold r (91 :: next) = none) : ¬ LooksPosix next := by
  rintro ⟨a, b, rfl⟩
  unfold parseNamedClass at h
  split at h
  · rename_i t e
    simp only [List.cons_append, List.cons.injEq, true_and] at e
    split at h
    · rename_i hc
      exact cutColon_none hc a b e.symm
    · split at h <;> simp at h
  · rename_i hne
    exact hne _ rfl

theorem plain_text {r : Nat} (h : r < 128) : (Written.plain r).text = [UInt8.ofNat r] := raw_byte h

theorem range_back {fold first : Bool} {r r' : Ranges} {s rest : Bytes} (hf : s.head? = some 93 → first = true)
    (hp : parseNamedClass T fold r s = none) (h : parseRange T fold r s = .ok (r', rest)) :
    ∃ c : Member, c.Ok uni first rest ∧ s = c.text ++ rest := by
  have hfirst : ∀ (w : Written) (u : Bytes), s = w.text ++ u → ∀ x, w = .plain x → x = 93 → first = true := by
    rintro w u e x rfl rfl
    rw [plain_text (by decide)] at e
    exact hf (by rw [e]; rfl)
  have hlook : ∀ (w : Written) (u : Bytes), s = w.text ++ u → ∀ x, w = .plain x → x = 91 → ¬ LooksPosix u := by
    rintro w u e x rfl rfl
    rw [plain_text (by decide)] at e
    rw [e] at hp
    exact notPosix_back hp
  unfold parseRange at h
  simp only at h
  split at h
  · simp at h
  · rename_i lo c t e
    obtain ⟨w, w1, w2, w3, w4⟩ := parseClassChar_back e
    split at h
    · rename_i hc
      simp only [Except.ok.injEq, Prod.mk.injEq] at h
      obtain ⟨-, rfl⟩ := h
      refine ⟨.one w, ⟨w1, fun x hx => ⟨w4 x hx, hfirst w _ w2 x hx, hlook w _ w2 x hx⟩, ?_⟩, w2⟩
      intro d u e
      simp only [List.cons.injEq, true_and] at e
      rw [← e.1, hc]
    · rename_i hc
      split at h
      · simp at h
      · rename_i hi t' e'
        split at h
        · simp at h
        · rename_i hle
          simp only [Except.ok.injEq, Prod.mk.injEq] at h
          obtain ⟨-, rfl⟩ := h
          obtain ⟨v, v1, v2, v3, v4⟩ := parseClassChar_back e'
          refine ⟨.range w v, ⟨?_, v1, fun x hx => ⟨w4 x hx, hfirst w _ w2 x hx⟩, fun x hx => ⟨v4 x hx, ?_⟩, ?_⟩, ?_⟩
          · rw [← v2]; exact w1
          · rintro rfl
            subst hx
            rw [plain_text (by decide)] at v2
            simp only [List.cons_append, List.cons.injEq] at v2
            exact hc v2.1
          · rw [w3, v3]; exact Nat.not_lt.1 hle
          · rw [w2, v2]; simp [Member.text]
  · rename_i lo t hne e
    obtain ⟨w, w1, w2, w3, w4⟩ := parseClassChar_back e
    simp only [Except.ok.injEq, Prod.mk.injEq] at h
    obtain ⟨-, rfl⟩ := h
    refine ⟨.one w, ⟨w1, fun x hx => ⟨w4 x hx, hfirst w _ w2 x hx, hlook w _ w2 x hx⟩, ?_⟩, w2⟩
    intro d u e
    exact absurd e (hne d u)

theorem item_back (hn : NamesOnly T uni) {fold first : Bool} {r r' : Ranges} {s rest : Bytes} (hf : s.head? = some 93 → first = true)
    (h : parseClassItem T fold r s = .ok (r', rest)) : ∃ c : Member, c.Ok uni first rest ∧ s = c.text ++ rest := by
  unfold parseClassItem at h
  split at h
  · rename_i x e
    rw [h] at e
    obtain ⟨neg, name, h1, h2⟩ := posix_back e
    exact ⟨.posix neg name, h1, h2⟩
  · rename_i hp
    split at h
    · rename_i x e
      rw [h] at e
      obtain ⟨n, h1, h2⟩ := unicode_back hn e
      exact ⟨.named n, h1, h2⟩
    · split at h
      · rename_i x e
        simp only [Except.ok.injEq] at h
        subst h
        obtain ⟨n, h1, h2⟩ := perl_back (uni := uni) e
        exact ⟨.named n, h1, h2⟩
      · exact range_back hf hp h

theorem members_back (hn : NamesOnly T uni) {fold : Bool} : ∀ (fuel : Nat) {first : Bool} {r r' : Ranges} {s rest : Bytes},
    parseClassLoop T fold fuel first r s = .ok (r', rest) →
    ∃ ms, s = membersText ms ++ 93 :: rest ∧ MembersOk uni first ms (93 :: rest) ∧ (first = true → ms ≠ [])
  | 0, _, _, _, _, _, h => by simp [parseClassLoop] at h
  | fuel + 1, first, r, r', s, rest, h => by
    rw [parseClassLoop] at h
    split at h
    · rename_i hs
      simp only [Except.ok.injEq, Prod.mk.injEq] at h
      obtain ⟨-, rfl⟩ := h
      refine ⟨[], ?_, trivial, fun hf => ?_⟩
      · cases s with
        | nil => simp at hs
        | cons b t =>
          have := hs.1
          simp only [List.head?_cons, Option.some.injEq] at this
          subst this
          rfl
      · rw [hs.2] at hf; exact absurd hf (by decide)
    · rename_i hs
      split at h
      · simp at h
      · rename_i r1 s1 e
        obtain ⟨c, c1, c2⟩ := item_back hn (first := first) (fun hh => by
          cases first with
          | true => rfl
          | false => exact absurd ⟨hh, rfl⟩ hs) e
        obtain ⟨ms, m1, m2, -⟩ := members_back hn fuel h
        refine ⟨c :: ms, ?_, ⟨?_, m2⟩, fun _ => by simp⟩
        · rw [c2, m1]; simp [membersText]
        · rw [← m1]; exact c1

theorem class_back (hn : NamesOnly T uni) {fold : Bool} {s rest : Bytes} {x : Syn} (h : parseClass T fold s = .ok (x, rest)) :
    ∃ neg ms, (Atom.set neg ms).Ok uni rest ∧ 91 :: s = (Atom.set neg ms).text ++ rest := by
  unfold parseClass at h
  split at h
  · simp at h
  · rename_i r t e
    simp only [Except.ok.injEq, Prod.mk.injEq] at h
    obtain ⟨-, rfl⟩ := h
    obtain ⟨ms, m1, m2, m3⟩ := members_back hn _ e
    refine ⟨(cutCaret s).1, ms, ⟨m3 rfl, m2, fun hneg => ?_⟩, ?_⟩
    · have h1 := cutCaret_false hneg
      have h2 := cutCaret_text s
      rw [hneg] at h2
      simp only [Bool.false_eq_true, if_false, List.nil_append] at h2
      rw [← h2] at m1
      rw [m1] at h1
      cases hm : membersText ms with
      | nil => simp
      | cons b u => rw [hm] at h1; exact h1
    · conv => lhs; rw [cutCaret_text s, m1]
      simp [Atom.text]

end Hound.GoRe
