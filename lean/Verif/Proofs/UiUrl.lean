import Verif.Model.UiUrl
import Verif.Proofs.UrlQuery
import Verif.Proofs.TextFile

namespace Hound.Ui
open Url (pct unhex)

/-! ### Code units -/

theorem u16_toNat {n : Nat} (h : n < 65536) : (UInt16.ofNat n).toNat = n := by
  simp only [UInt16.toNat_ofNat']; omega

theorem valid_cases {r : Nat} (h : validRune r = true) : r < 0xD800 ∨ (0xE000 ≤ r ∧ r ≤ 0x10FFFF) := by
  simpa [validRune, Bool.or_eq_true, Bool.and_eq_true] using h

theorem codePoints_bmp {lone : Option Rune} {u : UInt16} (h : u.toNat < 0xD800 ∨ 0xDFFF < u.toNat) (s : JsStr) :
    codePoints lone (u :: s) = (codePoints lone s).map (u.toNat :: ·) := by
  have h' : u < 0xD800 ∨ 0xDFFF < u := by
    rw [UInt16.lt_iff_toNat_lt, UInt16.lt_iff_toNat_lt]; exact h
  cases s with
  | nil => simp only [codePoints]; rw [if_pos h']; rfl
  | cons v s => rw [codePoints, if_pos h']

theorem codePoints_units {lone : Option Rune} {r : Nat} (h : validRune r = true) (s : JsStr) :
    codePoints lone (units r ++ s) = (codePoints lone s).map (r :: ·) := by
  have hv := valid_cases h
  unfold units
  by_cases h1 : r < 0x10000
  · rw [if_pos h1]
    have e : (UInt16.ofNat r).toNat = r := u16_toNat h1
    rw [List.singleton_append, codePoints_bmp (by rw [e]; omega), e]
  · rw [if_neg h1]
    simp only [List.cons_append, List.nil_append]
    have e1 : (UInt16.ofNat (0xD800 + (r - 0x10000) / 0x400)).toNat = 0xD800 + (r - 0x10000) / 0x400 := u16_toNat (by omega)
    have e2 : (UInt16.ofNat (0xDC00 + (r - 0x10000) % 0x400)).toNat = 0xDC00 + (r - 0x10000) % 0x400 := u16_toNat (by omega)
    rw [codePoints, if_neg, if_pos]
    · rw [e1, e2]
      have : (0xD800 + (r - 0x10000) / 0x400 - 0xD800) * 0x400 + (0xDC00 + (r - 0x10000) % 0x400 - 0xDC00) + 0x10000 = r := by omega
      rw [this]
    · rw [UInt16.lt_iff_toNat_lt, UInt16.le_iff_toNat_le, UInt16.le_iff_toNat_le, e1, e2]
      refine ⟨?_, ?_, ?_⟩ <;> simp <;> omega
    · rw [UInt16.lt_iff_toNat_lt, UInt16.lt_iff_toNat_lt, e1]
      simp; omega

theorem codePoints_text {lone : Option Rune} {rs : List Rune} (h : ∀ r ∈ rs, validRune r = true) :
    codePoints lone (rs.flatMap units) = some rs := by
  induction rs with
  | nil => rfl
  | cons r rs ih =>
    rw [List.flatMap_cons, codePoints_units (h r (by simp)), ih fun x hx => h x (by simp [hx])]; rfl

/-- All code units are ASCII characters. -/
def AsciiUnits (s : JsStr) : Prop := ∀ u ∈ s, u.toNat < 128

theorem codePoints_ascii {lone : Option Rune} {a : JsStr} (h : AsciiUnits a) (s : JsStr) :
    codePoints lone (a ++ s) = (codePoints lone s).map (a.map UInt16.toNat ++ ·) := by
  induction a with
  | nil => simp
  | cons u a ih =>
    have hu := h u (by simp)
    rw [List.cons_append, codePoints_bmp (by omega), ih fun x hx => h x (by simp [hx])]
    cases codePoints lone s <;> rfl

/-! ### Percent encoding -/

theorem js_append (a b : Bytes) : js (a ++ b) = js a ++ js b := by simp [js]

theorem toUInt16_toNat (c : UInt8) : c.toUInt16.toNat = c.toNat := by simp

theorem unhexUnit_js {c x : UInt8} (h : unhex c = some x) : unhexUnit c.toUInt16 = some x := by
  have hall : ∀ c : UInt8, unhex c = unhexUnit c.toUInt16 := Url.forall_u8 (by decide +kernel)
  rw [← hall, h]

theorem takeOctet_pct (b : UInt8) (s : JsStr) : takeOctet (pctUnits b ++ s) = some (b, s) := by
  obtain ⟨x, y, hx, hy, hc⟩ := Url.pct_hex b
  simp only [pctUnits, pct, js, List.map_cons, List.map_nil, List.cons_append, List.nil_append, takeOctet]
  rw [if_pos (by decide), unhexUnit_js hx, unhexUnit_js hy]
  simp only [hc]

theorem takeOctets_pct (bs : Bytes) (s : JsStr) :
    takeOctets bs.length (bs.flatMap pctUnits ++ s) = some (bs, s) := by
  induction bs with
  | nil => rfl
  | cons b bs ih =>
    rw [List.length_cons, takeOctets, List.flatMap_cons, List.append_assoc, takeOctet_pct]
    simp only [Option.bind_eq_bind, Option.bind_some, ih]
    rfl

theorem encodeRaw_head {r : Nat} (h : validRune r = true) :
    ∃ b bs, encodeRaw r = b :: bs ∧ octetCount b = some (bs.length + 1) := by
  have hv := valid_cases h
  rw [encodeRaw_nat]
  by_cases h1 : r < 0x80
  · rw [if_pos h1]
    refine ⟨_, _, rfl, ?_⟩
    unfold octetCount
    rw [if_pos]; · rfl
    · rw [UInt8.lt_iff_toNat_lt, UInt8.toNat_ofNat']; simp; omega
  rw [if_neg h1]
  by_cases h2 : r < 0x800
  · rw [if_pos h2]
    refine ⟨_, _, rfl, ?_⟩
    unfold octetCount
    have e : (UInt8.ofNat (0xC0 + r / 64)).toNat = 0xC0 + r / 64 := by rw [UInt8.toNat_ofNat']; omega
    rw [if_neg, if_neg, if_pos]; · rfl
    all_goals (rw [UInt8.lt_iff_toNat_lt, e]; simp; try omega)
  rw [if_neg h2]
  by_cases h3 : r < 0x10000
  · rw [if_pos h3]
    refine ⟨_, _, rfl, ?_⟩
    unfold octetCount
    have e : (UInt8.ofNat (0xE0 + r / 64 / 64)).toNat = 0xE0 + r / 64 / 64 := by rw [UInt8.toNat_ofNat']; omega
    rw [if_neg, if_neg, if_neg, if_pos]; · rfl
    all_goals (rw [UInt8.lt_iff_toNat_lt, e]; simp; try omega)
  · rw [if_neg h3]
    refine ⟨_, _, rfl, ?_⟩
    unfold octetCount
    have e : (UInt8.ofNat (0xF0 + r / 64 / 64 / 64)).toNat = 0xF0 + r / 64 / 64 / 64 := by rw [UInt8.toNat_ofNat']; omega
    rw [if_neg, if_neg, if_neg, if_neg, if_pos]; · rfl
    all_goals (rw [UInt8.lt_iff_toNat_lt, e]; simp; try omega)

theorem decodeLoop_fuel {f : Nat} : ∀ {s t : JsStr}, decodeLoop f s = some t → ∀ {g}, f ≤ g → decodeLoop g s = some t := by
  induction f with
  | zero =>
    intro s t h g hg
    cases s with
    | nil => cases g <;> simpa [decodeLoop] using h
    | cons c s => simp [decodeLoop] at h
  | succ f ih =>
    intro s t h g hg
    obtain ⟨g, rfl⟩ : ∃ k, g = k + 1 := ⟨g - 1, by omega⟩
    cases s with
    | nil => simpa [decodeLoop] using h
    | cons c s =>
      simp only [decodeLoop] at h ⊢
      have ihm : ∀ {s' : JsStr} {k : JsStr → JsStr}, (decodeLoop f s').map k = some t → (decodeLoop g s').map k = some t := by
        intro s' k hx
        obtain ⟨u, hu, hu'⟩ := Option.map_eq_some_iff.1 hx
        rw [ih hu (by omega)]; exact congrArg some hu'
      split at h
      · rename_i hc; rw [if_pos hc]; exact ihm h
      · rename_i hc; rw [if_neg hc]
        simp only [Option.bind_eq_bind, Option.bind_eq_some_iff] at h ⊢
        obtain ⟨a, ha, n, hn, b, hb, h⟩ := h
        refine ⟨a, ha, n, hn, b, hb, ?_⟩
        split at h
        · rename_i hs; rw [if_pos hs]; exact ihm h
        · cases h

theorem units_ascii {r : Nat} (h : r < 128) : units r = [UInt16.ofNat r] := by
  have : r < 0x10000 := by omega
  unfold units; rw [if_pos this]

/-- One code point, kept or encoded, is read back. -/
theorem decode_one {r : Nat} (hv : validRune r = true) {keep : Bool} (hk : keep = true → r < 128 ∧ r ≠ 37)
    {f : Nat} {s t : JsStr} (h : decodeLoop f s = some t) :
    decodeLoop (f + 1) ((if keep = true then units r else (encodeRaw r).flatMap pctUnits) ++ s) = some (units r ++ t) := by
  cases keep with
  | true =>
    obtain ⟨h1, h2⟩ := hk rfl
    rw [if_pos rfl, units_ascii h1, List.singleton_append, decodeLoop, if_pos, h]; · rfl
    · intro hc
      have := congrArg UInt16.toNat hc
      rw [u16_toNat (by omega)] at this
      exact h2 this
  | false =>
    rw [if_neg (by decide)]
    obtain ⟨b, bs, he, hn⟩ := encodeRaw_head hv
    have hd := decode_encode hv []
    rw [List.append_nil] at hd
    have h1 : takeOctet ((encodeRaw r).flatMap pctUnits ++ s) = some (b, bs.flatMap pctUnits ++ s) := by
      rw [he, List.flatMap_cons, List.append_assoc, takeOctet_pct]
    have h2 := takeOctets_pct (encodeRaw r) s
    obtain ⟨u, us, hu⟩ : ∃ us, ∃ us', (encodeRaw r).flatMap pctUnits ++ s = us :: us' ∧ us = 37 := by
      rw [he]; exact ⟨_, _, rfl, by decide⟩
    obtain ⟨hu, hu37⟩ := hu
    rw [hu] at h1 h2 ⊢
    rw [decodeLoop, if_neg (by simp [hu37]), h1]
    simp only [Option.bind_eq_bind, Option.bind_some, hn]
    have hl : (encodeRaw r).length = bs.length + 1 := by rw [he]; rfl
    rw [← hl, h2]
    simp only [Option.bind_some, hd, if_true, h, Option.map_some]

theorem decode_keeping {keep : Rune → Bool} (hk : ∀ r, keep r = true → r < 128 ∧ r ≠ 37) {rs : List Rune}
    (hv : ∀ r ∈ rs, validRune r = true) :
    ∃ f, f ≤ (encodeKeeping keep rs).length ∧ decodeLoop f (encodeKeeping keep rs) = some (rs.flatMap units) := by
  induction rs with
  | nil => exact ⟨0, by simp, rfl⟩
  | cons r rs ih =>
    obtain ⟨f, hf, h⟩ := ih fun x hx => hv x (by simp [hx])
    refine ⟨f + 1, ?_, ?_⟩
    · unfold encodeKeeping at hf ⊢
      rw [List.flatMap_cons, List.length_append]
      have : 1 ≤ (if keep r = true then units r else (encodeRaw r).flatMap pctUnits).length := by
        split
        · unfold units; split <;> simp
        · obtain ⟨b, bs, he, -⟩ := encodeRaw_head (hv r (by simp))
          rw [he, List.flatMap_cons, List.length_append]
          have : (pctUnits b).length = 3 := rfl
          omega
      omega
    · unfold encodeKeeping at h ⊢
      rw [List.flatMap_cons, List.flatMap_cons]
      exact decode_one (hv r (by simp)) (hk r) h

theorem decodeURIComponent_keeping {keep : Rune → Bool} (hk : ∀ r, keep r = true → r < 128 ∧ r ≠ 37) {rs : List Rune}
    (hv : ∀ r ∈ rs, validRune r = true) : decodeURIComponent (encodeKeeping keep rs) = some (rs.flatMap units) := by
  obtain ⟨f, hf, h⟩ := decode_keeping hk hv
  exact decodeLoop_fuel h hf

/-! ### Units without meaning in a query -/

/-- Units with no meaning in an address or a query. -/
def Plain (u : UInt16) : Prop :=
  u.toNat < 128 ∧ u ≠ 9 ∧ u ≠ 10 ∧ u ≠ 13 ∧ u ≠ 35 ∧ u ≠ 38 ∧ u ≠ 43 ∧ u ≠ 61 ∧ u ≠ 63

instance (u : UInt16) : Decidable (Plain u) := inferInstanceAs (Decidable (_ ∧ _))

theorem pctUnits_plain : ∀ b : UInt8, ∀ u ∈ pctUnits b, Plain u := Url.forall_u8 (by decide +kernel)

theorem keeping_all {P : UInt16 → Prop} (hp : ∀ b : UInt8, ∀ u ∈ pctUnits b, P u) {keep : Rune → Bool} {rs : List Rune}
    (hk : ∀ r ∈ rs, keep r = true → ∀ u ∈ units r, P u) : ∀ u ∈ encodeKeeping keep rs, P u := by
  intro u hu
  obtain ⟨r, hr, h⟩ := List.mem_flatMap.1 hu
  split at h
  · rename_i hkr; exact hk r hr hkr u h
  · obtain ⟨b, -, hb⟩ := List.mem_flatMap.1 h
    exact hp b u hb

theorem forall_lt128 {P : Nat → Prop} (h : ∀ i : Fin 128, P i) {r : Nat} (hr : r < 128) : P r := h ⟨r, hr⟩

theorem uriKept_lt {r : Nat} (h : uriKept r = true) : r < 128 ∧ r ≠ 37 := by
  simp only [uriKept, Bool.or_eq_true, Bool.and_eq_true, decide_eq_true_eq, List.contains_eq_mem, List.mem_cons,
    List.not_mem_nil, or_false] at h
  delta Rune at h
  omega

theorem uriKept_plain {r : Nat} (h : uriKept r = true) : ∀ u ∈ units r, Plain u := by
  have hr := (uriKept_lt h).1
  revert h
  exact forall_lt128 (P := fun r => uriKept r = true → ∀ u ∈ units r, Plain u) (by decide +kernel) hr

/-- The characters of `encodeURIComponent` that the browser leaves alone. -/
def kept' (r : Rune) : Bool := uriKept r && r != 39

theorem kept'_of {r : Nat} (h : kept' r = true) : uriKept r = true := by
  simp only [kept', Bool.and_eq_true] at h; exact h.1

theorem notSpecial_lt {r : Nat} (h : (!specialQuery r) = true) : r < 128 := by
  simp only [specialQuery, Bool.not_eq_true', Bool.or_eq_false_iff, decide_eq_false_iff_not] at h
  delta Rune at h
  omega

/-! ### What the browser makes of a query -/

/-- The encoding of code points by the browser. -/
abbrev browser (rs : List Rune) : JsStr := encodeKeeping (fun r => !specialQuery r) rs

theorem browser_append (a b : List Rune) : browser (a ++ b) = browser a ++ browser b := by
  simp [browser, encodeKeeping]

theorem browser_pct (b : UInt8) : browser ((pctUnits b).map UInt16.toNat) = pctUnits b := by
  revert b
  exact Url.forall_u8 (by decide +kernel)

theorem browser_pcts (bs : Bytes) : browser ((bs.flatMap pctUnits).map UInt16.toNat) = bs.flatMap pctUnits := by
  induction bs with
  | nil => rfl
  | cons b bs ih => rw [List.flatMap_cons, List.map_append, browser_append, browser_pct, ih]

theorem browser_kept {r : Nat} (h : uriKept r = true) :
    browser ((units r).map UInt16.toNat) = if kept' r then units r else (encodeRaw r).flatMap pctUnits := by
  have hr := (uriKept_lt h).1
  revert h
  exact forall_lt128 (P := fun r => uriKept r = true → browser ((units r).map UInt16.toNat) =
    if kept' r then units r else (encodeRaw r).flatMap pctUnits) (by decide +kernel) hr

theorem browser_component (rs : List Rune) :
    browser ((encodeKeeping uriKept rs).map UInt16.toNat) = encodeKeeping kept' rs := by
  induction rs with
  | nil => rfl
  | cons r rs ih =>
    have e : ∀ k, encodeKeeping k (r :: rs) = (if k r then units r else (encodeRaw r).flatMap pctUnits) ++ encodeKeeping k rs :=
      fun k => List.flatMap_cons ..
    rw [e, e, List.map_append, browser_append, ih]
    congr 1
    by_cases h : uriKept r = true
    · rw [if_pos h, browser_kept h]
    · rw [if_neg h, browser_pcts, if_neg]
      exact fun h' => h (kept'_of h')

theorem encodeURIComponent_text {rs : List Rune} (hv : ∀ r ∈ rs, validRune r = true) :
    encodeURIComponent (rs.flatMap units) = some (encodeKeeping uriKept rs) := by
  unfold encodeURIComponent; rw [codePoints_text hv]; rfl

theorem component_plain (rs : List Rune) : ∀ u ∈ encodeKeeping uriKept rs, Plain u :=
  keeping_all pctUnits_plain fun _ _ h => uriKept_plain h

theorem component'_plain (rs : List Rune) : ∀ u ∈ encodeKeeping kept' rs, Plain u :=
  keeping_all pctUnits_plain fun _ _ h => uriKept_plain (kept'_of h)

theorem decode_component' {rs : List Rune} (hv : ∀ r ∈ rs, validRune r = true) :
    decodeURIComponent (encodeKeeping kept' rs) = some (rs.flatMap units) :=
  decodeURIComponent_keeping (fun _ h => uriKept_lt (kept'_of h)) hv

/-! ### Splitting -/

theorem splitUnit_append {sep : UInt16} {a : JsStr} (h : sep ∉ a) (b : JsStr) :
    splitUnit sep (a ++ sep :: b) = a :: splitUnit sep b := by
  induction a with
  | nil => simp [splitUnit]
  | cons c a ih =>
    simp only [List.mem_cons, not_or] at h
    simp only [List.cons_append, splitUnit, if_neg (Ne.symm h.1), ih h.2]

theorem splitUnit_single {sep : UInt16} {a : JsStr} (h : sep ∉ a) : splitUnit sep a = [a] := by
  induction a with
  | nil => rfl
  | cons c a ih =>
    simp only [List.mem_cons, not_or] at h
    simp only [splitUnit, if_neg (Ne.symm h.1), ih h.2]

/-- One parameter is read. -/
theorem paramPart_of {params : Fields} {key e v : JsStr} (hk : (61 : UInt16) ∉ key) (he : ∀ u ∈ e, u ≠ 61 ∧ u ≠ 43)
    (dk : decodeURIComponent key = some key) (de : decodeURIComponent e = some v) :
    paramPart params (key ++ 61 :: e) = some fun k => if k = key then some v else params k := by
  unfold paramPart
  rw [splitUnit_append hk, splitUnit_single fun h => (he _ h).1 rfl]
  have : (e.map fun c => if c = 43 then 32 else c) = e := by
    conv => rhs; rw [← List.map_id e]
    exact List.map_congr_left fun u hu => if_neg (he u hu).2
  simp only [this, dk, de, Option.bind_eq_bind, Option.bind_some, Option.pure_def]

end Hound.Ui
