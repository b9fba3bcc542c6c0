import Verif.Props.Complete
import Verif.Spec.Literal
import Verif.Proofs.LiteralParse

/-!
# C48, C54: a literal search reports exactly the lines that contain the text

From the text in the search box to the reported lines: quoting, reading the quoted text as a pattern, compiling, the
trigram query, the posting lists and the line matcher.
-/

namespace Hound
open Spec

/-- The code points of a text with the given choice of case. -/
def Alike (orbit : Rune → List Rune) (fold : Bool) : List Rune → List Rune → Prop
  | [], [] => True
  | r :: rs, x :: xs => FoldsTo orbit fold r x ∧ Alike orbit fold rs xs
  | _, _ => False

theorem litAt_iff {orbit : Rune → List Rune} {fold : Bool} {w : Bytes} : ∀ {rs : List Rune} {i j : Nat} (_ : i ≤ w.length),
    (LitAt orbit fold w rs i j ↔ ∃ xs : List Rune, Alike orbit fold rs xs ∧ (∀ x ∈ xs, validRune x = true) ∧
      j = i + (xs.flatMap encodeRaw).length ∧ j ≤ w.length ∧ slice w i j = xs.flatMap encodeRaw)
  | [], i, j, hi => by
    simp only [LitAt]
    constructor
    · rintro rfl
      exact ⟨[], trivial, by simp, by simp, hi, by simp [slice_self]⟩
    · rintro ⟨xs, h1, _, h3, _⟩
      cases xs with
      | nil => simpa using h3.symm
      | cons x xs => exact absurd h1 (by simp [Alike])
  | r :: rs, i, j, hi => by
    simp only [LitAt]
    constructor
    · rintro ⟨r', k, hf, ⟨h1, h2, h3, h4⟩, h5⟩
      obtain ⟨xs, k1, k2, k3, k4, k5⟩ := (litAt_iff h3).mp h5
      refine ⟨r' :: xs, ⟨hf, k1⟩, ?_, ?_, k4, ?_⟩
      · intro x hx
        rcases List.mem_cons.mp hx with rfl | hx
        · exact h1
        · exact k2 x hx
      · rw [List.flatMap_cons, List.length_append]; omega
      · rw [List.flatMap_cons, ← slice_append (i := i) (k := k) (j := j) (by omega) (by omega), h4, k5]
    · rintro ⟨xs, k1, k2, k3, k4, k5⟩
      cases xs with
      | nil => exact absurd k1 (by simp [Alike])
      | cons x xs =>
        rw [List.flatMap_cons, List.length_append] at k3
        rw [List.flatMap_cons] at k5
        have hsp := slice_append (w := w) (i := i) (k := i + (encodeRaw x).length) (j := j) (by omega) (by omega)
        rw [k5] at hsp
        have hl := slice_length (w := w) (s := i) (e := i + (encodeRaw x).length) (by omega)
        obtain ⟨h4, h5⟩ := List.append_inj hsp (by omega)
        refine ⟨x, i + (encodeRaw x).length, k1.1, ⟨k2 x (by simp), rfl, by omega, h4⟩, ?_⟩
        exact (litAt_iff (by omega)).mpr ⟨xs, k1.2, fun y hy => k2 y (by simp [hy]), by omega, k4, h5⟩

/-- A literal matches inside a line exactly if the line contains the text, or a text that differs in case. -/
theorem literal_within {orbit : Rune → List Rune} {fold : Bool} {rs : List Rune} {w : Bytes}
    {s e : Nat} (hse : s ≤ e) (he : e ≤ w.length) :
    MatchWithin orbit (.literal rs fold) w s e ↔ ∃ xs : List Rune, Alike orbit fold rs xs ∧
      (∀ x ∈ xs, validRune x = true) ∧ xs.flatMap encodeRaw <:+: slice w s e := by
  have hl := slice_length (w := w) (s := s) (e := e) he
  constructor
  · rintro ⟨i, j, h1, h2, h3, h4⟩
    simp only [MatchAt] at h4
    obtain ⟨xs, k1, k2, h5, h6, h7⟩ := (litAt_iff (by omega)).mp h4
    refine ⟨xs, k1, k2, slice w s i, slice w j e, ?_⟩
    rw [← h7, slice_append h1 h2, slice_append (by omega) h3]
  · rintro ⟨xs, k1, k2, a, b, h⟩
    have h0 : a.length + (xs.flatMap encodeRaw).length + b.length = e - s := by
      rw [← hl, ← h, List.length_append, List.length_append]
    refine ⟨s + a.length, s + a.length + (xs.flatMap encodeRaw).length, by omega, by omega, by omega, ?_⟩
    simp only [MatchAt]
    refine (litAt_iff (by omega)).mpr ⟨xs, k1, k2, rfl, by omega, ?_⟩
    rw [Nat.add_assoc, ← slice_slice (e := e) (by omega), ← h]
    unfold slice
    rw [List.append_assoc, List.drop_left]
    rw [show a.length + (xs.flatMap encodeRaw).length - a.length = (xs.flatMap encodeRaw).length by omega, List.take_left]

theorem alike_exact {orbit : Rune → List Rune} : ∀ {rs xs : List Rune}, Alike orbit false rs xs ↔ xs = rs
  | [], [] => by simp [Alike]
  | [], x :: xs => by simp [Alike]
  | r :: rs, [] => by simp [Alike]
  | r :: rs, x :: xs => by
    simp only [Alike, FoldsTo, alike_exact (rs := rs), List.cons.injEq]
    simp

theorem foldl_min_mem : ∀ (l : List Nat) (a : Nat), l.foldl min a = a ∨ l.foldl min a ∈ l
  | [], a => .inl rfl
  | b :: l, a => by
    rw [List.foldl_cons]
    rcases foldl_min_mem l (min a b) with h | h
    · rw [h]
      rcases Nat.le_total a b with h' | h'
      · rw [Nat.min_eq_left h']; exact .inl rfl
      · rw [Nat.min_eq_right h']; exact .inr (by simp)
    · exact .inr (by simp [h])

theorem foldl_minNat_le : ∀ (l : List Nat) (a : Nat), l.foldl min a ≤ a ∧ ∀ x ∈ l, l.foldl min a ≤ x
  | [], a => ⟨Nat.le_refl _, by simp⟩
  | b :: l, a => by
    rw [List.foldl_cons]
    obtain ⟨h1, h2⟩ := foldl_minNat_le l (min a b)
    refine ⟨by omega, ?_⟩
    intro x hx
    rcases List.mem_cons.mp hx with rfl | hx
    · omega
    · exact h2 x hx

theorem minFoldRune_mem (orbit : Rune → List Rune) (r : Rune) : minFoldRune orbit r = r ∨ minFoldRune orbit r ∈ orbit r :=
  foldl_min_mem (orbit r) r

theorem minFoldRune_le (orbit : Rune → List Rune) (r : Rune) : minFoldRune orbit r ≤ r ∧ ∀ x ∈ orbit r, minFoldRune orbit r ≤ x :=
  foldl_minNat_le (orbit r) r

theorem minFoldRune_class {orbit : Rune → List Rune} (hf : FoldClasses orbit) (r y : Rune) :
    (y = minFoldRune orbit r ∨ y ∈ orbit (minFoldRune orbit r)) ↔ (y = r ∨ y ∈ orbit r) := by
  rcases minFoldRune_mem orbit r with h | h
  · rw [h]
  · exact hf.same _ _ h y

theorem alike_minFold {orbit : Rune → List Rune} (hf : FoldClasses orbit) : ∀ {rs xs : List Rune},
    Alike orbit true (rs.map (minFoldRune orbit)) xs ↔ SameButCase orbit rs xs
  | [], [] => by simp [Alike, SameButCase]
  | [], x :: xs => by simp [Alike, SameButCase]
  | r :: rs, [] => by simp [Alike, SameButCase]
  | r :: rs, x :: xs => by
    simp only [List.map_cons, Alike, SameButCase, FoldsTo, true_and, alike_minFold hf, minFoldRune_class hf]

theorem quoted_within {orbit : Rune → List Rune} {fold : Bool} {rs : List Rune} {w : Bytes}
    {s e : Nat} (hse : s ≤ e) (he : e ≤ w.length) :
    MatchWithin orbit (quotedRe orbit fold rs) w s e ↔
      ∃ xs : List Rune, Alike orbit fold (if fold then rs.map (minFoldRune orbit) else rs) xs ∧
      (∀ x ∈ xs, validRune x = true) ∧ xs.flatMap encodeRaw <:+: slice w s e := by
  rw [← literal_within hse he]
  unfold quotedRe
  split
  · rename_i h; subst h
    cases fold <;> simp only [MatchWithin, MatchAt, LitAt, List.map_nil, ite_self]
  · exact Iff.rfl

theorem quoted_noAlternate {orbit : Rune → List Rune} {fold : Bool} {rs : List Rune} : NoAlternate (quotedRe orbit fold rs) := by
  unfold quotedRe; split <;> simp [NoAlternate]

/-- The instructions of a quoted text's program are compiled correctly: the text is valid, and folded letters are not
above U+1044F. -/
theorem quoted_insts {orbit : Rune → List Rune} (fold : Bool) {rs : List Rune} (hv : ∀ r ∈ rs, validRune r = true)
    (hfold : fold = true → FoldClasses orbit ∧ ∀ r ∈ rs, r ≤ 0x1044f ∨ orbit r = []) {p : Prog}
    (h : compileLit orbit (quotedRe orbit fold rs) = some p) : (∀ i ∈ p.inst, RuneOK orbit i) ∧ OnlyValid orbit p := by
  suffices hs : ∀ i ∈ p.inst, RuneOK orbit i ∧ ∀ r, InstHas orbit i r → validRune r = true from
    ⟨fun i hi => (hs i hi).1, fun i hi => (hs i hi).2⟩
  intro i hi
  unfold quotedRe at h
  split at h
  · simp only [compileLit, Option.some.injEq] at h
    subst h
    simp only [List.mem_cons, List.not_mem_nil, or_false] at hi
    rcases hi with rfl | rfl | rfl <;> simp [RuneOK, InstHas]
  · generalize hys : (if fold = true then rs.map (minFoldRune orbit) else rs) = ys at h
    rw [compileLit] at h
    split at h
    · cases h
    · simp only [Option.some.injEq] at h
      subst h
      rcases List.mem_cons.mp hi with rfl | hi
      · simp [RuneOK, InstHas]
      · rcases List.mem_append.mp hi with hi | hi
        · obtain ⟨x, hx, m, _, _, rfl⟩ := mem_litChain hi
          cases fold with
          | false =>
            simp only [Bool.false_eq_true, if_false] at hys
            subst hys
            simp only [runeInst, Bool.false_and, Bool.false_eq_true, if_false]
            exact ⟨hv x hx, fun r hr => by rw [InstHas] at hr; subst hr; exact hv _ hx⟩
          | true =>
            obtain ⟨hc, hle⟩ := hfold rfl
            simp only [if_true] at hys
            subst hys
            obtain ⟨r, hr, rfl⟩ := List.mem_map.mp hx
            have hcl := minFoldRune_class hc r
            have hvx : ∀ y, (y = minFoldRune orbit r ∨ y ∈ orbit (minFoldRune orbit r)) → validRune y = true := by
              intro y hy
              rcases (hcl y).mp hy with rfl | hy
              · exact hv _ hr
              · exact hc.valid r y (hv r hr) hy
            refine ⟨?_, ?_⟩
            · unfold runeInst
              split
              · rename_i hne
                refine ⟨hvx _ (.inl rfl), fun y hy => hvx y (.inr hy), ?_, ?_⟩
                · rintro ⟨h1, h2⟩
                  -- a lower case letter has a smaller one in its class
                  have ho := hc.ascii.1 (minFoldRune orbit r) (by delta Rune at *; omega)
                  have hmem : minFoldRune orbit r - 32 ∈ orbit (minFoldRune orbit r) := by
                    rw [ho]
                    delta Rune at *
                    generalize minFoldRune orbit r = z at *
                    rw [if_neg (by omega)]
                    split
                    · rename_i hz; subst hz; decide
                    · rw [if_neg (by omega)]
                      split
                      · rename_i hz; subst hz; decide
                      · rw [if_neg (by omega), if_pos ⟨h1, h2⟩]
                        simp
                  have hlt : minFoldRune orbit r ≤ minFoldRune orbit r - 32 := by
                    rcases (hcl _).mp (.inr hmem) with h | h
                    · rw [h]; exact (minFoldRune_le orbit r).1
                    · exact (minFoldRune_le orbit r).2 _ h
                  exact absurd hlt (Nat.not_le.mpr (Nat.sub_lt (Nat.lt_of_lt_of_le (by decide) h1) (by decide)))
                · rcases hle r hr with h | h
                  · exact .inl (Nat.le_trans (minFoldRune_le orbit r).1 h)
                  · right
                    have : minFoldRune orbit r = r := by
                      rcases minFoldRune_mem orbit r with h' | h'
                      · exact h'
                      · rw [h] at h'; cases h'
                    rw [this, h]
              · exact hvx _ (.inl rfl)
            · intro y hy
              rw [runeInst_has] at hy
              refine hvx y ?_
              rcases hy with h | ⟨_, h⟩
              · exact .inl h
              · exact .inr h
        · rw [List.mem_singleton] at hi
          subst hi
          simp [RuneOK, InstHas]

/-- A text is the encoding of only one list of code points. -/
theorem flatMap_encode_inj : ∀ {rs xs : List Rune}, (∀ r ∈ rs, validRune r = true) → (∀ r ∈ xs, validRune r = true) →
    rs.flatMap encodeRaw = xs.flatMap encodeRaw → rs = xs
  | [], [], _, _, _ => rfl
  | [], x :: xs, _, _, h => by
    have := encodeRaw_ne_nil x
    simp_all
  | r :: rs, [], _, _, h => by
    have := encodeRaw_ne_nil r
    simp_all
  | r :: rs, x :: xs, hr, hx, h => by
    rw [List.flatMap_cons, List.flatMap_cons] at h
    have h1 := decode_encode (hr r (by simp)) (rs.flatMap encodeRaw)
    have h2 := decode_encode (hx x (by simp)) (xs.flatMap encodeRaw)
    rw [h, h2] at h1
    have hrx : x = r := (Prod.mk.inj h1).1
    subst hrx
    rw [flatMap_encode_inj (fun y hy => hr y (by simp [hy])) (fun y hy => hx y (by simp [hy])) (List.append_cancel_left h)]

section
variable {grow : Nat → Nat → Nat} {orbit : Rune → List Rune} {rs : List Rune} {c : Compiled Query}
  {ix : IndexView Query} {files : List (Bytes × Reader)} {answers : List (Option SkipReason)}
  {compile : Bytes → Option (Compiled Query)} {pat : Bytes} {opt : SearchOptions}

theorem fullPattern_literal (hl : opt.literalSearch = true) : fullPattern goQuoteMeta pat opt =
    (if opt.ignoreCase then b!"(?i)" else []) ++ b!"(?m)" ++ goQuoteMeta pat := by
  unfold fullPattern; rw [hl]; rfl

/-- What can be said of the compiled form of a quoted text. -/
theorem compiledText_quoted (hl : opt.literalSearch = true) (hc : CompiledText grow orbit (fullPattern goQuoteMeta pat opt) c) :
    ∃ rs, EncodedAs pat rs ∧ ((opt.ignoreCase = true → FoldClasses orbit ∧ ∀ r ∈ rs, r ≤ 0x1044f ∨ orbit r = []) →
      AsciiFolds orbit → ∃ p, CompiledFrom grow orbit (quotedRe orbit opt.ignoreCase rs) p c ∧
        (∀ i ∈ p.inst, RuneOK orbit i) ∧ OnlyValid orbit p ∧ NoBeginText p) := by
  obtain ⟨re, p, q, h1, h2, h3, h4, h5, h6⟩ := hc
  rw [fullPattern_literal hl] at h1
  have hver : ∃ rs : List Rune, (∀ r ∈ rs, validRune r = true) ∧ pat = rs.flatMap encodeRaw := by
    obtain ⟨fuel, k1, k2⟩ := goParse_flags (orbit := orbit) opt.ignoreCase (goQuoteMeta pat)
    rcases parseLoop_verdict (orbit := orbit) opt.ignoreCase k1 [] with h | h
    · rw [k2, h] at h1; cases h1
    · exact h
  obtain ⟨rs, hv, hp⟩ := hver
  refine ⟨rs, ⟨hv, hp⟩, fun hfold hf => ?_⟩
  rw [hp, goParse_quoted _ hv] at h1
  injection h1 with h1
  subst h1
  obtain ⟨k1, k2⟩ := quoted_insts _ hv hfold h2
  obtain ⟨c1, c2, c3⟩ := compileLit_ok h2
  obtain ⟨q', e1, _, _, e4, _⟩ := toByteProg_main hf c3 c1 k1
  rw [h3] at e1
  cases e1
  refine ⟨p, ⟨compileLit_compiles h2, c2 (by omega), ⟨q, h3, h4, h5⟩, h6⟩, k1, k2, ?_⟩
  intro op out hm
  exact absurd hm (compileLit_noBegin h2 op out)

theorem quoted_search {fold : Bool} {p : Prog} (hf : AsciiFolds orbit) (hc : CompiledFrom grow orbit (quotedRe orbit fold rs) p c)
    (hok : ∀ i ∈ p.inst, RuneOK orbit i) (hov : OnlyValid orbit p) (hb : NoBeginText p)
    (hix : ServesFiles ix files answers) (hcomp : compile (fullPattern goQuoteMeta pat opt) = some c) (ho : Plain opt)
    (hdistinct : ∀ f ∈ indexedFiles files answers, ∀ g ∈ indexedFiles files answers, f.1 = g.1 → f = g)
    {name content : Bytes} (hfile : (name, content) ∈ indexedFiles files answers)
    {s e : Nat} (hline : LineAt content s e) (hs : s < content.length) :
    Reports (search compile goQuoteMeta ix pat opt) name ((content.take s).count NL + 1) (slice content s e) ↔
      MatchWithin orbit (quotedRe orbit fold rs) content s e := by
  constructor
  · rintro ⟨r, hr, fm, hfm, hn, m, hm, h1, h2⟩
    obtain ⟨content', hfile', s', e', k1, k2, k3, k4⟩ :=
      search_only_matching_partial hf hc hok hb hix hcomp hr hfm hm
    rw [hn] at hfile'
    have : content' = content := by
      have := hdistinct _ hfile' _ hfile rfl
      exact (Prod.mk.inj this).2
    subst this
    have hm' := k4 (.inr hov)
    rw [quoted_within hline.1 hline.2.1]
    rw [quoted_within k1.1 k1.2.1, ← k3, h2] at hm'
    exact hm'
  · intro hm
    exact search_complete_partial hf hc (regexpQuery_noalt quoted_noAlternate) hok hix hcomp ho hfile hline hs hm

/-- **C48.** A plain literal search for `pat`, case being significant, reports a line of an indexed file exactly if that
line contains `pat`. The files have different names; the text may contain any characters. -/
theorem literal_search (hf : AsciiFolds orbit) (hl : opt.literalSearch = true) (hi : opt.ignoreCase = false) (ho : Plain opt)
    (hcomp : compile (fullPattern goQuoteMeta pat opt) = some c)
    (hc : CompiledText grow orbit (fullPattern goQuoteMeta pat opt) c) (hix : ServesFiles ix files answers)
    (hdistinct : ∀ f ∈ indexedFiles files answers, ∀ g ∈ indexedFiles files answers, f.1 = g.1 → f = g)
    {name content : Bytes} (hfile : (name, content) ∈ indexedFiles files answers)
    {s e : Nat} (hline : LineAt content s e) (hs : s < content.length) :
    Reports (search compile goQuoteMeta ix pat opt) name ((content.take s).count NL + 1) (slice content s e) ↔
      pat <:+: slice content s e := by
  obtain ⟨rs, ⟨hv, rfl⟩, h⟩ := compiledText_quoted hl hc
  obtain ⟨p, h1, h2, h3, h4⟩ := h (by rw [hi]; intro h; cases h) hf
  rw [quoted_search hf h1 h2 h3 h4 hix hcomp ho hdistinct hfile hline hs, quoted_within hline.1 hline.2.1, hi]
  simp only [Bool.false_eq_true, if_false, alike_exact]
  constructor
  · rintro ⟨xs, rfl, _, h⟩; exact h
  · intro h; exact ⟨rs, rfl, hv, h⟩

/-- **C54.** A plain literal search for a text that ignores case reports a line of an indexed file exactly if that line
contains the text, or one that differs from it only in case.

Partial: for texts without letters above U+1044F, whose case is not ignored (`class_fold_counterexample`). -/
theorem literal_search_fold_partial (hf : FoldClasses orbit) (hl : opt.literalSearch = true) (hi : opt.ignoreCase = true)
    (ho : Plain opt) (hcomp : compile (fullPattern goQuoteMeta pat opt) = some c)
    (hc : CompiledText grow orbit (fullPattern goQuoteMeta pat opt) c) (hix : ServesFiles ix files answers)
    (hdistinct : ∀ f ∈ indexedFiles files answers, ∀ g ∈ indexedFiles files answers, f.1 = g.1 → f = g)
    {name content : Bytes} (hfile : (name, content) ∈ indexedFiles files answers)
    {s e : Nat} (hline : LineAt content s e) (hs : s < content.length)
    (henc : EncodedAs pat rs) (hle : ∀ r ∈ rs, r ≤ 0x1044f ∨ orbit r = []) :
    Reports (search compile goQuoteMeta ix pat opt) name ((content.take s).count NL + 1) (slice content s e) ↔
      ∃ text xs, EncodedAs text xs ∧ SameButCase orbit rs xs ∧ text <:+: slice content s e := by
  obtain ⟨rs', ⟨hv, hp⟩, h⟩ := compiledText_quoted hl hc
  have : rs' = rs := flatMap_encode_inj hv henc.1 (by rw [← hp]; exact henc.2)
  subst this
  obtain ⟨p, h1, h2, h3, h4⟩ := h (fun _ => ⟨hf, hle⟩) hf.ascii
  rw [quoted_search hf.ascii h1 h2 h3 h4 hix hcomp ho hdistinct hfile hline hs, quoted_within hline.1 hline.2.1, hi]
  simp only [if_true, alike_minFold hf]
  constructor
  · rintro ⟨xs, k1, k2, k3⟩; exact ⟨_, xs, ⟨k2, rfl⟩, k1, k3⟩
  · rintro ⟨text, xs, ⟨k1, rfl⟩, k2, k3⟩; exact ⟨xs, k2, k1, k3⟩

/-- The full statement of **C54**, for texts with any letters. -/
def LiteralFoldFull : Prop :=
  ∀ (grow : Nat → Nat → Nat) (orbit : Rune → List Rune) (rs : List Rune) (c : Compiled Query) (ix : IndexView Query)
    (files : List (Bytes × Reader)) (answers : List (Option SkipReason)) (compile : Bytes → Option (Compiled Query))
    (pat : Bytes) (opt : SearchOptions) (name content : Bytes) (s e : Nat),
    FoldClasses orbit → opt.literalSearch = true → opt.ignoreCase = true → Plain opt →
    compile (fullPattern goQuoteMeta pat opt) = some c → CompiledText grow orbit (fullPattern goQuoteMeta pat opt) c →
    ServesFiles ix files answers →
    (∀ f ∈ indexedFiles files answers, ∀ g ∈ indexedFiles files answers, f.1 = g.1 → f = g) →
    (name, content) ∈ indexedFiles files answers → LineAt content s e → s < content.length → EncodedAs pat rs →
    (Reports (search compile goQuoteMeta ix pat opt) name ((content.take s).count NL + 1) (slice content s e) ↔
      ∃ text xs, EncodedAs text xs ∧ SameButCase orbit rs xs ∧ text <:+: slice content s e)

/-- A text that is not valid UTF-8 is refused by the parser, every other text is read as itself. -/
theorem literal_text_accepted (hl : opt.literalSearch = true) :
    (∃ re, goParse orbit (fullPattern goQuoteMeta pat opt) = .ok re) ↔ ∃ rs, EncodedAs pat rs := by
  rw [fullPattern_literal hl]
  constructor
  · rintro ⟨re, h1⟩
    obtain ⟨fuel, k1, k2⟩ := goParse_flags (orbit := orbit) opt.ignoreCase (goQuoteMeta pat)
    rcases parseLoop_verdict (orbit := orbit) opt.ignoreCase k1 [] with h | h
    · rw [k2, h] at h1; cases h1
    · exact h
  · rintro ⟨rs, hv, rfl⟩
    exact ⟨_, goParse_quoted _ hv⟩

end

/-! ## Examples: a file with two lines -/

theorem text_compiled {orbit : Rune → List Rune} {expr : Bytes} {p : Prog} {re : Re} (h1 : goParse orbit expr = .ok re)
    (h2 : compileLit orbit re = some p) (hf : AsciiFolds orbit) (hok : ∀ i ∈ p.inst, RuneOK orbit i)
    (hlen : (toByteProg orbit p).map (fun q => decide (q.inst.length < 2 ^ 32)) = some true) :
    ∃ c, CompiledText goGrow orbit expr c := by
  obtain ⟨c1, c2, c3⟩ := compileLit_ok h2
  obtain ⟨q, e1, e2, e3, e4, _⟩ := toByteProg_main hf c3 c1 hok
  rw [e1] at hlen
  have hl : q.inst.length < 2 ^ 32 := by simpa using hlen
  obtain ⟨mt, hmt⟩ := exists_matcherOf (q := q) ⟨by omega, hl, e3⟩
  exact ⟨⟨mt, (HInfo.regexpQuery goGrow orbit re).1⟩, re, p, q, h1, h2, e1, hl, hmt, rfl⟩

/-- The file of the examples, opened from its index. -/
theorem literal_example_index : ∃ (ix : IndexView Query) (files : List (Bytes × Reader)) (answers : List (Option SkipReason)),
    ServesFiles ix files answers ∧ indexedFiles files answers = [(b!"f", b!"xaB\nxA.b\n")] := by
  obtain ⟨ix, answers, hix, hfiles⟩ := exists_serves b!"f" b!"xaB\nxA.b\n" (by decide) (by decide +kernel) (by decide) (by decide)
  exact ⟨ix, _, answers, hix, hfiles⟩

theorem exOrbit_classes : FoldClasses exOrbit := by
  have key : ∀ r ∈ List.range 128 ++ [0x212A, 0x17F, 0xC0, 0xE0, 0x1E900, 0x1E922], ∀ x ∈ exOrbit r,
      (∀ y ∈ x :: exOrbit x, y ∈ r :: exOrbit r) ∧ (∀ y ∈ r :: exOrbit r, y ∈ x :: exOrbit x) ∧ validRune x = true := by
    decide +kernel
  have mem : ∀ r x, x ∈ exOrbit r → r ∈ List.range 128 ++ [0x212A, 0x17F, 0xC0, 0xE0, 0x1E900, 0x1E922] := by
    intro r x hx
    unfold exOrbit at hx
    split at hx
    · rename_i h
      exact List.mem_append_left _ (List.mem_range.mpr h)
    · refine List.mem_append_right _ ?_
      repeat' (split at hx; · rename_i h; subst h; decide)
      cases hx
  refine ⟨exOrbit_ascii, fun r x hx y => ?_, fun r x _ hx => (key r (mem r x hx) x hx).2.2⟩
  obtain ⟨h1, h2, _⟩ := key r (mem r x hx) x hx
  rw [← List.mem_cons, ← List.mem_cons]
  exact ⟨h1 y, h2 y⟩

/-- All hypotheses of the search that ignores case are met: the search for `A` reports both lines. -/
example : ∃ (c : Compiled Query) (ix : IndexView Query),
    Reports (search (fun _ => some c) goQuoteMeta ix b!"a" { literalSearch := true, ignoreCase := true }) b!"f" 1 b!"xaB" ∧
    Reports (search (fun _ => some c) goQuoteMeta ix b!"a" { literalSearch := true, ignoreCase := true }) b!"f" 2 b!"xA.b" := by
  have hv : ∀ r ∈ ([97] : List Rune), validRune r = true := by decide
  have hle : ∀ r ∈ ([97] : List Rune), r ≤ 0x1044f ∨ exOrbit r = [] := by decide
  have hq := goParse_quoted (orbit := exOrbit) true hv
  have hp : compileLit exOrbit (quotedRe exOrbit true [97]) =
    some { inst := [.fail, .rune [65] true 2, .accept], start := 1 } := by decide
  obtain ⟨c, hc⟩ := text_compiled hq hp exOrbit_ascii (quoted_insts true hv (fun _ => ⟨exOrbit_classes, hle⟩) hp).1
    (by decide +kernel)
  obtain ⟨ix, files, answers, hix, hfiles⟩ := literal_example_index
  have use := fun s e (hline : LineAt b!"xaB\nxA.b\n" s e) hs =>
    literal_search_fold_partial (compile := fun _ => some c) (pat := b!"a") (opt := { literalSearch := true, ignoreCase := true })
      (grow := goGrow) exOrbit_classes rfl rfl ⟨rfl, rfl, by decide, by decide, by decide⟩ rfl hc hix
      (by rw [hfiles]; intro f hf g hg _; rw [List.mem_singleton] at hf hg; rw [hf, hg])
      (name := b!"f") (content := b!"xaB\nxA.b\n") (by rw [hfiles]; simp) hline hs (rs := [97]) ⟨hv, by decide⟩ hle
  refine ⟨c, ix, ?_, ?_⟩
  · exact (use 0 3 (by unfold LineAt; decide) (by decide)).mpr
      ⟨b!"a", [97], ⟨by decide, by decide⟩, ⟨.inl rfl, trivial⟩, ⟨b!"x", b!"B", by decide⟩⟩
  · exact (use 4 8 (by unfold LineAt; decide) (by decide)).mpr
      ⟨b!"A", [65], ⟨by decide, by decide⟩, ⟨.inr (by decide), trivial⟩, ⟨b!"x", b!".b", by decide⟩⟩

/-- All hypotheses are met: the search for `A.` reports the second line and not the first. -/
example : ∃ (c : Compiled Query) (ix : IndexView Query),
    Reports (search (fun _ => some c) goQuoteMeta ix b!"A." { literalSearch := true }) b!"f" 2 b!"xA.b" ∧
    ¬ Reports (search (fun _ => some c) goQuoteMeta ix b!"A." { literalSearch := true }) b!"f" 1 b!"xaB" := by
  have hv : ∀ r ∈ ([65, 46] : List Rune), validRune r = true := by decide
  have hq := goParse_quoted (orbit := exOrbit) false hv
  have hp : compileLit exOrbit (quotedRe exOrbit false [65, 46]) =
    some { inst := [.fail, .rune1 65 2, .rune1 46 3, .accept], start := 1 } := by decide
  obtain ⟨c, hc⟩ := text_compiled hq hp exOrbit_ascii (quoted_insts false hv (by intro h; cases h) hp).1 (by decide +kernel)
  obtain ⟨ix, files, answers, hix, hfiles⟩ := literal_example_index
  have use := fun s e (hline : LineAt b!"xaB\nxA.b\n" s e) hs =>
    literal_search (compile := fun _ => some c) (pat := b!"A.") (opt := { literalSearch := true }) (grow := goGrow)
      exOrbit_ascii rfl rfl ⟨rfl, rfl, by decide, by decide, by decide⟩ rfl hc hix
      (by rw [hfiles]; intro f hf g hg _; rw [List.mem_singleton] at hf hg; rw [hf, hg])
      (name := b!"f") (content := b!"xaB\nxA.b\n") (by rw [hfiles]; simp) hline hs
  refine ⟨c, ix, ?_, ?_⟩
  · exact (use 4 8 (by unfold LineAt; decide) (by decide)).mpr ⟨b!"x", b!"b", by decide⟩
  · intro h
    obtain ⟨a, b, hab⟩ := (use 0 3 (by unfold LineAt; decide) (by decide)).mp h
    have : (46 : UInt8) ∈ slice b!"xaB\nxA.b\n" 0 3 := by rw [← hab]; simp
    revert this; decide

/-- The program of the folded letter U+1E900. -/
def adlamProg : Prog := { inst := [.fail, .rune [0x1E900] true 2, .accept], start := 1 }

/-- The full statement is false: a search for U+1E900 that ignores case does not find U+1E922, its lower case. -/
theorem not_literalFoldFull : ¬ LiteralFoldFull := by
  intro hfull
  have hv : ∀ r ∈ ([0x1E900] : List Rune), validRune r = true := by decide
  have hq := goParse_quoted (orbit := exOrbit) true hv
  have hp : compileLit exOrbit (quotedRe exOrbit true [0x1E900]) = some adlamProg := by decide
  have hb : ((toByteProg exOrbit adlamProg).map fun q =>
      (decide (q.start < q.inst.length) && decide (q.inst.length < 2 ^ 32)) && targetsOK q) = some true := by decide +kernel
  have hrun : ((toByteProg exOrbit adlamProg).bind fun q => (Matcher.init q).bind fun M =>
      (M.run q (encodeRaw 0x1E922) true true).map (·.2)) = some none := by decide +kernel
  cases h : toByteProg exOrbit adlamProg with
  | none => rw [h] at hb; cases hb
  | some q =>
  rw [h] at hb hrun
  simp only [Option.map_some, Option.some.injEq, Bool.and_eq_true, decide_eq_true_eq] at hb
  have hok : ProgOK q := by
    refine ⟨hb.1.1, hb.1.2, ?_⟩
    intro j hj t htt
    have := List.all_eq_true.mp hb.2 j hj
    exact of_decide_eq_true (List.all_eq_true.mp this t htt)
  obtain ⟨mt, hmt⟩ := exists_matcherOf hok
  -- the matcher does not find the lower case letter
  have hnone : mt (encodeRaw 0x1E922) = none := by
    classical
    obtain ⟨M, hM, _⟩ := matcher_total hok
    have hl := matcherOf_line hok hmt (encodeRaw 0x1E922) (by decide)
    rw [hl]
    cases hr : M.run q (encodeRaw 0x1E922) true true with
    | none => simp [hM, hr] at hrun
    | some x =>
      simp only [Option.bind_some, hM, hr, Option.map_some, Option.some.injEq] at hrun
      have h2 := match_first_line hok (history := []) hM rfl (r := x.2) (M'' := x.1) hr
        (acc := fun bot eot l => decide (Accepts q bot eot l)) (by intro bot eot l; simp)
      rw [← h2]
      exact hrun
  obtain ⟨ix, answers, hix, hfiles⟩ := exists_serves b!"f" (encodeRaw 0x1E922) (by decide) (by decide +kernel) (by decide) (by decide)
  have hrep := (hfull goGrow exOrbit [0x1E900] ⟨mt, (HInfo.regexpQuery goGrow exOrbit (quotedRe exOrbit true [0x1E900])).1⟩ ix _ answers
    (fun _ => some ⟨mt, (HInfo.regexpQuery goGrow exOrbit (quotedRe exOrbit true [0x1E900])).1⟩)
    (encodeRaw 0x1E900) { literalSearch := true, ignoreCase := true } b!"f" (encodeRaw 0x1E922) 0 4
    exOrbit_classes rfl rfl ⟨rfl, rfl, by decide, by decide, by decide⟩ rfl ⟨_, _, q, hq, hp, h, hb.1.2, hmt, rfl⟩ hix
    (by rw [hfiles]; intro f hf g hg _; rw [List.mem_singleton] at hf hg; rw [hf, hg])
    (by rw [hfiles]; simp) (by unfold LineAt; decide) (by decide) ⟨hv, by simp⟩).mpr
    ⟨encodeRaw 0x1E922, [0x1E922], ⟨by decide, by simp⟩, ⟨.inr (by decide), trivial⟩, ⟨[], [], by decide⟩⟩
  obtain ⟨r, hr, fm, hfm, hn, m, hm, _⟩ := hrep
  obtain ⟨_, re, _, hsound⟩ := search_sound_partial hr
  rename_i hcomp
  cases hcomp
  obtain ⟨i, _, hname, _, _, buf, hbuf, _⟩ := hsound fm hfm
  obtain ⟨re', fre, ex, st, hre, _, _, hst, rfl⟩ := search_unfold hr
  cases hre
  rcases searchLoop_sound _ _ _ _ _ _ _ _ hst fm hfm with h0 | ⟨j, _, _, _, _, _, buf', hbuf', hsub⟩
  · simp at h0
  have hraw : ix.raw b!"f" = some (encodeRaw 0x1E922) := by
    obtain ⟨_, _, _, _, _, _, _, _, _, hraw⟩ := hix
    exact hraw (b!"f", encodeRaw 0x1E922) (by rw [hfiles]; simp)
  rw [hn, hraw] at hbuf'
  cases hbuf'
  have he : grepAll mt 0 (encodeRaw 0x1E922) = [] := by
    unfold grepAll grep2
    rw [show (encodeRaw 0x1E922).length = 3 + 1 by decide, grep2Loop, if_neg (by decide), hnone]
  have := hsub.subset hm
  rw [show (grepAll _ _ _ : List LineMatch) = [] from he] at this
  cases this

end Hound
