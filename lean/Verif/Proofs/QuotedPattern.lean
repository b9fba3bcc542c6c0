import Verif.Props.Literal
import Verif.Props.Pattern

/-! # A quoted text is a pattern, with one part for each character -/

namespace Hound.GoRe
open Spec Spec.Pat

/-- A character as `regexp.QuoteMeta` writes it. -/
def quotedChar (r : Nat) : Written := if r < 128 ∧ UInt8.ofNat r ∈ metaBytes then .punct (UInt8.ofNat r) else .plain r

/-- The parts of a quoted text. -/
def quotedSeq : List Rune → Seq
  | [] => .nil
  | r :: rs => .cons (.once (.char (quotedChar r))) (quotedSeq rs)

/-- A quoted text as a pattern. -/
def quotedAlts (rs : List Rune) : Alts := .one (quotedSeq rs)

theorem quotedChar_rune (r : Nat) : (quotedChar r).rune = r := by
  unfold quotedChar
  split
  · rename_i h
    simp only [Written.rune]
    exact toNat_ofNat_lt (by omega)
  · rfl

theorem quotedChar_text {r : Nat} (hv : r ≤ 0x10FFFF) : (quotedChar r).text = goQuoteMeta (encodeRaw r) := by
  unfold quotedChar
  by_cases h1 : r < 128
  · have he : encodeRaw r = [UInt8.ofNat r] := by rw [encodeRaw_nat, if_pos h1]
    by_cases h2 : UInt8.ofNat r ∈ metaBytes
    · rw [if_pos ⟨h1, h2⟩, he, goQuoteMeta, if_pos h2]; rfl
    · rw [if_neg (fun h => h2 h.2), he, goQuoteMeta, if_neg h2, goQuoteMeta, ← he]; rfl
  · rw [if_neg (fun h => h1 h.1), goQuoteMeta_high]
    · rfl
    · intro x hx
      rcases encodeRaw_high (by omega) x hx with h | h <;> omega

theorem validRune_le {r : Nat} (h : validRune r = true) : r ≤ 0x10FFFF := by
  have hv : r < 0xD800 ∨ (0xE000 ≤ r ∧ r ≤ 0x10FFFF) := by
    simpa [validRune, Bool.or_eq_true, Bool.and_eq_true] using h
  omega

theorem quotedSeq_text : ∀ {rs : List Rune}, (∀ r ∈ rs, validRune r = true) → (quotedSeq rs).text = goQuoteMeta (rs.flatMap encodeRaw)
  | [], _ => rfl
  | r :: rs, h => by
    rw [quotedSeq, Seq.text, Piece.text, Atom.text, quotedChar_text (validRune_le (h r List.mem_cons_self)),
      quotedSeq_text fun x hx => h x (List.mem_cons_of_mem _ hx), List.flatMap_cons, goQuoteMeta_append]

/-- It is written as the quoted text. -/
theorem quotedAlts_text {rs : List Rune} (h : ∀ r ∈ rs, validRune r = true) : (quotedAlts rs).text = goQuoteMeta (rs.flatMap encodeRaw) :=
  quotedSeq_text h

theorem special_meta : ∀ r ∈ special, r < 128 ∧ UInt8.ofNat r ∈ metaBytes := by decide

theorem quotedChar_ok {uni : Bytes → Option (Rune → Prop)} {r : Nat} (hv : validRune r = true) (next : Bytes) :
    Atom.Ok uni next (.char (quotedChar r)) := by
  unfold quotedChar
  split
  · rename_i h
    refine ⟨?_, fun x hx => by cases hx⟩
    have : ∀ b ∈ metaBytes, b < 128 ∧ Spec.Pat.isAlnum b = false := by decide
    exact this _ h.2
  · rename_i h
    refine ⟨hv, fun x hx => ?_⟩
    cases hx
    refine ⟨fun hs => h (special_meta _ hs), fun h123 => ?_⟩
    subst h123
    exact absurd ⟨by decide, by decide⟩ h

theorem quotedSeq_ok {uni : Bytes → Option (Rune → Prop)} : ∀ {rs : List Rune}, (∀ r ∈ rs, validRune r = true) → ∀ next, (quotedSeq rs).Ok uni next
  | [], _, _ => trivial
  | r :: rs, h, next => by
    rw [quotedSeq, Seq.Ok, Piece.Ok]
    exact ⟨quotedChar_ok (h r List.mem_cons_self) _, quotedSeq_ok (fun x hx => h x (List.mem_cons_of_mem _ hx)) next⟩

/-- It is properly written. -/
theorem quotedAlts_ok {uni : Bytes → Option (Rune → Prop)} {rs : List Rune} (h : ∀ r ∈ rs, validRune r = true) : (quotedAlts rs).Ok uni [] :=
  quotedSeq_ok h []

theorem quotedSeq_copies : ∀ rs : List Rune, (quotedSeq rs).copies = 1
  | [] => rfl
  | r :: rs => by rw [quotedSeq, Seq.copies, Piece.copies, Atom.copies, quotedSeq_copies rs]; simp; simp

theorem quotedSeq_forks : ∀ rs : List Rune, ¬ (quotedSeq rs).Forks
  | [] => id
  | r :: rs => by
    rw [quotedSeq, Seq.Forks, Piece.Forks, Atom.Forks]
    · rintro (h | h)
      · exact h
      · exact quotedSeq_forks rs h
    · intro _ _ h; cases h

theorem quotedSeq_starts (m : Mode) : ∀ rs : List Rune, ¬ Seq.Starts m (quotedSeq rs)
  | [] => id
  | r :: rs => by
    rw [quotedSeq, Seq.Starts, Piece.Starts, Atom.Starts]
    · rintro (h | h)
      · exact h
      · exact quotedSeq_starts m rs h
    all_goals (intros; rename_i h; cases h)

theorem quotedSeq_all {orbit : Rune → List Rune} {uni : Bytes → Option (Rune → Prop)} {okChar : Bool → Rune → Prop} {okSet : Bool → (Rune → Prop) → Prop}
    (m : Mode) : ∀ {rs : List Rune}, (∀ r ∈ rs, okChar m.caseless r) → Seq.All orbit uni okChar okSet m (quotedSeq rs)
  | [], _ => trivial
  | r :: rs, h => by
    rw [quotedSeq, Seq.All, Piece.All, Atom.All, quotedChar_rune]
    exact ⟨h r List.mem_cons_self, quotedSeq_all m fun x hx => h x (List.mem_cons_of_mem _ hx)⟩

theorem oneOf_folds {orbit : Rune → List Rune} {caseless : Bool} {c : Rune} {w : Bytes} {i k : Nat} :
    OneOf (WithCase orbit caseless (· = c)) w i k ↔ ∃ r', FoldsTo orbit caseless c r' ∧ RuneAt w r' i k := by
  unfold OneOf WithCase FoldsTo
  constructor
  · rintro ⟨r, h, hr⟩
    refine ⟨r, h.imp id ?_, hr⟩
    rintro ⟨h1, y, rfl, h2⟩
    exact ⟨h1, h2⟩
  · rintro ⟨r, h, hr⟩
    exact ⟨r, h.imp id fun h => ⟨h.1, c, rfl, h.2⟩, hr⟩

theorem quotedSeq_means {orbit : Rune → List Rune} {uni : Bytes → Option (Rune → Prop)} {w : Bytes} {m : Mode} : ∀ {rs : List Rune} {i j : Nat},
    Seq.Means orbit uni w m (quotedSeq rs) i j ↔ LitAt orbit m.caseless w rs i j
  | [], i, j => Iff.rfl
  | r :: rs, i, j => by
    rw [quotedSeq, Seq.Means, LitAt]
    constructor
    · rintro ⟨k, h1, h2⟩
      rw [Piece.Means, Atom.Means, quotedChar_rune, oneOf_folds] at h1
      obtain ⟨r', h3, h4⟩ := h1
      exact ⟨r', k, h3, h4, quotedSeq_means.1 h2⟩
    · rintro ⟨r', k, h3, h4, h2⟩
      refine ⟨k, ?_, quotedSeq_means.2 h2⟩
      rw [Piece.Means, Atom.Means, quotedChar_rune, oneOf_folds]
      exact ⟨r', h3, h4⟩

/-- It matches where the text stands, or one that differs from it only in case if case does not matter. -/
theorem quotedAlts_within {orbit : Rune → List Rune} {uni : Bytes → Option (Rune → Prop)} {m : Mode} {rs : List Rune} {w : Bytes} {s e : Nat}
    (hse : s ≤ e) (he : e ≤ w.length) :
    PatternWithin orbit uni m (quotedAlts rs) w s e ↔ ∃ xs : List Rune, Alike orbit m.caseless rs xs ∧
      (∀ x ∈ xs, validRune x = true) ∧ xs.flatMap encodeRaw <:+: slice w s e := by
  rw [← literal_within hse he]
  unfold PatternWithin MatchWithin quotedAlts
  simp only [Alts.Means, quotedSeq_means, MatchAt]

/-! ## The tree -/

section
variable (T : Tables)

/-- The tree of a quoted text. -/
def quotedSyn (fold : Bool) (rs : List Rune) : Syn :=
  if rs = [] then .emptyMatch else .literal (if fold then rs.map (minFoldRune T.orbit) else rs) fold

/-- The stack, with two literals on top made one, when these characters have been read. -/
def quotedStack (fold : Bool) (rs : List Rune) : Stack :=
  if rs = [] then [] else [.re (.literal (if fold then rs.map (minFoldRune T.orbit) else rs) fold)]

theorem quotedStack_push (fl : PFlags) (rs : List Rune) (r : Rune) {st : Stack} (h : maybeConcat st = quotedStack T fl.fold rs) :
    maybeConcat (pushLiteral T fl r st) = quotedStack T fl.fold (rs ++ [r]) := by
  unfold pushLiteral push
  rw [h]
  unfold quotedStack
  by_cases h0 : rs = []
  · subst h0
    cases hf : fl.fold <;> rfl
  · have h1 : rs ++ [r] ≠ [] := by simp
    rw [if_neg h0, if_neg h1]
    have e : ∀ x f, asLiteral T (.literal x f) = .literal x f := fun _ _ => rfl
    rw [e, maybeConcat, if_pos rfl]
    cases hf : fl.fold
    · rfl
    · simp

theorem quotedSeq_loop {uni : Bytes → Option (Rune → Prop)} : ∀ {rs : List Rune}, (∀ r ∈ rs, validRune r = true) → ∀ {fuel : Nat} {st : PState} {before : List Rune},
    (quotedSeq rs).text.length ≤ fuel → maybeConcat st.stack = quotedStack T st.flags.fold before →
    ∃ st', parseLoop T fuel st (quotedSeq rs).text = .ok st' ∧ maybeConcat st'.stack = quotedStack T st.flags.fold (before ++ rs)
  | [], _, fuel, st, before, _, h => ⟨st, parseLoop_nil fuel st, by rw [List.append_nil]; exact h⟩
  | r :: rs, hv, fuel, st, before, hl, h => by
    obtain ⟨h1, h2⟩ := quotedChar_ok (uni := uni) (hv r List.mem_cons_self) (quotedSeq rs).text
    obtain ⟨b, t, e, hle, hs⟩ := step_written (T := T) h1 h2 st
    have et : (quotedSeq (r :: rs)).text = b :: t := by rw [quotedSeq, Seq.text, Piece.text, Atom.text]; exact e
    rw [et] at hl ⊢
    cases fuel with
    | zero => simp at hl
    | succ fuel =>
      rw [parseLoop, hs]
      simp only [List.length_cons, Nat.add_le_add_iff_right] at hl
      rw [quotedChar_rune]
      obtain ⟨st', k1, k2⟩ := quotedSeq_loop (uni := uni) (fun x hx => hv x (List.mem_cons_of_mem _ hx)) (fuel := fuel) (st := st.char T r) (before := before ++ [r])
        (by omega) (quotedStack_push T st.flags before r h)
      exact ⟨st', k1, by rw [k2, List.append_assoc]; rfl⟩

theorem closeGroup_quoted {fold : Bool} {rs : List Rune} {st : Stack} (h : maybeConcat st = quotedStack T fold rs) :
    closeGroup T st = [.re (quotedSyn T fold rs)] := by
  unfold closeGroup concatTop
  rw [h]
  unfold quotedStack quotedSyn
  by_cases h0 : rs = []
  · rw [if_pos h0, if_pos h0]; rfl
  · rw [if_neg h0, if_neg h0]; rfl

end

/-- What a quoted text is parsed to, behind the flags of a search. -/
theorem parse_quoted (T : Tables) (opt : SearchOptions) {rs : List Rune} (hv : ∀ r ∈ rs, validRune r = true) (hl : opt.literalSearch = true) :
    parse T (fullPattern goQuoteMeta (rs.flatMap encodeRaw) opt) = .ok (quotedSyn T opt.ignoreCase rs) := by
  rw [fullPattern_literal hl, ← quotedSeq_text hv]
  have key : ∀ (n : Nat) (fl : PFlags) (k : Nat) (last : Bool), (quotedSeq rs).text.length ≤ n → ∃ st',
      parseLoop T n ⟨fl, [], k, last⟩ (quotedSeq rs).text = .ok st' ∧ maybeConcat st'.stack = quotedStack T fl.fold rs := by
    intro n fl k last hn
    exact quotedSeq_loop T (uni := fun _ => none) hv (st := ⟨fl, [], k, last⟩) (before := []) hn rfl
  generalize (quotedSeq rs).text = t at *
  have fin : ∀ {b : Bytes} {st : PState}, parseLoop T b.length { flags := perlFlags0 } b = .ok st →
      maybeConcat st.stack = quotedStack T opt.ignoreCase rs → parse T b = .ok (quotedSyn T opt.ignoreCase rs) := by
    intro b st h1 h2
    rw [parse, h1]
    simp only
    rw [closeGroup_quoted T h2]
  cases hi : opt.ignoreCase with
  | false =>
    have hs : ∀ t', parseLoop T (b!"(?m)" ++ t').length { flags := perlFlags0 } (b!"(?m)" ++ t') =
        parseLoop T (t'.length + 3) ⟨{ fold := false, oneLine := false, dotNL := false, nonGreedy := false }, [], 0, false⟩ t' := fun _ => rfl
    obtain ⟨st', k1, k2⟩ := key (t.length + 3) { fold := false, oneLine := false, dotNL := false, nonGreedy := false } 0 false (by omega)
    rw [hi] at fin
    exact fin ((hs t).trans k1) k2
  | true =>
    have hs : ∀ t', parseLoop T (b!"(?i)" ++ (b!"(?m)" ++ t')).length { flags := perlFlags0 } (b!"(?i)" ++ (b!"(?m)" ++ t')) =
        parseLoop T (t'.length + 6) ⟨{ fold := true, oneLine := false, dotNL := false, nonGreedy := false }, [], 0, false⟩ t' := fun _ => rfl
    obtain ⟨st', k1, k2⟩ := key (t.length + 6) { fold := true, oneLine := false, dotNL := false, nonGreedy := false } 0 false (by omega)
    rw [hi] at fin
    exact fin ((hs t).trans k1) k2

/-- The options of a search, for a pattern that is to be taken as it is written. -/
def asPattern (opt : SearchOptions) : SearchOptions := { opt with literalSearch := false }

/-- What the search asks for, as a pattern. -/
def patternText (quoteMeta : Bytes → Bytes) (pat : Bytes) (opt : SearchOptions) : Bytes := if opt.literalSearch then quoteMeta pat else pat

theorem fullPattern_asPattern (quoteMeta : Bytes → Bytes) (pat : Bytes) (opt : SearchOptions) :
    fullPattern quoteMeta (patternText quoteMeta pat opt) (asPattern opt) = fullPattern quoteMeta pat opt := rfl

theorem searchLoop_asPattern {Q : Type} (opt : SearchOptions) (re : Compiled Q) (fre ex : Option (Compiled Q)) (ix : IndexView Q) :
    ∀ (fs : List Nat) (st : SearchState), searchLoop (asPattern opt) re fre ex ix fs st = searchLoop opt re fre ex ix fs st
  | [], _ => rfl
  | f :: fs, st => by
    rw [searchLoop, searchLoop, show searchFile (asPattern opt) re fre ex ix st f = searchFile opt re fre ex ix st f from rfl]
    cases searchFile opt re fre ex ix st f with
    | error e => rfl
    | ok st => exact searchLoop_asPattern opt re fre ex ix fs st

/-- A literal search is a search for the quoted text. -/
theorem search_asPattern {Q : Type} (compile : Bytes → Option (Compiled Q)) (quoteMeta : Bytes → Bytes) (ix : IndexView Q) (pat : Bytes) (opt : SearchOptions) :
    search compile quoteMeta ix (patternText quoteMeta pat opt) (asPattern opt) = search compile quoteMeta ix pat opt := by
  unfold search
  simp only [searchLoop_asPattern]
  rfl

end Hound.GoRe
