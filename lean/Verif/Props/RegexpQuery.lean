import Verif.Proofs.RegexpQuery
import Verif.Proofs.HeapAnalyze
import Verif.Proofs.HeapExample
import Verif.Proofs.HeapGood

/-!
# C09: the trigram query of a pattern accepts every text that matches the pattern

`HInfo.regexpQuery grow orbit re` is the model of `index.RegexpQuery` that keeps Go's slices: which
backing array each string set uses, and whether an `append` happens in place.  Its second component
says whether one of the two unsafe appends in `alternate` happened in place.
`grow old needed` is the capacity the Go runtime chooses when it reallocates (any function).
-/

namespace Hound
open Spec Query

variable {grow : Nat → Nat → Nat} {orbit : Rune → List Rune}

/-- **C09**, the full claim: if a text contains a match of the pattern, the trigrams of the text
satisfy the query computed for the pattern. -/
def RegexpQueryFull (grow : Nat → Nat → Nat) : Prop :=
  ∀ (orbit : Rune → List Rune) (re : Re) (w : Bytes), Matches orbit re w →
    Sat (HasTrigram w) (HInfo.regexpQuery grow orbit re).1

/-- Proved part of C09: when no set was overwritten in place by `alternate` (flag down), every text
with a match satisfies the query — for any pattern, any text and any slice growth policy. What is
missing is exactly the case of `not_regexpQueryFull`. -/
theorem regexpQuery_sound_partial {re : Re} {w : Bytes}
    (hz : (HInfo.regexpQuery grow orbit re).2 = false) (hm : Matches orbit re w) :
    Sat (HasTrigram w) (HInfo.regexpQuery grow orbit re).1 := by
  rw [regexpQuery_refines hz]
  exact regexpQuery_sound hm (fun _ h => h)

/-- C09 holds without proviso for every pattern without the alternation operator: the query accepts
every text with a match. -/
theorem regexpQuery_sound_noAlternate {re : Re} {w : Bytes} (h : NoAlternate re)
    (hm : Matches orbit re w) : Sat (HasTrigram w) (HInfo.regexpQuery grow orbit re).1 :=
  regexpQuery_sound_partial (regexpQuery_noalt h) hm

/-- The computation C09 is about, as it would be if the sets were values (that is, if `alternate`
copied before it appends): then C09 holds for every pattern. -/
theorem regexpQuery_sound_values {re : Re} {w : Bytes} (hm : Matches orbit re w) :
    Sat (HasTrigram w) (RegexpInfo.regexpQuery orbit re) :=
  regexpQuery_sound hm (fun _ h => h)

/-- The query never contains an AND node without operands (which `PostingQuery` would answer with no
file at all). -/
theorem regexpQuery_noEmptyAnd {re : Re} : NoEmptyAnd (HInfo.regexpQuery grow orbit re).1 :=
  (HInfo.regexpQuery_good re).2.1

/-- Every trigram of the query has three bytes (`PostingQuery` would panic on a shorter one). -/
theorem regexpQuery_threeByte {re : Re} : ThreeByte (HInfo.regexpQuery grow orbit re).1 :=
  (HInfo.regexpQuery_good re).2.2

/-! ## Examples and the counterexample -/

mutual
/-- `Sat` for the trigrams of `w`, computed. -/
def satB (w : Bytes) : Query → Bool
  | .mk .all _ _ => true
  | .mk .none _ _ => false
  | .mk .and tri sub => tri.all (fun t => (windows3 w).contains t) && satBAll w sub
  | .mk .or tri sub => tri.any (fun t => (windows3 w).contains t) || satBAny w sub
def satBAll (w : Bytes) : List Query → Bool
  | [] => true
  | q :: qs => satB w q && satBAll w qs
def satBAny (w : Bytes) : List Query → Bool
  | [] => false
  | q :: qs => satB w q || satBAny w qs
end

mutual
theorem satB_iff {w : Bytes} : ∀ q : Query, satB w q = true ↔ Sat (HasTrigram w) q
  | .mk .all _ _ => by simp [satB, Sat]
  | .mk .none _ _ => by simp [satB, Sat]
  | .mk .and tri sub => by simp [satB, Sat, satBAll_iff sub, ← mem_windows3]
  | .mk .or tri sub => by simp [satB, Sat, satBAny_iff sub, ← mem_windows3]
theorem satBAll_iff {w : Bytes} : ∀ qs : List Query, satBAll w qs = true ↔ SatAll (HasTrigram w) qs
  | [] => by simp [satBAll, SatAll]
  | q :: qs => by simp [satBAll, SatAll, satB_iff q, satBAll_iff qs]
theorem satBAny_iff {w : Bytes} : ∀ qs : List Query, satBAny w qs = true ↔ SatAny (HasTrigram w) qs
  | [] => by simp [satBAny, SatAny]
  | q :: qs => by simp [satBAny, SatAny, satB_iff q, satBAny_iff qs]
end

theorem badRe_matches : Matches (fun _ => []) badRe b!"xxd-e" := by
  refine ⟨0, 5, by decide, ?_⟩
  simp only [badRe, MatchAt, ConcatAt, AlternateAt, LitAt]
  refine ⟨2, ⟨120, 1, Or.inl rfl, (by unfold RuneAt; decide), 120, 2, Or.inl rfl, (by unfold RuneAt; decide), rfl⟩,
    5, Or.inr (Or.inl ⟨3, ⟨100, 3, Or.inl rfl, (by unfold RuneAt; decide), rfl⟩, 4,
      ⟨1, 4, ⟨45, by decide, (by unfold RuneAt; decide)⟩, rfl⟩, 5,
      ⟨101, 5, Or.inl rfl, (by unfold RuneAt; decide), rfl⟩, rfl⟩), rfl⟩

attribute [local irreducible] HInfo.regexpQuery

/-- C09 does not hold: with Go's slice growth, the pattern `xx([abc]|d.*e)` matches the text `xxd-e`,
but the query asks for one of `xxa`, `xxb`, `xxc`, `xxe`. -/
theorem not_regexpQueryFull : ¬ RegexpQueryFull goGrow := by
  intro h
  have h1 := h (fun _ => []) badRe b!"xxd-e" badRe_matches
  rw [badRe_query] at h1
  have h2 := (satB_iff _).2 h1
  exact absurd h2 (by decide)

/-- The hypotheses of `regexpQuery_sound_partial` are met by a pattern with `|`: `foo(bar|.*)`. -/
example : (HInfo.regexpQuery goGrow (fun _ => []) okRe).2 = false := by rw [okRe_query]
example : Matches (fun _ => []) okRe b!"foobar" := by
  refine ⟨0, 6, by decide, ?_⟩
  simp only [okRe, MatchAt, ConcatAt, AlternateAt, LitAt]
  exact ⟨3, ⟨102, 1, Or.inl rfl, (by unfold RuneAt; decide), 111, 2, Or.inl rfl, (by unfold RuneAt; decide),
    111, 3, Or.inl rfl, (by unfold RuneAt; decide), rfl⟩,
    6, Or.inl ⟨98, 4, Or.inl rfl, (by unfold RuneAt; decide), 97, 5, Or.inl rfl, (by unfold RuneAt; decide),
      114, 6, Or.inl rfl, (by unfold RuneAt; decide), rfl⟩, rfl⟩

example : NoAlternate (.concat [.literal [102, 111, 111] true, .quest (.charClass [(97, 99)])]) := by
  simp [NoAlternate, NoAlternateL]

end Hound
