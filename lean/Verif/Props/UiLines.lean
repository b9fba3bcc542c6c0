import Verif.Proofs.UiLines
import Verif.Spec.Page
import Verif.Props.Coalesce

/-!
# C55: the lines the web page shows of a file (`ui/assets/js/hound.js`)
-/

namespace Hound.Ui
open Spec Client

theorem runOf_getElem {α : Type} {f : Int → α} {s : Int} {n i : Nat} (h : i < (runOf f s n).length) :
    (runOf f s n)[i] = f (s + i) := by
  simp [runOf]

theorem pageFor_of_inv {text : Int → Bytes} {ms : List LineMatch} {r : List Block} {c : Block}
    (hi : CInv text ms r c) : PageFor text ms ((r ++ [c]).map ofBlock) := by
  have hgood := hi.good
  have hapart := hi.apart
  have hcover := hi.cover
  generalize r ++ [c] = bs at *
  have hmem : ∀ l, l ∈ (bs.map ofBlock).flatten ↔ ∃ b ∈ bs, ∃ n, InBlock b n ∧ l = lineOf text (flag ms) n := by
    intro l
    simp only [List.mem_flatten, List.mem_map]
    constructor
    · rintro ⟨L, ⟨b, hb, rfl⟩, hl⟩
      rw [ofBlock_good (hgood b hb)] at hl
      simp only [runOf, List.mem_map, List.mem_range] at hl
      obtain ⟨i, hi, rfl⟩ := hl
      exact ⟨b, hb, b.start + i, ⟨by omega, by omega⟩, rfl⟩
    · rintro ⟨b, hb, n, ⟨h1, h2⟩, rfl⟩
      refine ⟨_, ⟨b, hb, rfl⟩, ?_⟩
      rw [ofBlock_good (hgood b hb)]
      simp only [runOf, List.mem_map, List.mem_range]
      exact ⟨(n - b.start).toNat, by omega, by congr 1; omega⟩
  refine ⟨?_, ?_, ?_, ?_, ?_⟩
  · intro L hL
    obtain ⟨b, hb, rfl⟩ := List.mem_map.1 hL
    have hg := hgood b hb
    rw [ofBlock_good hg]
    have hne := hg.ne
    refine ⟨fun h => ?_, fun i h => ?_⟩
    · have hl := congrArg List.length h
      rw [runOf_length, List.length_nil] at hl
      omega
    · simp only [runOf_getElem, lineOf]
      omega
  · clear hcover hmem
    induction bs with
    | nil => simp
    | cons b bs ih =>
      simp only [List.map_cons, List.flatten_cons, List.map_append]
      rw [List.pairwise_cons] at hapart
      refine List.pairwise_append.2 ⟨?_, ih (fun x hx => hgood x (by simp [hx])) hapart.2, ?_⟩
      · rw [ofBlock_good (hgood b (by simp))]
        refine List.pairwise_iff_getElem.2 fun i j h1 h2 hij => ?_
        simp only [List.getElem_map, runOf_getElem, lineOf]
        omega
      · intro x hx y hy
        rw [ofBlock_good (hgood b (by simp))] at hx
        simp only [runOf, List.map_map, List.mem_map, List.mem_range, Function.comp] at hx
        obtain ⟨i, hi1, rfl⟩ := hx
        simp only [List.mem_map, List.mem_flatten] at hy
        obtain ⟨l, ⟨L, ⟨b', hb', rfl⟩, hl⟩, rfl⟩ := hy
        rw [ofBlock_good (hgood b' (by simp [hb']))] at hl
        simp only [runOf, List.mem_map, List.mem_range] at hl
        obtain ⟨j, hj, rfl⟩ := hl
        have := hapart.1 b' hb'
        unfold endOfBlock at this
        simp only [lineOf]
        omega
  · intro l hl
    obtain ⟨b, hb, n, hn, rfl⟩ := (hmem l).1 hl
    rfl
  · intro n
    rw [← hcover n]
    constructor
    · rintro ⟨l, hl, rfl⟩
      obtain ⟨b, hb, k, hk, rfl⟩ := (hmem l).1 hl
      exact ⟨b, hb, hk⟩
    · rintro ⟨b, hb, hn⟩
      exact ⟨_, (hmem _).2 ⟨b, hb, n, hn, rfl⟩, rfl⟩
  · intro l hl
    obtain ⟨b, hb, n, hn, rfl⟩ := (hmem l).1 hl
    simp [lineOf, flag, List.any_eq_true]

/-- **C55**. For all matches of a file, in the order of the file, the page's script does not fail and shows exactly the
matched lines and their context: runs of consecutive lines, no line twice, each with its own number and text, and the
matched lines marked. -/
theorem page_lines_exact (text : Int → Bytes) (ms : List LineMatch) (hms : ∀ m ∈ ms, MatchOf text m)
    (hord : InFileOrder ms) (hpos : ∀ m ∈ ms, m.before.length ≤ m.lineno) :
    ∃ bs, coalesceMatches ms = some bs ∧ PageFor text ms bs := by
  rw [coalesceMatches_eq hms hord hpos]
  cases ms with
  | nil => exact ⟨[], rfl, by simp, by simp, by simp, by simp, by simp⟩
  | cons m ms =>
    obtain ⟨bs, hb, r, c, rfl, hi⟩ := cinv_loop ms [m] [] (matchToBlock m) (cinv_first (hms m (by simp)))
      (fun x hx => hms x (by simp [hx])) (by simpa using hord)
    refine ⟨(r ++ [c]).map ofBlock, ?_, pageFor_of_inv hi⟩
    show Option.map _ (coalesceLoop ms [] (some (matchToBlock m))) = _
    rw [hb]
    rfl

/-- **C55**, on what the server sends: for every file, pattern and number of context lines, and however many of the file's
matches are sent. -/
theorem page_lines_server {mt : Bytes → Option Nat} {acc : LineAcc} (hmt : IsLineMatcher mt acc)
    (nctx : Nat) (buf : Bytes) (ms : List LineMatch) (hpre : ms <+: grepAll mt nctx buf) :
    ∃ bs, coalesceMatches ms = some bs ∧ PageFor (fileText buf) ms bs := by
  refine page_lines_exact _ _ (fun m hm => grep_matchOf hmt nctx buf m (hpre.subset hm))
    ((grep_inFileOrder hmt nctx buf).sublist hpre.sublist) fun m hm => ?_
  obtain ⟨h1, hline, -⟩ := grep_match_is_a_line_partial hmt nctx buf m (hpre.subset hm)
  obtain ⟨-, hbef⟩ := grep_before_context_run hmt nctx buf m (hpre.subset hm)
  have := congrArg List.length hbef
  unfold takeLast at this
  rw [List.length_drop, List.length_take] at this
  omega

/-- The page and the command line client show the same lines. -/
theorem page_like_client (text : Int → Bytes) (ms : List LineMatch) (hms : ∀ m ∈ ms, MatchOf text m)
    (hord : InFileOrder ms) (hpos : ∀ m ∈ ms, m.before.length ≤ m.lineno) :
    ∃ bs ls, Client.coalesceMatches ms = some bs ∧ coalesceMatches ms = some ls ∧
      ls.map (·.map (·.content)) = bs.map (·.lines) := by
  obtain ⟨bs, hb, hB⟩ := coalesce_exact text ms hms hord
  refine ⟨bs, bs.map ofBlock, hb, by rw [coalesceMatches_eq hms hord hpos, hb]; rfl, ?_⟩
  rw [List.map_map]
  refine List.map_congr_left fun b hbm => ?_
  have hl := (hB.runs b hbm).2.1
  simp only [Function.comp, ofBlock]
  apply List.ext_getElem?
  intro i
  by_cases hi : i < b.lines.length
  · simp [hi, hl]
  · rw [List.getElem?_eq_none (by simp; omega), List.getElem?_eq_none (by omega)]

/-! ### Concrete instances -/

-- two matches whose contexts meet, one further down: two blocks
example : coalesceMatches (grepAll (exMt (exAcc 120)) 1 b!"a\nx1\nb\nx2\nc\nd\ne\nx3\nf") =
    some [[⟨1, b!"a", false⟩, ⟨2, b!"x1", true⟩, ⟨3, b!"b", false⟩, ⟨4, b!"x2", true⟩, ⟨5, b!"c", false⟩],
      [⟨7, b!"e", false⟩, ⟨8, b!"x3", true⟩, ⟨9, b!"f", false⟩]] := by decide
-- the second match lies in the After context of the first
example : coalesceMatches (grepAll (exMt (exAcc 120)) 2 b!"a\nx1\nx2\nb\nc\nd") =
    some [[⟨1, b!"a", false⟩, ⟨2, b!"x1", true⟩, ⟨3, b!"x2", true⟩, ⟨4, b!"b", false⟩, ⟨5, b!"c", false⟩]] := by decide
-- out of order the script fails: the order matters
example : coalesceMatches [⟨b!"x2", 5, [], []⟩, ⟨b!"x1", 2, [], [b!"a"]⟩] = none := by decide

end Hound.Ui
