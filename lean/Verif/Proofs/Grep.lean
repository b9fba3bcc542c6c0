import Verif.Model.Grep
import Verif.Spec.Lines

namespace Hound
open Spec

/-! ## index helpers -/

theorem indexByte_append_of_not_mem {a : Bytes} (b : Bytes) {c : UInt8} (h : c ∉ a) :
    indexByte (a ++ c :: b) c = some a.length := by
  induction a with
  | nil => simp [indexByte]
  | cons x a ih =>
    simp only [List.mem_cons, not_or] at h
    have : ¬ x = c := fun e => h.1 e.symm
    simp [indexByte, this, ih h.2]

theorem indexByte_none {a : Bytes} {c : UInt8} (h : c ∉ a) : indexByte a c = none := by
  induction a with
  | nil => simp [indexByte]
  | cons x a ih =>
    simp only [List.mem_cons, not_or] at h
    have : ¬ x = c := fun e => h.1 e.symm
    simp [indexByte, this, ih h.2]

theorem lastIndexByte_none {a : Bytes} {c : UInt8} (h : c ∉ a) : lastIndexByte a c = none := by
  induction a with
  | nil => simp [lastIndexByte]
  | cons x a ih =>
    simp only [List.mem_cons, not_or] at h
    have : ¬ x = c := fun e => h.1 e.symm
    simp [lastIndexByte, this, ih h.2]

theorem lastIndexByte_append {c : UInt8} (a b : Bytes) (h : c ∉ b) :
    lastIndexByte (a ++ c :: b) c = some a.length := by
  induction a with
  | nil => simp [lastIndexByte, lastIndexByte_none h]
  | cons x a ih => simp [lastIndexByte, ih]

/-! ## pieces -/

/-- Join pieces with newlines. -/
def unpieces : List Bytes → Bytes
  | [] => []
  | [p] => p
  | p :: q :: ps => p ++ NL :: unpieces (q :: ps)

/-- Each piece followed by a newline. -/
def nlTerm : List Bytes → Bytes
  | [] => []
  | p :: ps => p ++ NL :: nlTerm ps

theorem pieces_ne_nil (b : Bytes) : pieces b ≠ [] := by
  cases b with
  | nil => simp [pieces]
  | cons c cs =>
    simp only [pieces]
    split
    · simp
    · split <;> simp

theorem pieces_nlfree (b : Bytes) : ∀ p ∈ pieces b, NL ∉ p := by
  induction b with
  | nil => simp [pieces]
  | cons c cs ih =>
    intro p hp
    simp only [pieces] at hp
    split at hp
    · rename_i hc
      simp only [List.mem_cons] at hp
      rcases hp with rfl | hp
      · simp
      · exact ih p hp
    · rename_i hc
      split at hp
      · rename_i he; exact absurd he (pieces_ne_nil cs)
      · rename_i l ls he
        simp only [List.mem_cons] at hp
        rcases hp with rfl | hp
        · have := ih l (by simp [he])
          simp only [List.mem_cons, not_or]
          exact ⟨fun e => hc e.symm, this⟩
        · exact ih p (by simp [he, hp])

theorem unpieces_cons {p : Bytes} {ps : List Bytes} (h : ps ≠ []) :
    unpieces (p :: ps) = p ++ NL :: unpieces ps := by
  cases ps with
  | nil => exact absurd rfl h
  | cons q ps => rfl

theorem unpieces_pieces (b : Bytes) : unpieces (pieces b) = b := by
  induction b with
  | nil => simp [pieces, unpieces]
  | cons c cs ih =>
    simp only [pieces]
    split
    · rename_i hc
      rw [unpieces_cons (pieces_ne_nil cs), ih]; simp [hc]
    · split
      · rename_i he; exact absurd he (pieces_ne_nil cs)
      · rename_i l ls he
        rw [he] at ih
        cases ls with
        | nil => simp [unpieces] at ih ⊢; exact ih
        | cons q qs => simp [unpieces] at ih ⊢; exact ih

theorem pieces_append_nl {p : Bytes} (h : NL ∉ p) (b : Bytes) :
    pieces (p ++ NL :: b) = p :: pieces b := by
  induction p with
  | nil => simp [pieces]
  | cons c p ih =>
    simp only [List.mem_cons, not_or] at h
    have hc : ¬ c = 10 := fun e => h.1 e.symm
    simp [pieces, hc, ih h.2]

theorem pieces_of_nlfree {p : Bytes} (h : NL ∉ p) : pieces p = [p] := by
  induction p with
  | nil => simp [pieces]
  | cons c p ih =>
    simp only [List.mem_cons, not_or] at h
    have hc : ¬ c = 10 := fun e => h.1 e.symm
    simp [pieces, hc, ih h.2]

theorem pieces_unpieces {ps : List Bytes} (hne : ps ≠ []) (h : ∀ p ∈ ps, NL ∉ p) :
    pieces (unpieces ps) = ps := by
  induction ps with
  | nil => exact absurd rfl hne
  | cons p ps ih =>
    cases ps with
    | nil => exact pieces_of_nlfree (h p (by simp))
    | cons q ps =>
      rw [unpieces_cons (by simp), pieces_append_nl (h p (by simp)), ih (by simp)]
      intro r hr; exact h r (by simp [hr])

theorem unpieces_append {ps qs : List Bytes} (h : qs ≠ []) :
    unpieces (ps ++ qs) = nlTerm ps ++ unpieces qs := by
  induction ps with
  | nil => simp [nlTerm]
  | cons p ps ih =>
    rw [List.cons_append, unpieces_cons (by simp [h]), ih]; simp [nlTerm]

theorem nlTerm_append (ps qs : List Bytes) : nlTerm (ps ++ qs) = nlTerm ps ++ nlTerm qs := by
  induction ps with
  | nil => simp [nlTerm]
  | cons p ps ih => simp [nlTerm, ih]

theorem nlTerm_concat (ps : List Bytes) (p : Bytes) :
    nlTerm (ps ++ [p]) = unpieces (ps ++ [p]) ++ [NL] := by
  rw [nlTerm_append, unpieces_append (by simp)]; simp [nlTerm, unpieces]

/-- Drop a trailing empty piece. -/
def dropEmptyLast (ps : List Bytes) : List Bytes :=
  if ps.getLast? = some [] then ps.dropLast else ps

theorem lines_cons_ne (c : UInt8) (cs : Bytes) : lines (c :: cs) ≠ [] := by
  simp only [lines]; split
  · simp
  · split <;> simp

theorem lines_eq (b : Bytes) : lines b = dropEmptyLast (pieces b) := by
  induction b with
  | nil => simp [lines, pieces, dropEmptyLast]
  | cons c cs ih =>
    simp only [lines, pieces]
    split
    · rw [ih]
      rcases hp : pieces cs with _ | ⟨l, ls⟩
      · exact absurd hp (pieces_ne_nil cs)
      · by_cases h : (l :: ls).getLast? = some [] <;> simp [dropEmptyLast] at h ⊢ <;> simp [h]
    · rw [ih]
      rcases hp : pieces cs with _ | ⟨l, ls⟩
      · exact absurd hp (pieces_ne_nil cs)
      · cases ls with
        | nil =>
          by_cases h : l = []
          · simp [dropEmptyLast, h]
          · simp [dropEmptyLast, h]
        | cons m ms =>
          by_cases h : (m :: ms).getLast? = some [] <;> simp [dropEmptyLast] at h ⊢ <;> simp [h]

theorem pieces_unpieces_drop {post : List Bytes} (h : ∀ p ∈ post, NL ∉ p) :
    lines (unpieces post) = dropEmptyLast post := by
  cases post with
  | nil => simp [unpieces, lines, dropEmptyLast]
  | cons p ps => rw [lines_eq, pieces_unpieces (by simp) h]

/-! ## countLines -/

theorem countLinesAux_nlTerm (ps : List Bytes) (h : ∀ p ∈ ps, NL ∉ p) (fuel n : Nat)
    (hf : (nlTerm ps).length ≤ fuel) : countLinesAux fuel (nlTerm ps) n = n + ps.length := by
  induction ps generalizing fuel n with
  | nil => cases fuel <;> simp [countLinesAux, nlTerm, indexByte]
  | cons p ps ih =>
    cases fuel with
    | zero => simp [nlTerm] at hf
    | succ fuel =>
      simp only [countLinesAux, nlTerm]
      rw [indexByte_append_of_not_mem _ (h p (by simp))]
      simp only
      rw [show (p ++ NL :: nlTerm ps).drop (p.length + 1) = nlTerm ps by simp [List.drop_append]]
      rw [ih (fun q hq => h q (by simp [hq])) _ _ (by simp [nlTerm] at hf; omega)]
      simp; omega

theorem countLines_nlTerm {ps : List Bytes} (h : ∀ p ∈ ps, NL ∉ p) :
    countLines (nlTerm ps) = ps.length := by
  simp [countLines, countLinesAux_nlTerm ps h]

/-! ## firstNLines -/

theorem firstNLinesLoop_unpieces (n : Nat) (ps : List Bytes) (h : ∀ p ∈ ps, NL ∉ p) :
    firstNLinesLoop n (unpieces ps) = (dropEmptyLast ps).take n := by
  induction n generalizing ps with
  | zero => simp [firstNLinesLoop]
  | succ n ih =>
    cases ps with
    | nil => simp [unpieces, firstNLinesLoop, indexByte, dropEmptyLast]
    | cons p ps =>
      cases ps with
      | nil =>
        have hp := h p (by simp)
        by_cases he : p = []
        · subst he; simp [unpieces, firstNLinesLoop, indexByte, dropEmptyLast]
        · simp [unpieces, firstNLinesLoop, indexByte_none hp, he, dropEmptyLast]
      | cons q ps =>
        simp only [firstNLinesLoop]
        rw [unpieces_cons (by simp), indexByte_append_of_not_mem _ (h p (by simp))]
        simp only [List.take_left]
        rw [show (p ++ NL :: unpieces (q :: ps)).drop (p.length + 1) = unpieces (q :: ps) by
          simp [List.drop_append]]
        rw [ih _ (fun r hr => h r (by simp [hr]))]
        by_cases hl : (q :: ps).getLast? = some [] <;> simp [dropEmptyLast] at hl ⊢ <;> simp [hl]

theorem firstNLines_unpieces (n : Nat) {ps : List Bytes} (h : ∀ p ∈ ps, NL ∉ p) :
    firstNLines (unpieces ps) n = (dropEmptyLast ps).take n := by
  unfold firstNLines
  split
  · rename_i hc
    rcases hc with hc | hc
    · have he : unpieces ps = [] := List.length_eq_zero_iff.1 hc
      rw [← pieces_unpieces_drop h, he]; simp [lines]
    · simp [hc]
  · exact firstNLinesLoop_unpieces n ps h

/-! ## lastNLines -/

/-- Drop a leading empty piece. -/
def dropEmptyHead : List Bytes → List Bytes
  | [] :: ps => ps
  | ps => ps

theorem takeLast_all {α : Type} {n : Nat} {l : List α} (h : l.length ≤ n) : takeLast n l = l := by
  simp [takeLast, Nat.sub_eq_zero_of_le h]

theorem takeLast_concat {α : Type} (n : Nat) (l : List α) (x : α) :
    takeLast (n + 1) (l ++ [x]) = takeLast n l ++ [x] := by
  simp only [takeLast, List.length_append, List.length_singleton, Nat.add_sub_add_right]
  rw [List.drop_append_of_le_length (by omega)]

theorem lastNLinesLoop_unpieces (n : Nat) (ps : List Bytes) (acc : List Bytes)
    (h : ∀ p ∈ ps, NL ∉ p) :
    lastNLinesLoop n (unpieces ps) acc = takeLast n (dropEmptyHead ps) ++ acc := by
  induction n generalizing ps acc with
  | zero => simp [lastNLinesLoop, takeLast]
  | succ n ih =>
    rcases List.eq_nil_or_concat ps with rfl | ⟨qs, p, rfl⟩
    · simp [unpieces, lastNLinesLoop, lastIndexByte, dropEmptyHead, takeLast]
    · have hp : NL ∉ p := h p (by simp)
      have hqs : ∀ q ∈ qs, NL ∉ q := fun q hq => h q (by simp [hq])
      rcases List.eq_nil_or_concat qs with rfl | ⟨rs, q, rfl⟩
      · by_cases he : p = []
        · subst he; simp [unpieces, lastNLinesLoop, lastIndexByte, dropEmptyHead, takeLast]
        · have : dropEmptyHead [p] = [p] := by
            cases p with
            | nil => exact absurd rfl he
            | cons => rfl
          simp [unpieces, lastNLinesLoop, lastIndexByte_none hp, he, this, takeLast]
      · simp only [List.concat_eq_append] at *
        have e : unpieces (rs ++ [q] ++ [p]) = unpieces (rs ++ [q]) ++ NL :: p := by
          rw [unpieces_append (by simp), nlTerm_concat]; simp [unpieces]
        simp only [lastNLinesLoop]
        rw [e, lastIndexByte_append _ _ hp]
        simp only [List.take_left]
        rw [show (unpieces (rs ++ [q]) ++ NL :: p).drop ((unpieces (rs ++ [q])).length + 1) = p by
          simp [List.drop_append]]
        rw [ih _ _ hqs]
        have e2 : dropEmptyHead (rs ++ [q] ++ [p]) = dropEmptyHead (rs ++ [q]) ++ [p] := by
          cases rs with
          | nil => cases q <;> simp [dropEmptyHead]
          | cons r rs => cases r <;> simp [dropEmptyHead]
        rw [e2, takeLast_concat]; simp

theorem lastNLines_unpieces (n : Nat) {ps : List Bytes} (h : ∀ p ∈ ps, NL ∉ p) :
    lastNLines (unpieces ps) n = takeLast n (dropEmptyHead ps) := by
  unfold lastNLines
  split
  · rename_i hc
    rcases hc with hc | hc
    · have he : unpieces ps = [] := List.length_eq_zero_iff.1 hc
      have : dropEmptyHead ps = [] := by
        cases ps with
        | nil => rfl
        | cons p ps =>
          cases ps with
          | nil => simp [unpieces] at he; simp [he, dropEmptyHead]
          | cons q ps => rw [unpieces_cons (by simp)] at he; simp at he
      simp [this, takeLast]
    · simp [hc, takeLast]
  · rw [lastNLinesLoop_unpieces n ps [] h]; simp

theorem trimRightNL_line {p : Bytes} (h : NL ∉ p) : trimRightNL p = p := by
  unfold trimRightNL
  rcases List.eq_nil_or_concat p with rfl | ⟨q, c, rfl⟩
  · simp
  · have : c ≠ NL := fun e => h (by simp [e])
    simp [this]

theorem trimRightNL_line_nl {p : Bytes} (h : NL ∉ p) : trimRightNL (p ++ [NL]) = p := by
  have := trimRightNL_line h
  unfold trimRightNL at *
  simpa using this

end Hound

namespace Hound
open Spec

/-- Run a callback over a list of matches until it says stop. -/
def foldStop {σ : Type} (fn : σ → LineMatch → σ × Bool) : List LineMatch → σ → σ
  | [], st => st
  | m :: ms, st => if (fn st m).2 then foldStop fn ms (fn st m).1 else (fn st m).1

/-- Exact description of what `grep2` reports, over the pieces of the text. `seen` are the pieces
since the start or the last reported match, `n` the number of pieces before `ps`. -/
def hitsFrom (acc : LineAcc) (nctx : Nat) : List Bytes → List Bytes → Nat → List LineMatch
  | _, [], _ => []
  | seen, [p], n =>
    if p = [] ∧ seen = [] then []
    else if acc seen.isEmpty true p then
      [{ line := p, lineno := n + 1, before := takeLast nctx (dropEmptyHead seen), after := [] }]
    else []
  | seen, p :: q :: ps, n =>
    if acc seen.isEmpty false p then
      { line := p, lineno := n + 1, before := takeLast nctx (dropEmptyHead seen),
        after := (dropEmptyLast (q :: ps)).take nctx } :: hitsFrom acc nctx [] (q :: ps) (n + 1)
    else hitsFrom acc nctx (seen ++ [p]) (q :: ps) (n + 1)

theorem hits_step (acc : LineAcc) (nctx : Nat) (ps : List Bytes) (seen : List Bytes) (n off : Nat)
    (hx : ¬ (ps = [[]] ∧ seen = [])) (hne : ps ≠ []) :
    (firstEnd acc seen.isEmpty ps off = none ∧ hitsFrom acc nctx seen ps n = []) ∨
    ∃ pre p post, ps = pre ++ p :: post ∧
      firstEnd acc seen.isEmpty ps off = some (off + (nlTerm pre).length + p.length) ∧
      hitsFrom acc nctx seen ps n =
        { line := p, lineno := n + pre.length + 1,
          before := takeLast nctx (dropEmptyHead (seen ++ pre)),
          after := (dropEmptyLast post).take nctx } ::
          hitsFrom acc nctx [] post (n + pre.length + 1) := by
  induction ps generalizing seen n off with
  | nil => exact absurd rfl hne
  | cons p ps ih =>
    cases ps with
    | nil =>
      have hx' : ¬ (p = [] ∧ seen = []) := by
        rintro ⟨rfl, rfl⟩; exact hx ⟨rfl, rfl⟩
      simp only [firstEnd, hitsFrom, if_neg hx']
      by_cases ha : acc seen.isEmpty true p
      · right
        refine ⟨[], p, [], by simp, by simp [ha, nlTerm], ?_⟩
        simp [ha, hitsFrom, dropEmptyLast]
      · left; simp [ha]
    | cons q ps =>
      simp only [firstEnd, hitsFrom]
      by_cases ha : acc seen.isEmpty false p
      · right
        refine ⟨[], p, q :: ps, by simp, by simp [ha, nlTerm], ?_⟩
        simp [ha]
      · have hs : (seen ++ [p]).isEmpty = false := by simp
        have := ih (seen ++ [p]) (n + 1) (off + p.length + 1) (by simp) (by simp)
        rw [hs] at this
        simp only [ha]
        rcases this with ⟨h1, h2⟩ | ⟨pre, r, post, h1, h2, h3⟩
        · left; exact ⟨by simpa using h1, by simpa using h2⟩
        · right
          refine ⟨p :: pre, r, post, by simp [h1], ?_, ?_⟩
          · simp only [Bool.false_eq_true, if_false, h2, nlTerm, List.length_append,
              List.length_cons, Option.some.injEq]
            omega
          · simp only [Bool.false_eq_true, if_false, h3, List.length_cons]
            simp only [List.append_assoc, List.singleton_append]
            rw [show n + 1 + pre.length = n + (pre.length + 1) by omega]

theorem grep2Loop_eq {σ : Type} {mt : Bytes → Option Nat} {acc : LineAcc}
    (hmt : IsLineMatcher mt acc) (nctx : Nat) (fn : σ → LineMatch → σ × Bool)
    (fuel : Nat) (ps : List Bytes) (hfree : ∀ p ∈ ps, NL ∉ p) (n : Nat) (st : σ)
    (hf : (unpieces ps).length ≤ fuel) :
    grep2Loop mt nctx fn fuel (unpieces ps) n st = foldStop fn (hitsFrom acc nctx [] ps n) st := by
  induction fuel generalizing ps n st with
  | zero =>
    have he : unpieces ps = [] := List.length_eq_zero_iff.1 (by omega)
    have : hitsFrom acc nctx [] ps n = [] := by
      cases ps with
      | nil => rfl
      | cons p ps =>
        cases ps with
        | nil => simp [unpieces] at he; simp [he, hitsFrom]
        | cons q ps => rw [unpieces_cons (by simp)] at he; simp at he
    simp [this, grep2Loop, foldStop]
  | succ fuel ih =>
    by_cases hz : (unpieces ps).length = 0
    · have he : unpieces ps = [] := List.length_eq_zero_iff.1 hz
      have : hitsFrom acc nctx [] ps n = [] := by
        cases ps with
        | nil => rfl
        | cons p ps =>
          cases ps with
          | nil => simp [unpieces] at he; simp [he, hitsFrom]
          | cons q ps => rw [unpieces_cons (by simp)] at he; simp at he
      simp [this, grep2Loop, foldStop, he]
    · have hne : ps ≠ [] := by rintro rfl; simp [unpieces] at hz
      have hx : ¬ (ps = [[]] ∧ ([] : List Bytes) = []) := by
        rintro ⟨rfl, -⟩; simp [unpieces] at hz
      have hb : unpieces ps ≠ [] := by intro e; simp [e] at hz
      have hm := hmt _ hb
      rw [pieces_unpieces hne hfree] at hm
      simp only [grep2Loop, if_neg hz, hm]
      rcases hits_step acc nctx ps [] n 0 hx hne with ⟨h1, h2⟩ | ⟨pre, p, post, h1, h2, h3⟩
      · simp only [List.isEmpty_nil] at h1
        rw [h1, h2]; simp [foldStop]
      · simp only [List.isEmpty_nil, Nat.zero_add] at h2
        rw [h2, h3]
        simp only [List.nil_append]
        subst h1
        have hp : NL ∉ p := hfree p (by simp)
        have hpre : ∀ q ∈ pre, NL ∉ q := fun q hq => hfree q (by simp [hq])
        have hpost : ∀ q ∈ post, NL ∉ q := fun q hq => hfree q (by simp [hq])
        -- shape of the buffer
        have hbuf : unpieces (pre ++ p :: post) = nlTerm pre ++ (p ++
            (if post = [] then [] else NL :: unpieces post)) := by
          rw [unpieces_append (by simp)]
          cases post with
          | nil => simp [unpieces]
          | cons q qs => simp [unpieces]
        generalize hB : unpieces (pre ++ p :: post) = B at *
        generalize hT : (if post = [] then ([] : Bytes) else NL :: unpieces post) = T at *
        have htakem : B.take ((nlTerm pre).length + p.length) = nlTerm pre ++ p := by
          rw [hbuf, ← List.append_assoc, ← List.length_append, List.take_left]
        have hstr : afterLastNL (nlTerm pre ++ p) = (nlTerm pre).length := by
          unfold afterLastNL
          rcases List.eq_nil_or_concat pre with rfl | ⟨qs, q, rfl⟩
          · simp [nlTerm, lastIndexByte_none hp]
          · rw [List.concat_eq_append, nlTerm_concat, List.append_assoc, List.singleton_append,
              lastIndexByte_append _ _ hp]
            simp
        have htakes : B.take (nlTerm pre).length = nlTerm pre := by rw [hbuf, List.take_left]
        have hbefore : B.take ((nlTerm pre).length - 1) = unpieces pre := by
          rcases List.eq_nil_or_concat pre with rfl | ⟨qs, q, rfl⟩
          · simp [nlTerm, unpieces]
          · rw [hbuf, List.concat_eq_append, nlTerm_concat]
            simp
        rw [htakem, hstr, htakes, countLines_nlTerm hpre, hbefore, lastNLines_unpieces _ hpre]
        by_cases hpe : post = []
        · subst hpe
          simp only [if_true] at hT
          have hBl : B.length = (nlTerm pre).length + p.length := by simp [hbuf, ← hT]
          have hfin : (if (nlTerm pre).length + p.length + 1 > B.length then B.length
              else (nlTerm pre).length + p.length + 1) = B.length := by
            rw [if_pos (by omega)]
          rw [hfin]
          simp only [List.take_length, List.drop_length]
          have hl : B.drop (nlTerm pre).length = p := by simp [hbuf, ← hT]
          rw [hl, trimRightNL_line hp]
          simp only [firstNLines, foldStop, dropEmptyLast]
          simp only [List.getLast?_nil, List.length_nil, true_or, if_true, reduceCtorEq, if_false,
            List.take_nil]
          split
          · have := ih [] (by simp) (n + pre.length + 1)
              (fn st { line := p, lineno := n + pre.length + 1,
                       before := takeLast nctx (dropEmptyHead pre), after := [] }).1
              (by simp [unpieces])
            simpa [unpieces] using this
          · rfl
        · simp only [if_neg hpe] at hT
          have hBl : B.length = (nlTerm pre).length + p.length + 1 + (unpieces post).length := by
            simp [hbuf, ← hT]; omega
          have hfin : (if (nlTerm pre).length + p.length + 1 > B.length then B.length
              else (nlTerm pre).length + p.length + 1) = (nlTerm pre).length + p.length + 1 := by
            rw [if_neg (by omega)]
          rw [hfin]
          have hB2 : B = (nlTerm pre ++ (p ++ [NL])) ++ unpieces post := by
            rw [hbuf, ← hT]; simp
          have hlen : (nlTerm pre).length + p.length + 1 = (nlTerm pre ++ (p ++ [NL])).length := by
            simp; omega
          have hd : B.drop ((nlTerm pre).length + p.length + 1) = unpieces post := by
            rw [hlen, hB2, List.drop_left]
          have ht : B.take ((nlTerm pre).length + p.length + 1) = nlTerm pre ++ (p ++ [NL]) := by
            rw [hlen, hB2, List.take_left]
          rw [hd, ht, List.drop_left, trimRightNL_line_nl hp, firstNLines_unpieces _ hpost]
          simp only [foldStop]
          split
          · exact ih post hpost _ _ (by omega)
          · rfl

/-- `grep2` is exactly a fold of the callback over `hitsFrom`. -/
theorem grep2_eq {σ : Type} {mt : Bytes → Option Nat} {acc : LineAcc}
    (hmt : IsLineMatcher mt acc) (nctx : Nat) (fn : σ → LineMatch → σ × Bool)
    (buf : Bytes) (st : σ) :
    grep2 mt nctx fn buf st = foldStop fn (hitsFrom acc nctx [] (pieces buf) 0) st := by
  have := grep2Loop_eq hmt nctx fn buf.length (pieces buf) (pieces_nlfree buf) 0 st
    (by rw [unpieces_pieces]; exact Nat.le_refl _)
  rwa [unpieces_pieces] at this

/-- All matches of a file, in order: `grep2` with a callback that always continues. -/
def grepAll (mt : Bytes → Option Nat) (nctx : Nat) (buf : Bytes) : List LineMatch :=
  grep2 mt nctx (fun st m => (st ++ [m], true)) buf []

theorem foldStop_collect (l acc : List LineMatch) :
    foldStop (fun st m => (st ++ [m], true)) l acc = acc ++ l := by
  induction l generalizing acc with
  | nil => simp [foldStop]
  | cons m l ih => simp [foldStop, ih]

theorem grepAll_eq {mt : Bytes → Option Nat} {acc : LineAcc}
    (hmt : IsLineMatcher mt acc) (nctx : Nat) (buf : Bytes) :
    grepAll mt nctx buf = hitsFrom acc nctx [] (pieces buf) 0 := by
  rw [grepAll, grep2_eq hmt, foldStop_collect]; simp

end Hound
