import Verif.Spec.Blocks

namespace Hound.Client
open Spec

theorem runOf_length {α : Type} (f : Int → α) (s : Int) (n : Nat) : (runOf f s n).length = n := by
  simp [runOf]

theorem runOf_add {α : Type} (f : Int → α) (s : Int) (a b : Nat) :
    runOf f s (a + b) = runOf f s a ++ runOf f (s + a) b := by
  unfold runOf
  rw [List.range_add, List.map_append, List.map_map]
  congr 1
  refine List.map_congr_left fun i _ => ?_
  simp only [Function.comp]
  congr 1
  omega

theorem runOf_congr {α : Type} {f g : Int → α} {s : Int} {n : Nat}
    (h : ∀ i : Int, s ≤ i → i < s + n → f i = g i) : runOf f s n = runOf g s n := by
  unfold runOf
  refine List.map_congr_left fun i hi => h _ (by omega) ?_
  have := List.mem_range.1 hi
  omega

theorem runOf_const {α : Type} {f : Int → α} {s : Int} {n : Nat} {c : α}
    (h : ∀ i : Int, s ≤ i → i < s + n → f i = c) : runOf f s n = List.replicate n c := by
  rw [runOf_congr (g := fun _ => c) h]
  unfold runOf
  rw [List.map_const']
  simp

theorem runOf_drop {α : Type} (f : Int → α) (s : Int) (n k : Nat) :
    (runOf f s n).drop k = runOf f (s + k) (n - k) := by
  by_cases h : k ≤ n
  · have : n = k + (n - k) := by omega
    conv => lhs; rw [this, runOf_add]
    rw [List.drop_left' (runOf_length _ _ _)]
  · rw [List.drop_of_length_le (by rw [runOf_length]; omega), show n - k = 0 by omega]
    rfl

theorem runOf_one {α : Type} (f : Int → α) (s : Int) : runOf f s 1 = [f s] := by
  simp [runOf]

theorem runOf_set {f g : Int → Bool} {s k : Int} {n : Nat} (h1 : s ≤ k) (_h2 : k < s + n)
    (hk : g k = true) (h : ∀ i : Int, s ≤ i → i < s + n → i ≠ k → f i = g i) :
    (runOf f s n).set (k - s).toNat true = runOf g s n := by
  apply List.ext_getElem
  · simp [runOf]
  · intro i hi hi'
    have hin : i < n := by simpa [runOf] using hi'
    rw [List.getElem_set]
    split
    · rename_i he
      simp only [runOf, List.getElem_map, List.getElem_range]
      rw [show s + (i : Int) = k by omega, hk]
    · rename_i he
      simp only [runOf, List.getElem_map, List.getElem_range]
      exact h _ (by omega) (by omega) (by omega)

theorem matchOf_run {text : Int → Bytes} {m : LineMatch} (h : MatchOf text m) :
    m.before ++ m.line :: m.after =
      runOf text (startOfMatch m) (m.before.length + 1 + m.after.length) := by
  obtain ⟨h1, h2, h3⟩ := h
  rw [runOf_add, runOf_add, runOf_one]
  unfold startOfMatch
  conv => lhs; rw [h1, h3]
  rw [h2, show (m.lineno : Int) - m.before.length + m.before.length = m.lineno by omega,
    show (m.lineno : Int) - m.before.length + ((m.before.length + 1 : Nat) : Int) = m.lineno + 1 by omega]
  simp

/-- The flags after merging, and the lines. -/
theorem merge_lines {m : LineMatch} {b : Block} (hin : startOfMatch m ≤ endOfBlock b)
    (hst : b.start ≤ (m.lineno : Int)) (hlen : b.matches_.length = b.lines.length) :
    ∃ b', mergeMatchIntoBlock m b = some b' ∧ b'.start = b.start ∧
      b'.lines = b.lines ++ (m.before ++ m.line :: m.after).drop (endOfBlock b - startOfMatch m + 1).toNat ∧
      b'.matches_ =
        if endOfBlock b < (m.lineno : Int) then
          b.matches_ ++ List.replicate ((m.lineno : Int) - endOfBlock b - 1).toNat false ++ [true] ++
            List.replicate m.after.length false
        else
          b.matches_.set ((m.lineno : Int) - b.start).toNat true ++
            List.replicate (m.after.length - (endOfBlock b - (m.lineno : Int)).toNat) false := by
  have hmap : ∀ l : List Bytes, l.map (fun _ => false) = List.replicate l.length false := by
    intro l; rw [List.map_const']
  unfold mergeMatchIntoBlock
  simp only
  rw [if_neg (by omega)]
  by_cases hlt : endOfBlock b - startOfMatch m + 1 < (m.before.length : Int) + 1
  · have hline : endOfBlock b < (m.lineno : Int) := by unfold startOfMatch at hlt; omega
    rw [if_pos hlt]
    simp only
    refine ⟨_, rfl, rfl, ?_, ?_⟩
    · simp only
      have hz : (clampZero (endOfBlock b - startOfMatch m + 1 - m.before.length - 1)).toNat = 0 := by
        unfold clampZero
        split <;> omega
      rw [hz, List.drop_zero, List.drop_append_of_le_length (by omega)]
      simp
    · simp only
      have hz : (clampZero (endOfBlock b - startOfMatch m + 1 - m.before.length - 1)).toNat = 0 := by
        unfold clampZero
        split <;> omega
      rw [if_pos hline, hz, List.drop_zero, hmap, hmap, List.length_drop]
      congr 5
      unfold startOfMatch at *
      omega
  · have hline : ¬ endOfBlock b < (m.lineno : Int) := by unfold startOfMatch at hlt; omega
    rw [if_neg hlt]
    have hdrop : m.before.drop (endOfBlock b - startOfMatch m + 1).toNat = [] :=
      List.drop_of_length_le (by omega)
    have hi : (b.lines.length : Int) - (endOfBlock b - startOfMatch m + 1) + m.before.length =
        (m.lineno : Int) - b.start := by unfold endOfBlock startOfMatch; omega
    simp only [hdrop, List.append_nil, List.map_nil, hi]
    have hb : 0 ≤ (m.lineno : Int) - b.start ∧ (m.lineno : Int) - b.start < b.matches_.length := by
      unfold endOfBlock at hline
      omega
    rw [if_pos hb]
    simp only
    have hz : (clampZero (endOfBlock b - startOfMatch m + 1 - m.before.length - 1)).toNat =
        (endOfBlock b - (m.lineno : Int)).toNat := by
      unfold clampZero startOfMatch
      split <;> omega
    refine ⟨_, rfl, rfl, ?_, ?_⟩
    · simp only [hz]
      congr 1
      have e : (endOfBlock b - startOfMatch m + 1).toNat =
          (m.before ++ [m.line]).length + (endOfBlock b - (m.lineno : Int)).toNat := by
        simp only [List.length_append, List.length_singleton]
        unfold startOfMatch at *
        omega
      rw [e, show m.before ++ m.line :: m.after = (m.before ++ [m.line]) ++ m.after by simp,
        List.drop_length_add_append]
    · simp only [hz, if_neg hline, hmap, List.length_drop]

/-- The flag of line `n` for the matches `ms`. -/
noncomputable def flag (ms : List LineMatch) (n : Int) : Bool := ms.any fun m => decide ((m.lineno : Int) = n)

theorem flag_append (a : List LineMatch) (m : LineMatch) (n : Int) :
    flag (a ++ [m]) n = (flag a n || decide ((m.lineno : Int) = n)) := by
  simp [flag]

theorem flag_false {ms : List LineMatch} {n : Int} (h : ∀ m ∈ ms, (m.lineno : Int) ≠ n) :
    flag ms n = false := by
  unfold flag
  rw [List.any_eq_false]
  intro m hm
  simpa using h m hm

/-- A block shows the file and the flags of `done`. -/
structure Good (text : Int → Bytes) (done : List LineMatch) (b : Block) : Prop where
  ne : 0 < b.lines.length
  lines : b.lines = runOf text b.start b.lines.length
  flags : b.matches_ = runOf (flag done) b.start b.lines.length

theorem good_toBlock {text : Int → Bytes} {done : List LineMatch} {m : LineMatch} (hm : MatchOf text m)
    (hdone : ∀ d ∈ done, (d.lineno : Int) < startOfMatch m) : Good text (done ++ [m]) (matchToBlock m) := by
  have hl : (matchToBlock m).lines.length = m.before.length + 1 + m.after.length := by
    simp [matchToBlock]; omega
  refine ⟨by omega, ?_, ?_⟩
  · rw [hl]
    exact matchOf_run hm
  · rw [hl]
    have e : (List.replicate (1 + m.before.length + m.after.length) false) =
        runOf (fun _ => false) (startOfMatch m) (m.before.length + 1 + m.after.length) := by
      rw [runOf_const (c := false) (fun _ _ _ => rfl)]
      congr 1; omega
    show (List.replicate (1 + m.before.length + m.after.length) false).set m.before.length true = _
    rw [e]
    have := runOf_set (f := fun _ => false) (g := flag (done ++ [m])) (s := startOfMatch m)
      (k := m.lineno) (n := m.before.length + 1 + m.after.length) (by unfold startOfMatch; omega)
      (by unfold startOfMatch; omega) (by rw [flag_append]; simp) (by
        intro i h1 h2 h3
        rw [flag_append, flag_false (fun d hd => by have := hdone d hd; omega)]
        simp [Ne.symm h3])
    rw [show ((m.lineno : Int) - startOfMatch m).toNat = m.before.length by
      unfold startOfMatch; omega] at this
    exact this

theorem good_merge {text : Int → Bytes} {done : List LineMatch} {m : LineMatch} {b : Block}
    (hm : MatchOf text m) (hg : Good text done b) (hin : startOfMatch m ≤ endOfBlock b)
    (hst : b.start ≤ (m.lineno : Int)) (hdone : ∀ d ∈ done, (d.lineno : Int) ≤ endOfBlock b) :
    ∃ b', mergeMatchIntoBlock m b = some b' ∧ b'.start = b.start ∧ Good text (done ++ [m]) b' ∧
      endOfBlock b' = max (endOfBlock b) ((m.lineno : Int) + m.after.length) := by
  have hlen : b.matches_.length = b.lines.length := by rw [hg.flags, runOf_length]
  obtain ⟨b', he, hs, hl, hf⟩ := merge_lines hin hst hlen
  have hlen' : b'.lines.length = b.lines.length +
      (m.before.length + 1 + m.after.length - (endOfBlock b - startOfMatch m + 1).toNat) := by
    rw [hl]
    simp only [List.length_append, List.length_drop, List.length_cons]
    omega
  have hend : endOfBlock b' = max (endOfBlock b) ((m.lineno : Int) + m.after.length) := by
    have h0 := hg.ne
    unfold endOfBlock startOfMatch at *
    omega
  refine ⟨b', he, hs, ⟨by have := hg.ne; omega, ?_, ?_⟩, hend⟩
  · rw [hl, List.length_append, runOf_add, hs, ← hg.lines, matchOf_run hm, runOf_drop, runOf_length]
    congr 2
    unfold endOfBlock at *
    omega
  · rw [hf, hs]
    split
    · rename_i hlt
      have hlen3 : b'.lines.length = b.lines.length + ((m.lineno : Int) - endOfBlock b - 1).toNat + 1 +
          m.after.length := by
        unfold endOfBlock startOfMatch at *; omega
      rw [hlen3, runOf_add, runOf_add, runOf_add, runOf_one]
      have e1 : runOf (flag (done ++ [m])) b.start b.lines.length = b.matches_ := by
        rw [hg.flags]
        refine runOf_congr fun i h1 h2 => ?_
        rw [flag_append]
        have : ¬ (m.lineno : Int) = i := by unfold endOfBlock at hlt; omega
        simp [this]
      have e2 : runOf (flag (done ++ [m])) (b.start + b.lines.length)
          ((m.lineno : Int) - endOfBlock b - 1).toNat =
          List.replicate ((m.lineno : Int) - endOfBlock b - 1).toNat false := by
        refine runOf_const fun i h1 h2 => ?_
        rw [flag_append, flag_false (fun d hd => by have := hdone d hd; unfold endOfBlock at this; omega)]
        have : ¬ (m.lineno : Int) = i := by unfold endOfBlock at *; omega
        simp [this]
      have e3 : flag (done ++ [m])
          (b.start + ((b.lines.length + ((m.lineno : Int) - endOfBlock b - 1).toNat : Nat) : Int)) = true := by
        rw [flag_append]
        have : (m.lineno : Int) =
            b.start + ((b.lines.length + ((m.lineno : Int) - endOfBlock b - 1).toNat : Nat) : Int) := by
          unfold endOfBlock at *; omega
        rw [← this]
        simp
      have e4 : runOf (flag (done ++ [m]))
          (b.start + ((b.lines.length + ((m.lineno : Int) - endOfBlock b - 1).toNat + 1 : Nat) : Int))
          m.after.length = List.replicate m.after.length false := by
        refine runOf_const fun i h1 h2 => ?_
        rw [flag_append, flag_false (fun d hd => by have := hdone d hd; unfold endOfBlock at *; omega)]
        have : ¬ (m.lineno : Int) = i := by unfold endOfBlock at *; omega
        simp [this]
      rw [e1, e2, e3, e4]
    · rename_i hlt
      have hlen3 : b'.lines.length = b.lines.length +
          (m.after.length - (endOfBlock b - (m.lineno : Int)).toNat) := by
        unfold endOfBlock startOfMatch at *; omega
      rw [hlen3, runOf_add]
      have e1 : b.matches_.set ((m.lineno : Int) - b.start).toNat true =
          runOf (flag (done ++ [m])) b.start b.lines.length := by
        rw [hg.flags]
        refine runOf_set hst (by unfold endOfBlock at hlt; omega) (by rw [flag_append]; simp) ?_
        intro i _ _ h3
        rw [flag_append]
        simp [Ne.symm h3]
      have e2 : runOf (flag (done ++ [m])) (b.start + b.lines.length)
          (m.after.length - (endOfBlock b - (m.lineno : Int)).toNat) =
          List.replicate (m.after.length - (endOfBlock b - (m.lineno : Int)).toNat) false := by
        refine runOf_const fun i h1 h2 => ?_
        rw [flag_append, flag_false (fun d hd => by have := hdone d hd; unfold endOfBlock at *; omega)]
        have : ¬ (m.lineno : Int) = i := by unfold endOfBlock at *; omega
        simp [this]
      rw [e1, e2]

/-- The state of the loop after the matches `done`. -/
structure CInv (text : Int → Bytes) (done : List LineMatch) (res : List Block) (curr : Block) : Prop where
  good : ∀ b ∈ res ++ [curr], Good text done b
  apart : (res ++ [curr]).Pairwise fun a b => endOfBlock a < b.start
  cover : ∀ n, (∃ b ∈ res ++ [curr], InBlock b n) ↔ ∃ m ∈ done, ShownBy m n
  below : ∀ d ∈ done, (d.lineno : Int) ≤ endOfBlock curr
  first : ∃ d ∈ done, curr.start = startOfMatch d

theorem good_later {text : Int → Bytes} {done : List LineMatch} {m : LineMatch} {b : Block}
    (hg : Good text done b) (h : endOfBlock b < (m.lineno : Int)) : Good text (done ++ [m]) b := by
  refine ⟨hg.ne, hg.lines, ?_⟩
  rw [hg.flags]
  refine runOf_congr fun i _ h2 => ?_
  rw [flag_append]
  have : ¬ (m.lineno : Int) = i := by unfold endOfBlock at h; omega
  simp [this]

/-- One match: merged into the current block, or the first of the next. -/
theorem cinv_step {text : Int → Bytes} {m : LineMatch} {done : List LineMatch} {res : List Block} {curr : Block}
    (hi : CInv text done res curr) (hm : MatchOf text m)
    (hpre : ∀ d ∈ done, d.lineno ≤ m.lineno ∧ startOfMatch d ≤ startOfMatch m) :
    (startOfMatch m ≤ endOfBlock curr → ∃ b', mergeMatchIntoBlock m curr = some b' ∧ b'.start = curr.start ∧
      endOfBlock b' = max (endOfBlock curr) ((m.lineno : Int) + m.after.length) ∧ curr.start ≤ startOfMatch m ∧
      CInv text (done ++ [m]) res b') ∧
    (¬ startOfMatch m ≤ endOfBlock curr → CInv text (done ++ [m]) (res ++ [curr]) (matchToBlock m)) := by
  have hcg := hi.good curr (by simp)
  obtain ⟨d0, hd0, hfirst⟩ := hi.first
  have hstart : curr.start ≤ startOfMatch m := by rw [hfirst]; exact (hpre d0 hd0).2
  have hsl : startOfMatch m ≤ (m.lineno : Int) := by unfold startOfMatch; omega
  have hres : ∀ b ∈ res, endOfBlock b < curr.start := by
    intro b hb
    exact (List.pairwise_append.1 hi.apart).2.2 b hb curr (by simp)
  constructor
  · intro hin
    obtain ⟨b', he, hs, hg, hend⟩ := good_merge hm hcg hin (by omega) hi.below
    have hnew : CInv text (done ++ [m]) res b' := by
      refine ⟨?_, ?_, ?_, ?_, ?_⟩
      · intro b hb
        rcases List.mem_append.1 hb with hb | hb
        · exact good_later (hi.good b (by simp [hb])) (by have := hres b hb; omega)
        · rw [List.mem_singleton.1 hb]; exact hg
      · have := List.pairwise_append.1 hi.apart
        refine List.pairwise_append.2 ⟨this.1, by simp, ?_⟩
        intro b hb c hc
        rw [List.mem_singleton.1 hc, hs]
        exact hres b hb
      · intro n
        have hc := hi.cover n
        have hcurr : InBlock b' n ↔ InBlock curr n ∨ ShownBy m n := by
          unfold InBlock ShownBy
          unfold endOfBlock startOfMatch at *
          omega
        constructor
        · rintro ⟨b, hb, hn⟩
          rcases List.mem_append.1 hb with hb | hb
          · obtain ⟨x, hx, hy⟩ := hc.1 ⟨b, by simp [hb], hn⟩
            exact ⟨x, by simp [hx], hy⟩
          · rw [List.mem_singleton.1 hb, hcurr] at hn
            rcases hn with hn | hn
            · obtain ⟨x, hx, hy⟩ := hc.1 ⟨curr, by simp, hn⟩
              exact ⟨x, by simp [hx], hy⟩
            · exact ⟨m, by simp, hn⟩
        · rintro ⟨x, hx, hy⟩
          rcases List.mem_append.1 hx with hx | hx
          · obtain ⟨b, hb, hn⟩ := hc.2 ⟨x, hx, hy⟩
            rcases List.mem_append.1 hb with hb | hb
            · exact ⟨b, by simp [hb], hn⟩
            · rw [List.mem_singleton.1 hb] at hn
              exact ⟨b', by simp, hcurr.2 (.inl hn)⟩
          · rw [List.mem_singleton.1 hx] at hy
            exact ⟨b', by simp, hcurr.2 (.inr hy)⟩
      · intro d hd
        rcases List.mem_append.1 hd with hd | hd
        · have := hi.below d hd; omega
        · rw [List.mem_singleton.1 hd]; omega
      · exact ⟨d0, by simp [hd0], by rw [hs, hfirst]⟩
    exact ⟨b', he, hs, hend, hstart, hnew⟩
  · intro hin
    have hlt : endOfBlock curr < startOfMatch m := by omega
    have hcne := hcg.ne
    have hnew : CInv text (done ++ [m]) (res ++ [curr]) (matchToBlock m) := by
      have hall : ∀ b ∈ res ++ [curr], endOfBlock b < startOfMatch m := by
        intro b hb
        rcases List.mem_append.1 hb with hb | hb
        · have := hres b hb; omega
        · rw [List.mem_singleton.1 hb]; exact hlt
      have hlen : (matchToBlock m).lines.length = m.before.length + 1 + m.after.length := by
        simp [matchToBlock]; omega
      have hst : (matchToBlock m).start = startOfMatch m := rfl
      refine ⟨?_, ?_, ?_, ?_, ?_⟩
      · intro b hb
        rcases List.mem_append.1 hb with hb | hb
        · exact good_later (hi.good b hb) (by have := hall b hb; omega)
        · rw [List.mem_singleton.1 hb]
          exact good_toBlock hm (fun d hd => by have := hi.below d hd; omega)
      · refine List.pairwise_append.2 ⟨hi.apart, by simp, ?_⟩
        intro b hb c hc
        rw [List.mem_singleton.1 hc, hst]
        exact hall b hb
      · intro n
        have hc := hi.cover n
        have hcurr : InBlock (matchToBlock m) n ↔ ShownBy m n := by
          unfold InBlock ShownBy
          rw [hst, hlen]
          unfold startOfMatch
          omega
        constructor
        · rintro ⟨b, hb, hn⟩
          rcases List.mem_append.1 hb with hb | hb
          · obtain ⟨x, hx, hy⟩ := hc.1 ⟨b, hb, hn⟩
            exact ⟨x, by simp [hx], hy⟩
          · rw [List.mem_singleton.1 hb, hcurr] at hn
            exact ⟨m, by simp, hn⟩
        · rintro ⟨x, hx, hy⟩
          rcases List.mem_append.1 hx with hx | hx
          · obtain ⟨b, hb, hn⟩ := hc.2 ⟨x, hx, hy⟩
            exact ⟨b, List.mem_append.2 (.inl hb), hn⟩
          · rw [List.mem_singleton.1 hx] at hy
            exact ⟨matchToBlock m, by simp, hcurr.2 hy⟩
      · intro d hd
        have hend : endOfBlock (matchToBlock m) = (m.lineno : Int) + m.after.length := by
          unfold endOfBlock
          rw [hst, hlen]
          unfold startOfMatch
          omega
        rcases List.mem_append.1 hd with hd | hd
        · have := hi.below d hd; omega
        · rw [List.mem_singleton.1 hd]; omega
      · exact ⟨m, by simp, hst⟩
    exact hnew

theorem cinv_loop {text : Int → Bytes} (ms : List LineMatch) :
    ∀ (done : List LineMatch) (res : List Block) (curr : Block), CInv text done res curr →
      (∀ m ∈ ms, MatchOf text m) → InFileOrder (done ++ ms) →
      ∃ bs, coalesceLoop ms res (some curr) = some bs ∧ ∃ r c, bs = r ++ [c] ∧ CInv text (done ++ ms) r c := by
  induction ms with
  | nil => exact fun done res curr h _ _ => ⟨res ++ [curr], rfl, res, curr, rfl, by simpa using h⟩
  | cons m ms ih =>
    intro done res curr hi hms hord
    have hm := hms m (by simp)
    have hpre : ∀ d ∈ done, d.lineno ≤ m.lineno ∧ startOfMatch d ≤ startOfMatch m := by
      intro d hd
      exact (List.pairwise_append.1 hord).2.2 d hd m (by simp)
    have hord' : InFileOrder ((done ++ [m]) ++ ms) := by simpa using hord
    have hms' : ∀ m ∈ ms, MatchOf text m := fun x hx => hms x (by simp [hx])
    have hst := cinv_step hi hm hpre
    simp only [coalesceLoop]
    by_cases hin : startOfMatch m ≤ endOfBlock curr
    · rw [if_pos (show matchIsInBlock m curr = true by simpa [matchIsInBlock] using hin)]
      obtain ⟨b', he, -, -, -, hnew⟩ := hst.1 hin
      rw [he]
      simp only
      have := ih (done ++ [m]) res b' hnew hms' hord'
      simpa using this
    · rw [if_neg (show ¬ matchIsInBlock m curr = true by simpa [matchIsInBlock] using hin)]
      have := ih (done ++ [m]) (res ++ [curr]) (matchToBlock m) (hst.2 hin) hms' hord'
      simpa using this

theorem cinv_first {text : Int → Bytes} {m : LineMatch} (hm : MatchOf text m) :
    CInv text [m] [] (matchToBlock m) := by
  have hlen : (matchToBlock m).lines.length = m.before.length + 1 + m.after.length := by
    simp [matchToBlock]; omega
  have hst : (matchToBlock m).start = startOfMatch m := rfl
  refine ⟨?_, by simp, ?_, ?_, ⟨m, by simp, rfl⟩⟩
  · intro b hb
    simp only [List.nil_append, List.mem_singleton] at hb
    subst hb
    exact good_toBlock (done := []) hm (by simp)
  · intro n
    simp only [List.nil_append, List.mem_singleton, exists_eq_left]
    unfold InBlock ShownBy
    rw [hst, hlen]
    unfold startOfMatch
    omega
  · intro d hd
    rw [List.mem_singleton.1 hd]
    unfold endOfBlock
    rw [hst, hlen]
    unfold startOfMatch
    omega

end Hound.Client
