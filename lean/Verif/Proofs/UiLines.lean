import Verif.Model.UiLines
import Verif.Proofs.Coalesce

/-! The web page's blocks are those of the command line client. -/

namespace Hound.Ui
open Spec Client

/-- The lines of a block of the command line client. -/
def ofBlock (b : Block) : List Line :=
  (b.lines.zip b.matches_).mapIdx fun i p => ⟨b.start + i, p.1, p.2⟩

/-- Line `n` with the flag of the matches `ms`. -/
noncomputable def lineOf (text : Int → Bytes) (F : Int → Bool) (n : Int) : Line := ⟨n, text n, F n⟩

theorem ofBlock_good {text : Int → Bytes} {done : List LineMatch} {b : Block} (h : Good text done b) :
    ofBlock b = runOf (lineOf text (flag done)) b.start b.lines.length := by
  have h1 := h.lines
  have h2 := h.flags
  generalize b.lines.length = n at h1 h2
  unfold ofBlock
  rw [h1, h2]
  apply List.ext_getElem?
  intro i
  by_cases hi : i < n
  · simp [runOf, List.getElem?_mapIdx, List.getElem?_zip_eq_some, hi, lineOf, List.getElem?_range hi]
  · rw [List.getElem?_eq_none (by simp [runOf]; omega), List.getElem?_eq_none (by simp [runOf]; omega)]

theorem matchToLines_run {text : Int → Bytes} {m : LineMatch} (h : MatchOf text m) :
    matchToLines m = runOf (lineOf text (fun n => decide ((m.lineno : Int) = n))) (startOfMatch m)
      (m.before.length + 1 + m.after.length) := by
  obtain ⟨h1, h2, h3⟩ := h
  rw [runOf_add, runOf_add, runOf_one]
  unfold matchToLines startOfMatch
  have e1 : (m.lineno : Int) - m.before.length + m.before.length = m.lineno := by omega
  have e2 : (m.lineno : Int) - m.before.length + ((m.before.length + 1 : Nat) : Int) = m.lineno + 1 := by omega
  rw [e1, e2]
  have p1 : m.before.mapIdx (fun i l => (⟨(m.lineno : Int) - m.before.length + i, l, false⟩ : Line)) =
      runOf (lineOf text fun n => decide ((m.lineno : Int) = n)) ((m.lineno : Int) - m.before.length) m.before.length := by
    apply List.ext_getElem?
    intro i
    by_cases hi : i < m.before.length
    · have hg : m.before[i] = text ((m.lineno : Int) - m.before.length + i) := by
        have : m.before[i]? = (runOf text ((m.lineno : Int) - m.before.length) m.before.length)[i]? := by rw [← h1]
        rw [List.getElem?_eq_getElem hi] at this
        simpa [runOf, List.getElem?_range hi] using this
      have hne : ¬ (m.lineno : Int) = (m.lineno : Int) - m.before.length + i := by omega
      simp [List.getElem?_mapIdx, List.getElem?_eq_getElem hi, runOf, List.getElem?_range hi, lineOf, hg, hne]
    · rw [List.getElem?_eq_none (by simp; omega), List.getElem?_eq_none (by rw [runOf_length]; omega)]
  have p2 : m.after.mapIdx (fun i l => (⟨(m.lineno : Int) + i + 1, l, false⟩ : Line)) =
      runOf (lineOf text fun n => decide ((m.lineno : Int) = n)) ((m.lineno : Int) + 1) m.after.length := by
    apply List.ext_getElem?
    intro i
    by_cases hi : i < m.after.length
    · have hg : m.after[i] = text ((m.lineno : Int) + 1 + i) := by
        have : m.after[i]? = (runOf text ((m.lineno : Int) + 1) m.after.length)[i]? := by rw [← h3]
        rw [List.getElem?_eq_getElem hi] at this
        simpa [runOf, List.getElem?_range hi] using this
      have hne : ¬ (m.lineno : Int) = (m.lineno : Int) + 1 + i := by omega
      have he : (m.lineno : Int) + i + 1 = (m.lineno : Int) + 1 + i := by omega
      simp [List.getElem?_mapIdx, List.getElem?_eq_getElem hi, runOf, List.getElem?_range hi, lineOf, hg, hne, he]
    · rw [List.getElem?_eq_none (by simp; omega), List.getElem?_eq_none (by rw [runOf_length]; omega)]
  rw [p1, p2]
  simp [lineOf, h2]

theorem runOf_lineSet {text : Int → Bytes} {F G : Int → Bool} {s k : Int} {n : Nat} (h1 : s ≤ k)
    (hk : G k = true) (h : ∀ i : Int, s ≤ i → i < s + n → i ≠ k → F i = G i) :
    (runOf (lineOf text F) s n).set (k - s).toNat (lineOf text (fun _ => true) k) = runOf (lineOf text G) s n := by
  apply List.ext_getElem
  · simp [runOf]
  · intro i hi hi'
    have hin : i < n := by simpa [runOf] using hi'
    rw [List.getElem_set]
    split
    · rename_i he
      simp only [runOf, List.getElem_map, List.getElem_range]
      rw [show s + (i : Int) = k by omega]
      simp [lineOf, hk]
    · rename_i he
      simp only [runOf, List.getElem_map, List.getElem_range, lineOf]
      rw [h _ (by omega) (by omega) (by omega)]

/-- The lines of a match, merged one after the other. -/
theorem foldlM_mergeLine {text : Int → Bytes} {F : Int → Bool} {s s0 e L : Int} {k : Nat} (hs : s0 ≤ s)
    (he : e = s0 + k - 1) (hse : s ≤ e) (hL : s ≤ L) (hF : ∀ i, e < i → F i = false) (n : Nat) :
    (runOf (lineOf text fun i => decide (L = i)) s n).foldlM (mergeLine e) (runOf (lineOf text F) s0 k) =
      some (runOf (lineOf text fun i => F i || (decide (L = i) && decide (i < s + n))) s0 (max k (s + n - s0).toNat)) := by
  induction n with
  | zero =>
    have : max k (s + (0 : Nat) - s0).toNat = k := by omega
    rw [this]
    simp only [runOf, List.range_zero, List.map_nil, List.foldlM_nil]
    refine congrArg some (runOf_congr (n := k) fun i h1 h2 => ?_)
    have : ¬ (L = i ∧ i < s + (0 : Nat)) := by omega
    unfold lineOf
    simp only [← Bool.decide_and, this, decide_false, Bool.or_false]
  | succ n ih =>
    rw [runOf_add, runOf_one, List.foldlM_append, ih]
    simp only [Option.bind_eq_bind, Option.bind_some, List.foldlM_cons, List.foldlM_nil]
    have hnum : (lineOf text (fun i => decide (L = i)) (s + n)).number = s + n := rfl
    unfold mergeLine
    rw [hnum]
    by_cases hgt : s + (n : Int) > e
    · rw [if_pos hgt]
      simp only [Option.bind_some]
      have hmax : max k (s + ((n : Nat) : Int) - s0).toNat = (s + n - s0).toNat := by omega
      have hmax' : max k (s + ((n + 1 : Nat) : Int) - s0).toNat = (s + n - s0).toNat + 1 := by omega
      rw [hmax, hmax', runOf_add, runOf_one]
      refine congrArg some (congr (congrArg _ ?_) ?_)
      · refine runOf_congr fun i h1 h2 => ?_
        unfold lineOf
        congr 2
        by_cases hLi : L = i
        · subst hLi
          have a1 : L < s + (n : Int) := by omega
          have a2 : L < s + ((n + 1 : Nat) : Int) := by omega
          simp only [a1, a2]
        · simp [hLi]
      · have e1 : s0 + ((s + (n : Int) - s0).toNat : Int) = s + n := by omega
        rw [e1]
        unfold lineOf
        have a2 : s + (n : Int) < s + ((n + 1 : Nat) : Int) := by omega
        simp only [hF _ hgt, Bool.false_or, a2, decide_true, Bool.and_true]
    · rw [if_neg hgt]
      have hmax : max k (s + ((n : Nat) : Int) - s0).toNat = k := by omega
      have hmax' : max k (s + ((n + 1 : Nat) : Int) - s0).toNat = k := by omega
      rw [hmax, hmax']
      by_cases hLn : L = s + n
      · have hm : (lineOf text (fun i => decide (L = i)) (s + n)).isMatch = true := by simp [lineOf, hLn]
        rw [if_pos hm]
        have hidx : ((runOf (lineOf text fun i => F i || (decide (L = i) && decide (i < s + (n : Int)))) s0 k).length : Int) - 1 -
            (e - (s + n)) = s + n - s0 := by rw [runOf_length]; omega
        simp only [hidx]
        rw [if_pos (by omega)]
        have hlt : (s + (n : Int) - s0).toNat < k := by omega
        rw [show (runOf (lineOf text fun i => F i || (decide (L = i) && decide (i < s + (n : Int)))) s0 k)[(s + (n : Int) - s0).toNat]? =
          some (lineOf text (fun i => F i || (decide (L = i) && decide (i < s + (n : Int)))) (s + n)) by
            simp only [runOf, List.getElem?_map, List.getElem?_range hlt, Option.map_some]
            congr 2; omega]
        simp only [Option.bind_some]
        refine congrArg some ?_
        have := runOf_lineSet (text := text) (F := fun i => F i || (decide (L = i) && decide (i < s + (n : Int))))
          (G := fun i => F i || (decide (L = i) && decide (i < s + ((n + 1 : Nat) : Int)))) (s := s0) (k := s + n) (n := k)
          (by omega) (by
            have : s + (n : Int) < s + ((n + 1 : Nat) : Int) := by omega
            simp only [hLn, this]; simp) (by
            intro i h1 h2 h3
            have : ¬ L = i := by omega
            simp [this])
        rw [← this]
        rfl
      · have hm : ¬ (lineOf text (fun i => decide (L = i)) (s + n)).isMatch = true := by simp [lineOf, hLn]
        rw [if_neg hm]
        simp only [Option.bind_some]
        refine congrArg some (runOf_congr fun i h1 h2 => ?_)
        unfold lineOf
        congr 2
        by_cases hLi : L = i
        · have : (i < s + (n : Int)) ↔ (i < s + ((n + 1 : Nat) : Int)) := by omega
          simp only [this]
        · simp [hLi]

theorem lastNumber_run {text : Int → Bytes} {F : Int → Bool} {s : Int} {n : Nat} (hn : 0 < n) :
    lastNumber (some (runOf (lineOf text F) s n)) = s + n - 1 := by
  obtain ⟨k, rfl⟩ : ∃ k, n = k + 1 := ⟨n - 1, by omega⟩
  rw [runOf_add, runOf_one]
  simp [lastNumber, lineOf]
  omega

theorem coalesceLines_sim {text : Int → Bytes} (ms : List LineMatch) :
    ∀ (done : List LineMatch) (res : List Block) (curr : Block), CInv text done res curr →
      (∀ m ∈ ms, MatchOf text m) → InFileOrder (done ++ ms) →
      coalesceLines (ms.map matchToLines) (res.map ofBlock) (some (ofBlock curr)) =
        (coalesceLoop ms res (some curr)).map (·.map ofBlock) := by
  induction ms with
  | nil => intro done res curr _ _ _; simp [coalesceLines, coalesceLoop]
  | cons m ms ih =>
    intro done res curr hi hms hord
    have hm := hms m (by simp)
    have hpre : ∀ d ∈ done, d.lineno ≤ m.lineno ∧ startOfMatch d ≤ startOfMatch m := by
      intro d hd
      exact (List.pairwise_append.1 hord).2.2 d hd m (by simp)
    have hord' : InFileOrder ((done ++ [m]) ++ ms) := by simpa using hord
    have hms' : ∀ m ∈ ms, MatchOf text m := fun x hx => hms x (by simp [hx])
    have hst := cinv_step hi hm hpre
    have hcg := hi.good curr (by simp)
    have hmax : lastNumber (some (ofBlock curr)) = endOfBlock curr := by
      rw [ofBlock_good hcg, lastNumber_run hcg.ne]
      rfl
    have hfst : ∃ tl, matchToLines m = (lineOf text (fun n => decide ((m.lineno : Int) = n)) (startOfMatch m)) :: tl := by
      rw [matchToLines_run hm, show m.before.length + 1 + m.after.length = 1 + (m.before.length + m.after.length) by omega,
        runOf_add, runOf_one]
      exact ⟨_, rfl⟩
    obtain ⟨tl, htl⟩ := hfst
    simp only [List.map_cons]
    rw [coalesceLines.eq_def]
    simp only [hmax]
    rw [htl]
    simp only
    rw [← htl]
    have hnum : (lineOf text (fun n => decide ((m.lineno : Int) = n)) (startOfMatch m)).number = startOfMatch m := rfl
    rw [hnum]
    simp only [coalesceLoop]
    by_cases hin : startOfMatch m ≤ endOfBlock curr
    · rw [if_pos hin, if_pos (show matchIsInBlock m curr = true by simpa [matchIsInBlock] using hin)]
      obtain ⟨b', he, hs, hend, hle, hnew⟩ := hst.1 hin
      rw [he]
      have hg' := hnew.good b' (by simp)
      have hb' : (matchToLines m).foldlM (mergeLine (endOfBlock curr)) (ofBlock curr) = some (ofBlock b') := by
        rw [ofBlock_good hcg, matchToLines_run hm]
        rw [foldlM_mergeLine (text := text) (F := flag done) (s := startOfMatch m) (s0 := curr.start) (e := endOfBlock curr)
          (L := m.lineno) (k := curr.lines.length) hle rfl hin (by unfold startOfMatch; omega)
          (fun i hi' => flag_false fun d hd => by have := hi.below d hd; omega)]
        rw [ofBlock_good hg']
        have hlen : max curr.lines.length (startOfMatch m + ((m.before.length + 1 + m.after.length : Nat) : Int) - curr.start).toNat =
            b'.lines.length := by
          unfold endOfBlock startOfMatch at *
          omega
        rw [hlen, hs]
        refine congrArg some (runOf_congr fun i h1 h2 => ?_)
        unfold lineOf
        congr 1
        rw [flag_append]
        by_cases hLi : (m.lineno : Int) = i
        · have : i < startOfMatch m + ((m.before.length + 1 + m.after.length : Nat) : Int) := by
            unfold startOfMatch; omega
          simp only [this, decide_true, Bool.and_true]
        · simp [hLi]
      rw [hb']
      simp only
      exact ih (done ++ [m]) res b' hnew hms' hord'
    · rw [if_neg hin, if_neg (show ¬ matchIsInBlock m curr = true by simpa [matchIsInBlock] using hin)]
      have hnew := hst.2 hin
      have hg' := hnew.good (matchToBlock m) (by simp)
      have hb : matchToLines m = ofBlock (matchToBlock m) := by
        rw [ofBlock_good hg', matchToLines_run hm]
        have hlen : (matchToBlock m).lines.length = m.before.length + 1 + m.after.length := by
          simp [matchToBlock]; omega
        rw [hlen]
        refine runOf_congr fun i h1 h2 => ?_
        unfold lineOf
        congr 1
        rw [flag_append, flag_false (fun d hd => by have := hi.below d hd; omega)]
        simp
      rw [hb]
      have := ih (done ++ [m]) (res ++ [curr]) (matchToBlock m) hnew hms' hord'
      simpa using this

theorem coalesceMatches_eq {text : Int → Bytes} {ms : List LineMatch} (hms : ∀ m ∈ ms, MatchOf text m)
    (hord : InFileOrder ms) (hpos : ∀ m ∈ ms, m.before.length ≤ m.lineno) :
    coalesceMatches ms = (Client.coalesceMatches ms).map (·.map ofBlock) := by
  cases ms with
  | nil => rfl
  | cons m ms =>
    have hm := hms m (by simp)
    have hi := cinv_first hm
    have hg := hi.good (matchToBlock m) (by simp)
    have hb : matchToLines m = ofBlock (matchToBlock m) := by
      rw [ofBlock_good hg, matchToLines_run hm]
      have hlen : (matchToBlock m).lines.length = m.before.length + 1 + m.after.length := by
        simp [matchToBlock]; omega
      rw [hlen]
      refine runOf_congr fun i h1 h2 => ?_
      unfold lineOf
      congr 1
      simp [flag]
    have hfst : ∃ tl, matchToLines m = (lineOf text (fun n => decide ((m.lineno : Int) = n)) (startOfMatch m)) :: tl := by
      rw [matchToLines_run hm, show m.before.length + 1 + m.after.length = 1 + (m.before.length + m.after.length) by omega,
        runOf_add, runOf_one]
      exact ⟨_, rfl⟩
    obtain ⟨tl, htl⟩ := hfst
    unfold coalesceMatches Client.coalesceMatches
    simp only [List.map_cons]
    rw [coalesceLines.eq_def, htl]
    simp only
    rw [← htl]
    have hnum : (lineOf text (fun n => decide ((m.lineno : Int) = n)) (startOfMatch m)).number = startOfMatch m := rfl
    rw [hnum, if_neg (by have := hpos m (by simp); simp only [lastNumber, startOfMatch]; omega), hb]
    have := coalesceLines_sim ms [m] [] (matchToBlock m) hi (fun x hx => hms x (by simp [hx])) (by simpa using hord)
    simpa [coalesceLoop] using this

end Hound.Ui
