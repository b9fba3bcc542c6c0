import Verif.Proofs.QueryNodesAnalyze
import Verif.Props.RegexpQuery

/-!
# C99: searches do not disturb one another

Making the query for a pattern overwrites query nodes in memory, and two nodes, `allQuery` and `noneQuery`, are shared by
all searches of the process.  No node that was there before is ever changed, whatever the pattern; so the query of a search
is the one it would be if no other search had been made, and it stays so as long as it is used, whatever searches come
later.
-/

namespace Hound
namespace QN
open Spec

variable {grow : Nat → Nat → Nat} {orbit : Rune → List Rune}

mutual
/-- What is read from an address is determined. -/
theorem rep_unique {n : Nodes} : ∀ {q q' : Query} {a : Nat} {F F' : List Nat}, Rep n q a F → Rep n q' a F' → q = q'
  | .mk op tri qs, .mk op' tri' qs', a, F, F', h, h' => by
    unfold Rep at h h'
    obtain ⟨subs, G, hg, hs, _⟩ := h
    obtain ⟨subs', G', hg', hs', _⟩ := h'
    rw [hg] at hg'
    cases hg'
    rw [reps_unique hs hs']
theorem reps_unique {n : Nodes} : ∀ {qs qs' : List Query} {as F F' : List Nat}, Reps n qs as F → Reps n qs' as F' → qs = qs'
  | [], [], _, _, _, _, _ => rfl
  | [], q' :: qs', as, F, F', h, h' => by
    have := h.length
    have := h'.length
    simp_all
  | q :: qs, [], as, F, F', h, h' => by
    have := h.length
    have := h'.length
    simp_all
  | q :: qs, q' :: qs', as, F, F', h, h' => by
    unfold Reps at h h'
    obtain ⟨a, as1, F1, F2, rfl, rfl, h1, h2, _⟩ := h
    obtain ⟨a', as1', F1', F2', e, rfl, h1', h2', _⟩ := h'
    cases e
    rw [rep_unique h1 h1', reps_unique h2 h2']
end

/-- The nodes of a process that starts. -/
theorem base_start : Base start := ⟨rfl, rfl⟩

/-- Making the query for a pattern changes no node that was there before; in particular not the two shared ones. -/
theorem nothing_overwritten {n : Nodes} (hb : Base n) (re : Re) {a : Nat} (ha : a < n.length) :
    (regexpQuery grow orbit re n).1[a]? = n[a]? :=
  (regexpQuery_makes grow orbit re n hb).keep a ha (by simp)

theorem after_keeps : ∀ (res : List Re) {n : Nodes}, Base n →
    Base (after grow orbit res n) ∧ n.length ≤ (after grow orbit res n).length ∧
      ∀ a, a < n.length → (after grow orbit res n)[a]? = n[a]?
  | [], n, hb => ⟨hb, Nat.le_refl _, fun _ _ => rfl⟩
  | re :: res, n, hb => by
    have d := regexpQuery_makes grow orbit re n hb
    obtain ⟨h1, h2, h3⟩ := after_keeps res d.base
    refine ⟨h1, Nat.le_trans d.len h2, ?_⟩
    intro a ha
    have := d.len
    show (after grow orbit res (regexpQuery grow orbit re n).1)[a]? = _
    rw [h3 a (by omega), d.keep a ha (by simp)]

/-- **C99**: the two shared nodes are, after any searches, what they were at the start. -/
theorem shared_kept (res : List Re) :
    (after grow orbit res start)[allQuery]? = some ⟨.all, [], []⟩ ∧
      (after grow orbit res start)[noneQuery]? = some ⟨.none, [], []⟩ :=
  (after_keeps res base_start).1

/-- **C99**: whatever searches have been made before, and whatever searches are made until the query is used: what is
read from memory is the query of the pattern alone. -/
theorem query_undisturbed (before later : List Re) (re : Re) :
    let s := regexpQuery grow orbit re (after grow orbit before start)
    ∃ F, Rep (after grow orbit later s.1) (HInfo.regexpQuery grow orbit re).1 s.2 F := by
  intro s
  have d := regexpQuery_makes grow orbit re _ (after_keeps (grow := grow) (orbit := orbit) before base_start).1
  obtain ⟨K, hK, _⟩ := d.rep
  obtain ⟨h1, h2, h3⟩ := after_keeps (grow := grow) (orbit := orbit) later d.base
  refine ⟨K, hK.frame ?_ ?_ ?_⟩
  · rw [h1.1, d.base.1]
  · rw [h1.2, d.base.2]
  · intro x hx
    exact h3 x (hK.facts.2 x hx).2

/-- With C09: if a file has a match of the pattern and no set was overwritten by `alternate`, the file satisfies the query
that is read from memory, whatever other searches are made. -/
theorem query_in_memory_sound_partial (before later : List Re) {re : Re} {w : Bytes} {q : Query} {F : List Nat}
    (hz : (HInfo.regexpQuery grow orbit re).2 = false) (hm : Matches orbit re w)
    (hq : Rep (after grow orbit later (regexpQuery grow orbit re (after grow orbit before start)).1) q
      (regexpQuery grow orbit re (after grow orbit before start)).2 F) :
    Sat (HasTrigram w) q := by
  obtain ⟨F', h'⟩ := query_undisturbed (grow := grow) (orbit := orbit) before later re
  rw [rep_unique hq h']
  exact regexpQuery_sound_partial hz hm

/-- **C99**, while queries are being made: of three trees with no node in common, `and` and `or` of two leave the third as it
is, and it has no node in common with the result either. -/
theorem third_undisturbed {n : Nodes} (hb : Base n) {x y z : Query} {a b c : Nat} {F G H : List Nat} (op : QOp)
    (hx : Rep n x a F) (hy : Rep n y b G) (hz : Rep n z c H) (hFG : Apart F G) (hFH : Apart F H) (hGH : Apart G H) :
    Rep (andOr n a b op).1 z c H ∧
      ∃ K, Rep (andOr n a b op).1 (Query.andOr x y op) (andOr n a b op).2 K ∧ Apart K H := by
  have d := andOr_done op hb hx hy hFG
  obtain ⟨K, hK, hm⟩ := d.rep
  refine ⟨hz.frame (by rw [d.base.1, hb.1]) (by rw [d.base.2, hb.2]) ?_, K, hK, ?_⟩
  · intro u hu
    refine d.keep u (hz.facts.2 u hu).2 fun h => ?_
    rcases List.mem_append.1 h with h | h
    · exact hFH u h hu
    · exact hGH u h hu
  · intro u hu hu'
    rcases hm u hu with h | h
    · rcases List.mem_append.1 h with h | h
      · exact hFH u h hu'
      · exact hGH u h hu'
    · have := (hz.facts.2 u hu').2
      omega

/-! ## Example: `abcd|wxyz` and then `abcd.*wxyz` in one process

The second query is made by overwriting node 5, which holds the trigrams of `abcd` at first; the nodes 2 to 4 of the first
query stay as they are. -/

/-- The nodes after the first of the two searches. -/
def firstNodes : Nodes := start ++ [⟨.and, [b!"abc", b!"bcd"], []⟩, ⟨.and, [b!"wxy", b!"xyz"], []⟩, ⟨.or, [], [2, 3]⟩]

theorem first_example : regexpQuery goGrow (fun _ => [])
    (.alternate [.literal [97, 98, 99, 100] false, .literal [119, 120, 121, 122] false]) start = (firstNodes, 4) := by
  decide +kernel

theorem second_example : regexpQuery goGrow (fun _ => [])
    (.concat [.literal [97, 98, 99, 100] false, .star .anyChar, .literal [119, 120, 121, 122] false]) firstNodes =
      (firstNodes ++ [⟨.and, [b!"abc", b!"bcd", b!"wxy", b!"xyz"], []⟩, ⟨.and, [b!"wxy", b!"xyz"], []⟩], 5) := by
  decide +kernel

/-- The hypotheses of `third_undisturbed` and of `nothing_overwritten` are met there: the first query, and two trees for
the second one to join. -/
example : Base (firstNodes ++ [⟨.and, [b!"abc"], []⟩, ⟨.and, [b!"xyz"], []⟩]) ∧
    Rep (firstNodes ++ [⟨.and, [b!"abc"], []⟩, ⟨.and, [b!"xyz"], []⟩])
      (.mk .or [] [.mk .and [b!"abc", b!"bcd"] [], .mk .and [b!"wxy", b!"xyz"] []]) 4 [4, 2, 3] ∧
    Rep (firstNodes ++ [⟨.and, [b!"abc"], []⟩, ⟨.and, [b!"xyz"], []⟩]) (.mk .and [b!"abc"] []) 5 [5] ∧
    Rep (firstNodes ++ [⟨.and, [b!"abc"], []⟩, ⟨.and, [b!"xyz"], []⟩]) (.mk .and [b!"xyz"] []) 6 [6] := by
  refine ⟨⟨rfl, rfl⟩, ?_, ?_, ?_⟩
  · unfold Rep
    refine ⟨[2, 3], [2, 3], rfl, ?_, Or.inr ⟨by decide, by decide, rfl⟩⟩
    unfold Reps
    refine ⟨2, [3], [2], [3], rfl, rfl, ?_, ?_, fun x hx => by simp_all⟩
    · unfold Rep
      exact ⟨[], [], rfl, Reps.nil _, Or.inr ⟨by decide, by decide, rfl⟩⟩
    · refine Reps.single ?_
      unfold Rep
      exact ⟨[], [], rfl, Reps.nil _, Or.inr ⟨by decide, by decide, rfl⟩⟩
  · unfold Rep
    exact ⟨[], [], rfl, Reps.nil _, Or.inr ⟨by decide, by decide, rfl⟩⟩
  · unfold Rep
    exact ⟨[], [], rfl, Reps.nil _, Or.inr ⟨by decide, by decide, rfl⟩⟩

end QN
end Hound
