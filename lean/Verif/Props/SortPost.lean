import Verif.Proofs.SortPost

/-!
# C13: the radix sort of posting entries sorts

A posting entry is a 64-bit number: the trigram (24 bits) above the file id (32 bits), so its value
is below 2^56.
-/

namespace Hound

/-- **C13** `sortPost` loses and invents nothing; the result is ordered by trigram; and the entries of
one trigram keep their order. -/
theorem sortPost_sorts {post : List Nat} (h24 : ∀ p ∈ post, p < 2 ^ 56) :
    (sortPost post).Perm post ∧
    (sortPost post).Pairwise (fun a b => entryTrigram a ≤ entryTrigram b) ∧
    ∀ t, (sortPost post).filter (fun p => entryTrigram p == t) =
      post.filter (fun p => entryTrigram p == t) := by
  refine ⟨sortPost_perm post, ?_, fun t => sortPost_stable t⟩
  have h : post.Pairwise (fun _ _ => True) := List.pairwise_of_forall (fun _ _ => trivial)
  exact (sortPost_pairwise h h24).imp (fun h => by omega)

/-- **C13**, as it is used: if the buffer is in order of file ids (files are added one after the other) and
has no entry twice, then the result is strictly increasing. -/
theorem sortPost_strictly_increasing {post : List Nat} (h24 : ∀ p ∈ post, p < 2 ^ 56)
    (hf : post.Pairwise (fun a b => entryFileid a ≤ entryFileid b)) (hn : post.Nodup) :
    (sortPost post).Pairwise (· < ·) := by
  have hp := sortPost_perm post
  have h1 := sortPost_pairwise (hf.and hn) h24
  refine h1.imp_of_mem ?_
  intro a b ha hb hab
  have ha' := h24 a (hp.mem_iff.1 ha)
  have hb' := h24 b (hp.mem_iff.1 hb)
  simp only [entryTrigram, entryFileid, Nat.shiftRight_eq_div_pow] at hab
  rcases hab with h | ⟨h2, h3, h4⟩
  · omega
  · omega

/-- Three files, out-of-order trigrams that differ in the high and in the low 12 bits. -/
example : ∀ p ∈ [makePostEntry 6382179 0, makePostEntry 6382178 0, makePostEntry 25697 1,
    makePostEntry 6382178 1], p < 2 ^ 56 := by decide
example : (sortPost [makePostEntry 6382179 0, makePostEntry 6382178 0, makePostEntry 25697 1,
    makePostEntry 6382178 1]).Pairwise (· < ·) :=
  sortPost_strictly_increasing (by decide) (by decide) (by decide)

end Hound
