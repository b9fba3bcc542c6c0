import Verif.Model.Coding

/-!
# `sortPost` (codesearch/index/write.go:634-691): two rounds of 12-bit radix sort

Entries are `uint64` values as natural numbers.  The counter array `sortN` is a function (its index is
always below 2^12); the target array is a list, and storing at an index is `List.set`.
-/

namespace Hound

/-- `sortN[r]++` / `sortN[i] = v`. (for codesearch/index/write.go:646-691) -/
def updN (n : Nat → Nat) (r v : Nat) : Nat → Nat := fun i => if i = r then v else n i

/-- codesearch/index/write.go:653-659: count the keys. -/
def countKeys (key : Nat → Nat) (n : Nat → Nat) : List Nat → Nat → Nat
  | [] => n
  | p :: ps => countKeys key (updN n (key p) (n (key p) + 1)) ps

/-- codesearch/index/write.go:660-664: running totals, for `i` in the given list of indices. -/
def totals (n : Nat → Nat) (tot : Nat) : List Nat → Nat → Nat
  | [] => n
  | i :: is => totals (updN n i tot) (tot + n i) is

/-- codesearch/index/write.go:665-670: put each entry in its place. -/
def place (key : Nat → Nat) (n : Nat → Nat) (tmp : List Nat) : List Nat → List Nat
  | [] => tmp
  | p :: ps => place key (updN n (key p) (n (key p) + 1)) (tmp.set (n (key p)) p) ps

/-- One round: codesearch/index/write.go:653-670, and again 673-690. -/
def radixPass (key : Nat → Nat) (post : List Nat) : List Nat :=
  let n := countKeys key (fun _ => 0) post
  let n := totals n 0 (List.range (1 <<< 12))
  place key n (List.replicate post.length 0) post

/-- `uintptr(p>>32) & (1<<k - 1)`. (for codesearch/index/write.go:646-691) -/
def sortKey1 (p : Nat) : Nat := (p >>> 32) &&& (1 <<< 12 - 1)

/-- `uintptr(p>>(32+k)) & (1<<k - 1)`. (for codesearch/index/write.go:646-691) -/
def sortKey2 (p : Nat) : Nat := (p >>> (32 + 12)) &&& (1 <<< 12 - 1)

/-- codesearch/index/write.go:646-691 `sortPost`. -/
def sortPost (post : List Nat) : List Nat := radixPass sortKey2 (radixPass sortKey1 post)

end Hound
