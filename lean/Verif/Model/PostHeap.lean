import Verif.Model.Coding

/-!
# `postHeap` (codesearch/index/write.go:364-488): merging sorted chunks of posting entries

Chunks are values (each `*postChunk` is only reachable through the heap).  Loops carry fuel equal to the
size of the heap: `siftDown` moves to a child each time, `siftUp` to the parent.
-/

namespace Hound

/-- codesearch/index/write.go:366-369 `postChunk`. -/
structure PostChunk where
  e : Nat
  m : List Nat
deriving DecidableEq

/-- codesearch/index/write.go:374-376 `postHeap`. -/
abbrev PostHeap := Array PostChunk

namespace PostHeap

/-- codesearch/index/write.go:466-469: the child to compare with. -/
def child (ch : PostHeap) (j1 : Nat) (h1 : j1 < ch.size) : { j : Nat // j < ch.size } :=
  if h2 : j1 + 1 < ch.size then
    if ch[j1].e ≥ ch[j1 + 1].e then ⟨j1 + 1, h2⟩ else ⟨j1, h1⟩
  else ⟨j1, h1⟩

/-- codesearch/index/write.go:459-476 `siftDown`. -/
def siftDown : Nat → (ch : PostHeap) → (i : Nat) → i < ch.size → PostHeap
  | 0, ch, _, _ => ch
  | fuel + 1, ch, i, hi =>
    if h1 : 2 * i + 1 < ch.size then
      let j := child ch (2 * i + 1) h1
      if ch[i].e < ch[j.1].e then ch
      else siftDown fuel (ch.swap i j.1 hi j.2) j.1 (by simpa using j.2)
    else ch

/-- codesearch/index/write.go:478-488 `siftUp`. (`(j-1)/2` is 0 for `j = 0` in Go, too.) -/
def siftUp : Nat → (ch : PostHeap) → (j : Nat) → j < ch.size → PostHeap
  | 0, ch, _, _ => ch
  | fuel + 1, ch, j, hj =>
    have hi : (j - 1) / 2 < ch.size := by omega
    if (j - 1) / 2 = j ∨ ch[(j - 1) / 2].e < ch[j].e then ch
    else siftUp fuel (ch.swap ((j - 1) / 2) j hi hj) ((j - 1) / 2) (by simpa using hi)

/-- codesearch/index/write.go:451-457 `push`. -/
def push (h : PostHeap) (ch : PostChunk) : PostHeap :=
  let h1 := Array.push h ch
  if h1.size ≥ 2 then siftUp h1.size h1 h.size (by simp [h1]) else h1

/-- codesearch/index/write.go:408-414 `add`, 385-387 `addMem`. -/
def addMem (h : PostHeap) (x : List Nat) : PostHeap :=
  match x with
  | [] => h
  | e :: m => h.push ⟨e, m⟩

/-- codesearch/index/write.go:440-449 `pop`, for a non-empty heap. -/
def pop (h : PostHeap) (hn : 0 < h.size) : PostHeap :=
  let n := h.size - 1
  let h1 := (h.set 0 h[n] hn).pop
  if hgt : 1 < n then siftDown h1.size h1 0 (by simp [h1]; omega) else h1

/-- codesearch/index/write.go:423-438 `next`: the entry and the heap; `none` stands for the sentinel entry
with trigram `1<<24-1` returned for an empty heap. -/
def next (h : PostHeap) : Option (Nat × PostHeap) :=
  if hn : 0 < h.size then
    let ch := h[0]
    match ch.m with
    | [] => some (ch.e, h.pop hn)
    | e' :: m' => some (ch.e, siftDown h.size (h.set 0 ⟨e', m'⟩ hn) 0 (by simpa using hn))
  else none

/-- The results of successive calls of `next` until the heap is empty (`fuel` calls at most).
(as codesearch/index/write.go:334-361 calls it) -/
def drain : Nat → PostHeap → List Nat
  | 0, _ => []
  | fuel + 1, h =>
    match h.next with
    | none => []
    | some (e, h') => e :: drain fuel h'

/-- Number of entries in the heap. (for codesearch/index/write.go:374-376) -/
def count (h : PostHeap) : Nat := (h.toList.map fun c => c.m.length + 1).sum

end PostHeap
end Hound
