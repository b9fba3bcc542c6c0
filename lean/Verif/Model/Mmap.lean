import Verif.Model.IndexWrite
/-!
Files mapped into memory: `codesearch/index/mmap_linux.go`, `read.go:417-451` and `write.go:248-253, 323-326, 378-383`, with `Mmap` and
`Munmap` of Go's package `syscall` (from the Go source as known, since the standard library is not in the sandbox).

`mmap_bsd.go` differs in `MAP_PRIVATE` only, which is the same for mappings that are only read.

Files are numbers, and do not change while they are mapped. Failures of the operating system are not modelled.
-/

namespace Hound
namespace Mm

/-- A slice: where it begins, its length and its capacity. (for codesearch/index/mmap_linux.go:26-30) -/
structure Slice where
  addr : Nat
  len : Nat
  cap : Nat
deriving DecidableEq

/-- A mapping: where it begins, its length, and the file. (for codesearch/index/mmap_linux.go:26) -/
structure Region where
  addr : Nat
  len : Nat
  file : Nat
deriving DecidableEq

/-- The mappings of the process and its open files. Simplification: the table that package `syscall` keeps has an entry for each of the
mappings, by the last address. (for codesearch/index/mmap_linux.go:26-42) -/
structure Proc where
  regions : List Region
  open_ : List Nat

/-- `(n+4095)&^4095` (codesearch/index/mmap_linux.go:26) -/
def roundUp (n : Nat) : Nat := (n + 4095) - (n + 4095) % 4096

/-- codesearch/index/read.go:417-422 `mmapData`. -/
structure MData where
  f : Nat
  d : Slice
  o : Slice

/-- codesearch/index/mmap_linux.go:13-31 `mmapFile`. The system has chosen address `at_`. `none`: the program ends, since the
file is too large (where `int` has 64 bits the test in line 19 is never true, but the length in line 26 is then negative, and `Mmap` fails). -/
def mmapFile (content : Nat → Bytes) (at_ : Nat) (p : Proc) (f : Nat) : Option (MData × Proc) :=
  let n := (content f).length
  if n + 4095 ≥ 2 ^ 63 then none
  else if n = 0 then some (⟨f, ⟨0, 0, 0⟩, ⟨0, 0, 0⟩⟩, p)
  else
    let data : Slice := ⟨at_, roundUp n, roundUp n⟩
    some (⟨f, { data with len := n }, data⟩, { p with regions := ⟨at_, roundUp n, f⟩ :: p.regions })

/-- `syscall.Munmap`: the slice must be all of a mapping. `none` is an error. (for codesearch/index/mmap_linux.go:34, 42) -/
def munmap (p : Proc) (b : Slice) : Option Proc :=
  if b.len = 0 ∨ b.len ≠ b.cap then none
  else
    match p.regions.find? fun r => r.addr + r.len = b.addr + b.cap with
    | none => none
    | some r => if r.addr ≠ b.addr then none else some { p with regions := p.regions.filter fun r' => r' ≠ r }

/-- codesearch/index/mmap_linux.go:33-39 `unmmapFile`: whether it succeeds. -/
def unmmapFile (m : MData) (p : Proc) : Bool × Proc :=
  match munmap p m.o with
  | none => (false, p)
  | some p' => (true, { p' with open_ := p'.open_.filter fun f => f ≠ m.f })

/-- codesearch/index/mmap_linux.go:41-43 `unmmap`, as it is called in write.go:249: the error is ignored. -/
def unmmap (p : Proc) (d : Slice) : Proc := (munmap p d).getD p

/-- codesearch/index/write.go:323-326 and 378-383: the files are mapped; the slices are kept. -/
def mapAll (content : Nat → Bytes) : List (Nat × Nat) → Proc → Option (List Slice × Proc)
  | [], p => some ([], p)
  | (f, at_) :: r, p => (mmapFile content at_ p f).bind fun x => (mapAll content r x.2).map fun y => (x.1.d :: y.1, y.2)

/-- codesearch/index/write.go:248-250 -/
def unmapAll (p : Proc) (ds : List Slice) : Proc := ds.foldl unmmap p

/-- The byte at an address: of the file, 0 up to the end of its last page, and a fault behind it and where nothing is mapped.
(for codesearch/index/mmap_linux.go:26-30) -/
def load (content : Nat → Bytes) (p : Proc) (a : Nat) : Option UInt8 :=
  match p.regions.find? fun r => r.addr ≤ a ∧ a < r.addr + r.len with
  | none => none
  | some r =>
    if a - r.addr < (content r.file).length then (content r.file)[a - r.addr]?
    else if a - r.addr < roundUp (content r.file).length then some 0
    else none

end Mm
end Hound
