import Verif.Model.Mmap
/-!
Files mapped into memory on Windows: `codesearch/index/mmap_windows.go`, with `MapViewOfFile` and `UnmapViewOfFile` as documented. The types
are those of `Model/Mmap`. Files do not change while they are mapped. Failures of the operating system are not modelled.
-/

namespace Hound
namespace Mm
namespace Win

/-- codesearch/index/mmap_windows.go:14-39 `mmapFile`. The system has chosen address `at_`; the view has the pages of the file. `none`: the
program ends, since the file is longer than the array type of line 37 (`data[:size]` in line 38 panics). -/
def mmapFile (content : Nat → Bytes) (at_ : Nat) (p : Proc) (f : Nat) : Option (MData × Proc) :=
  let n := (content f).length
  if n = 0 then some (⟨f, ⟨0, 0, 0⟩, ⟨0, 0, 0⟩⟩, p)
  else if n > 2 ^ 30 then none
  else some (⟨f, ⟨at_, n, 2 ^ 30⟩, ⟨at_, 2 ^ 30, 2 ^ 30⟩⟩, { p with regions := ⟨at_, roundUp n, f⟩ :: p.regions })

/-- `UnmapViewOfFile`: the address must be the first of a view. `none` is an error. (for codesearch/index/mmap_windows.go:42, 51) -/
def unmapView (p : Proc) (a : Nat) : Option Proc :=
  match p.regions.find? fun r => r.addr = a with
  | none => none
  | some r => some { p with regions := p.regions.filter fun r' => r' ≠ r }

/-- What closing gives. (for codesearch/index/mmap_windows.go:41-48) -/
inductive Closed where
  | ok
  | failed
  | panics
deriving DecidableEq

/-- codesearch/index/mmap_windows.go:41-48 `unmmapFile`: `m.d[0]` panics for an empty slice. -/
def unmmapFile (m : MData) (p : Proc) : Closed × Proc :=
  if m.d.len = 0 then (.panics, p)
  else
    match unmapView p m.d.addr with
    | none => (.failed, p)
    | some p' => (.ok, { p' with open_ := p'.open_.filter fun f => f ≠ m.f })

/-- codesearch/index/mmap_windows.go:50-52 `unmmap`, as it is called in write.go:249: the address is that of the argument, which is a variable
at `var`, not of the bytes. The error is ignored. -/
def unmmap (var : Nat) (p : Proc) (_d : Slice) : Proc := (unmapView p var).getD p

/-- codesearch/index/write.go:323-326 and 378-383: the files are mapped; the slices are kept. -/
def mapAll (content : Nat → Bytes) : List (Nat × Nat) → Proc → Option (List Slice × Proc)
  | [], p => some ([], p)
  | (f, at_) :: r, p => (mmapFile content at_ p f).bind fun x => (mapAll content r x.2).map fun y => (x.1.d :: y.1, y.2)

/-- codesearch/index/write.go:248-250. The argument of each call is at an address of its own. -/
def unmapAll (p : Proc) (ds : List (Nat × Slice)) : Proc := ds.foldl (fun p d => unmmap d.1 p d.2) p

end Win
end Mm
end Hound
