import Verif.Model.Mmap
/-!
# Specification: mapped files

Of the model only the types are used.
-/

namespace Hound
namespace Mm

/-- No address is in both. -/
def Apart (a la b lb : Nat) : Prop := a + la ≤ b ∨ b + lb ≤ a

/-- The mappings of a process do not overlap, and none is empty. -/
def Sound (p : Proc) : Prop :=
  (∀ r ∈ p.regions, 0 < r.len) ∧ p.regions.Pairwise fun r r' => Apart r.addr r.len r'.addr r'.len

/-- There is room for `len` bytes at this address. -/
def Room (p : Proc) (at_ len : Nat) : Prop := ∀ r ∈ p.regions, Apart at_ len r.addr r.len

/-- The file is mapped and has not been released. -/
def Mapped (p : Proc) (m : MData) : Prop := ∃ r ∈ p.regions, r.file = m.f ∧ r.addr = m.o.addr ∧ r.len = m.o.len ∧ m.o.cap = m.o.len

/-- The bytes of the pages that `n` bytes need. -/
def pages (n : Nat) : Nat := (n + 4095) / 4096 * 4096

/-- The system finds room for each of the files, one after the other. -/
inductive Rooms (content : Nat → Bytes) : Proc → List (Nat × Nat) → Prop where
  | nil (p : Proc) : Rooms content p []
  | cons (p : Proc) (f at_ : Nat) (r : List (Nat × Nat)) : Room p at_ (pages (content f).length) →
      Rooms content { p with regions := ⟨at_, pages (content f).length, f⟩ :: p.regions } r → Rooms content p ((f, at_) :: r)

end Mm
end Hound
