import Verif.Spec.Mmap
import Verif.Model.MmapWin
/-!
# Specification: mapped files on Windows

Of the model only the types are used. The rest is in `Spec/Mmap`.
-/

namespace Hound
namespace Mm
namespace Win

/-- The file is mapped and has not been released. -/
def Viewed (p : Proc) (m : MData) : Prop := ∃ r ∈ p.regions, r.file = m.f ∧ r.addr = m.d.addr ∧ 0 < m.d.len ∧ m.d.len ≤ r.len

end Win
end Mm
end Hound
