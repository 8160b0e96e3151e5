import Verif.Model.Multidx
import Verif.Model.Perm
import Verif.Model.Iters

/-! # The iterators a multi-index can run over -/

namespace Plc.Multidx

/-- `perm_ops` (pd_perm.c 40-43). -/
def permOps : Ops PermM.Perm := ⟨PermM.incPerm, PermM.nperms⟩
/-- `dihedral_ops` (pd_dihedral.c 42-45). -/
def dihedralOps : Ops Iters.Dihedral := ⟨Iters.incDihedral, fun d => .ok (Iters.ndihedrals d)⟩
/-- `cyclic_ops` (pd_cyclic.c 39-42). -/
def cyclicOps : Ops (List Nat) := ⟨Iters.incCyclic, fun m => .ok (Iters.ncyclics m)⟩
/-- `orientation_ops` (pd_orientation.c 41-44). -/
def orientationOps : Ops Or := ⟨Iters.incOrientation, fun d => .ok (Iters.norientations d)⟩

end Plc.Multidx
