import Verif.Model.Pack
import Verif.Model.Regenerate
import Verif.Model.Ok
import Verif.Model.HashGen

/-! # `pd_regenerate` and `pd_unpack` on whole diagrams -/

namespace Plc.Unpack

/-- `pd_regenerate` (pdcode.c 2069-2128), hash included, on a diagram in buffers with the capacities `caps`.
The uid is left alone. -/
def regeneratePd (qs : QSort) (caps : Io.Caps) (pd : Io.Pd) : Res Io.Pd := do
  let (cross, edge, comp, face) ← Regenerate.regenerate qs caps.edges caps.comps caps.faces pd.cross pd.edge
  let hash ← HashGen.regenHash qs cross.length edge.length face comp
  .ok ⟨hash, pd.uid, cross, edge, comp, face⟩

/-- `pd_unpack` (pd_pack.c 381-429). `pd_code_new` (pdcode.c 46-83) makes a diagram with uid 0, without components
and faces, whose hash is a single blank. -/
def unpack (qs : QSort) (words : List Nat) : Res Io.Pd := do
  let (cross, edge) ← Pack.unpackRaw words
  let pd ← regeneratePd qs (Io.capsNew cross.length) ⟨[' '], 0, cross, edge, [], []⟩
  let ok ← Ok.pdOk qs (Io.capsNew cross.length) pd
  assertC ok
  .ok pd

end Plc.Unpack
