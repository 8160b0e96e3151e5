import Verif.Model.Store
import Verif.Model.Unpack
import Verif.Model.Isotopy

/-! # The store with the functions it calls -/

namespace Plc.Store

/-- A diagram together with the argument of the `pd_code_new` that made its buffers. -/
abbrev Held := Nat × Io.Pd

/-- The functions `pd_storage.c` calls: `pd->hash` as a string of bytes, `pd_pack`, `pd_unpack`, which makes
buffers for `ncross` crossings (pd_pack.c 403), `pd_isomorphic` and `pd_diagram_isotopic`. -/
def realKit (qs : QSort) (bs : PermM.BSearch) : Kit Held (List Nat) where
  hash p := p.2.hash.map Char.toNat
  pack p := Pack.pack p.2.cross p.2.edge
  unpack ws := do
    let pd ← Unpack.unpack qs ws
    .ok (pd.cross.length, pd)
  isomorphic a b := IsoSearch.isomorphic qs bs (Io.capsNew a.1) (Io.capsNew b.1) a.2 b.2
  isotopic a b := Isotopy.diagramIsotopic qs bs a.2 b.2

end Plc.Store
