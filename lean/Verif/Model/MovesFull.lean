import Verif.Model.Moves
import Verif.Model.Query
import Verif.Model.HashGen
import Verif.Model.Faces
import Verif.Model.Ok

/-! # Whole moves, from diagram to diagram (`src/pd_crossingmoves.c`) -/

namespace Plc.Moves

open Plc.Cmp Plc.Core Plc.Io

deriving instance DecidableEq, Repr for Io.Caps

/-- What a move returns: `pd_build_unknot(n)`, or a diagram with the sizes of its buffers. -/
inductive Moved where
  | unknot (n : Nat)
  | code (caps : Io.Caps) (pd : Io.Pd)
  deriving DecidableEq, Repr

/-- `pd_regenerate_faces` and `pd_regenerate_hash` on new records. -/
def withFaces (qs : QSort) (maxfaces uid : Nat) (cross : List Cross) (edge : List Edge) (comps : List Comp) : Res Io.Pd := do
  let faces ← Faces.regenFaces qs maxfaces cross edge
  let hash ← HashGen.regenHash qs cross.length edge.length faces comps
  .ok ⟨hash, uid, cross, edge, comps, faces⟩

/-- `pd_R1_loop_addition` (pd_crossingmoves.c 647-700) at edge `i` of face `f`. The copy has crossings, since the diagram has. -/
def loopAddition (qs : QSort) (pd : Io.Pd) (f i : Nat) : Res Moved :=
  if pd.cross.length = 0 then .ok (.unknot 1)
  else do
    let n := pd.cross.length + 2
    match ← Query.copyNewsize pd n with
    | .unknot => .error .ub
    | .code mv ret => do
      let face ← rd pd.face f
      let (cross, edge, comps) ← r1Add qs ret.cross ret.edge face i
      let pd' ← withFaces qs (capsNew mv).faces ret.uid cross edge comps
      .ok (.code (capsNew mv) pd')

/-- `pd_R1_loopdeletion` (pd_crossingmoves.c 403-645) at crossing `cr` of a diagram in buffers for `mv` crossings. The buffers
of the result are cut to size, except that for faces. -/
def loopDeletion (qs : QSort) (mv : Nat) (pd : Io.Pd) (cr : Nat) : Res Moved := do
  match ← r1Del qs pd.cross pd.edge pd.comp pd.face.length cr with
  | none => .ok (.unknot 0)
  | some (cross, edge, comps) => do
    let caps : Io.Caps := ⟨cross.length, edge.length, pd.comp.length, (capsNew (mv - 1)).faces⟩
    let pd' ← withFaces qs caps.faces 0 cross edge comps
    let ok ← Ok.pdOk qs caps pd'
    assertC ok
    assertC (decide (pd'.face.length = pd.face.length - 1))
    assertC (decide (pd'.cross.length = pd.cross.length - 1))
    assertC (decide (pd'.edge.length = pd.edge.length - 2))
    .ok (.code caps pd')

end Plc.Moves
