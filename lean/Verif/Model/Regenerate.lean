import Verif.Model.Comps
import Verif.Model.Faces
import Verif.Model.Edges

/-! # Rebuilding a diagram (`src/pdcode.c` 2069-2128) -/

namespace Plc.Regenerate

open Plc.Core Plc.Cmp

/-- Forget the sign of a crossing. -/
def unsetSign (c : Cross) : Cross := { c with sign := .unset }

/-- The choice between keeping the edge records and rebuilding them (pdcode.c 2090-2121). -/
def chooseEdges (cross : List Cross) (edge : List Edge) : Res (List Cross × List Edge) :=
  if cross.all (fun c => decide (c.sign = .unset)) then do
    let edge ← Edges.regenEdges cross
    .ok (cross, edge)
  else do
    let ok ← edgesOk cross edge
    if ok then .ok (cross, edge)
    else do
      let cross := cross.map unsetSign
      let edge ← Edges.regenEdges cross
      .ok (cross, edge)

/-- `pd_regenerate` (pdcode.c 2069-2128) without the last call, which only fills in the hash. -/
def regenerate (qs : QSort) (maxedges maxcomps maxfaces : Nat) (cross : List Cross) (edge : List Edge) :
    Res (List Cross × List Edge × List Comp × List Face) := do
  let (cross, edge) ← regenCrossings qs cross edge
  let (cross, edge) ← chooseEdges cross edge
  let (cross, edge, comps) ← Comps.regenComps qs maxedges maxcomps cross edge
  let faces ← Faces.regenFaces qs maxfaces cross edge
  .ok (cross, edge, comps, faces)

end Plc.Regenerate
