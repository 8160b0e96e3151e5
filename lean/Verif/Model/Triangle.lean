import Verif.Model.Plug
import Verif.Model.MovesFull

/-! # Moving a strand across a crossing (`src/pd_crossingmoves.c` 1902-1944) -/

namespace Plc.Moves

open Plc.Cmp Plc.Core Plc.Io

/-- What the loop of `pd_R3_triangle_flip` writes for one side of the triangle (pd_crossingmoves.c 1915-1933). All the places are read
from the diagram given, not from the copy that is written to. -/
def flipPlugs (cross : List Cross) (edge : List Edge) (e : Nat) : Res (List Plug) := do
  let ea ← prevEdge cross edge e
  let eb ← nextEdge cross edge e
  let r ← rd edge e
  let ra ← rd edge ea
  let rb ← rd edge eb
  .ok [⟨true, ea, r.head, r.headpos⟩, ⟨true, e, ra.head, ra.headpos⟩,
    ⟨false, eb, r.tail, r.tailpos⟩, ⟨false, e, rb.tail, rb.tailpos⟩]

def flipAll (cross : List Cross) (edge : List Edge) : List Nat → Res (List Plug)
  | [] => .ok []
  | e :: l => do
    let w ← flipPlugs cross edge e
    let ws ← flipAll cross edge l
    .ok (w ++ ws)

/-- `pd_R3_triangle_flip` (pd_crossingmoves.c 1902-1944) at face `f`; `none` is the null pointer. A copy without crossings has no
face with three edges, so nothing is read from it. -/
def triangleFlip (qs : QSort) (pd : Io.Pd) (f : Nat) : Res (Option Moved) := do
  let copied ← Query.copy pd
  let face ← rd pd.face f
  if face.edge.length ≠ 3 then .ok none
  else
    match copied with
    | .unknot => .error .ub
    | .code mv ret => do
      let w ← flipAll pd.cross pd.edge face.edge
      let (cross, edge) ← plugs w (ret.cross, ret.edge)
      let (cross, edge) ← regenCrossings qs cross edge
      let (cross, edge, comps) ← Comps.regenComps qs (capsNew mv).edges (capsNew mv).comps cross edge
      let pd' ← withFaces qs (capsNew mv).faces ret.uid cross edge comps
      .ok (some (.code (capsNew mv) pd'))

end Plc.Moves
