import Verif.Model.Plug
import Verif.Model.MovesFull

/-! # Pushing two edges of a face across each other (`src/pd_crossingmoves.c` 1727-1900) -/

namespace Plc.Moves

open Plc.Cmp Plc.Core Plc.Io

/-- The new crossings and the places of the ends there (pd_crossingmoves.c 1766-1868), in the order of the program. With an unset
orientation nothing is written and the new records are not filled in; faces never carry it, and it is an error here. -/
def bigonNew (c0 c1 e1 a1 b1 e2 a2 b2 : Nat) : Or → Or → Res (List Plug)
  | .pos, .pos => .ok [⟨true, a1, c0, 0⟩, ⟨false, e1, c0, 2⟩, ⟨true, e2, c0, 1⟩, ⟨false, b2, c0, 3⟩,
      ⟨false, e2, c1, 0⟩, ⟨true, a2, c1, 2⟩, ⟨false, b1, c1, 1⟩, ⟨true, e1, c1, 3⟩]
  | .pos, .neg => .ok [⟨true, a1, c0, 0⟩, ⟨false, e1, c0, 2⟩, ⟨false, e2, c0, 1⟩, ⟨true, a2, c0, 3⟩,
      ⟨true, e2, c1, 0⟩, ⟨false, b2, c1, 2⟩, ⟨false, b1, c1, 1⟩, ⟨true, e1, c1, 3⟩]
  | .neg, .neg => .ok [⟨true, a1, c0, 0⟩, ⟨false, e1, c0, 2⟩, ⟨false, b2, c0, 1⟩, ⟨true, e2, c0, 3⟩,
      ⟨false, e2, c1, 0⟩, ⟨true, a2, c1, 2⟩, ⟨true, e1, c1, 1⟩, ⟨false, b1, c1, 3⟩]
  | .neg, .pos => .ok [⟨true, a1, c0, 0⟩, ⟨false, e1, c0, 2⟩, ⟨true, a2, c0, 1⟩, ⟨false, e2, c0, 3⟩,
      ⟨true, e2, c1, 0⟩, ⟨false, b2, c1, 2⟩, ⟨true, e1, c1, 1⟩, ⟨false, b1, c1, 3⟩]
  | _, _ => .error .ub

/-- The new records in the buffers of the copy, before they are written; the sign is set at pd_crossingmoves.c 1870-1871. -/
def blankCross : Cross := ⟨0, 0, 0, 0, .unset⟩

/-- The surgery of `pd_R2_bigon_addition` (pd_crossingmoves.c 1742-1892). The old ends are read from the diagram given. -/
def bigonRaw (cross : List Cross) (edge : List Edge) (e1 e2 : Nat) (o1 o2 : Or) : Res (List Cross × List Edge) := do
  let c0 := cross.length
  let c1 := cross.length + 1
  let a1 := edge.length
  let b1 := edge.length + 1
  let a2 := edge.length + 2
  let b2 := edge.length + 3
  let r1 ← rd edge e1
  let r2 ← rd edge e2
  let new ← bigonNew c0 c1 e1 a1 b1 e2 a2 b2 o1 o2
  plugs (new ++ [⟨true, b1, r1.head, r1.headpos⟩, ⟨false, a1, r1.tail, r1.tailpos⟩,
      ⟨true, b2, r2.head, r2.headpos⟩, ⟨false, a2, r2.tail, r2.tailpos⟩])
    (cross ++ [blankCross, blankCross], edge ++ [zeroEdge, zeroEdge, zeroEdge, zeroEdge])

/-- `pd_R2_bigon_addition` (pd_crossingmoves.c 1727-1900) at the places `i` and `j` of face `f`. The edge of a diagram without
crossings has no ends: `cross[PD_UNSET_IDX]` is written then. The last argument of the function is never used. -/
def bigonAddition (qs : QSort) (pd : Io.Pd) (f i j : Nat) : Res Moved := do
  let n := pd.cross.length + 2
  match ← Query.copyNewsize pd n with
  | .unknot => .error .ub
  | .code mv ret => do
    let face ← rd ret.face f
    let e1 ← rd face.edge i
    let o1 ← rd face.orient i
    let e2 ← rd face.edge j
    let o2 ← rd face.orient j
    let (cross, edge) ← bigonRaw ret.cross ret.edge e1 e2 o1 o2
    let (cross, edge) ← regenCrossings qs cross edge
    let (cross, edge, comps) ← Comps.regenComps qs (capsNew mv).edges (capsNew mv).comps cross edge
    let pd' ← withFaces qs (capsNew mv).faces ret.uid cross edge comps
    .ok (.code (capsNew mv) pd')

end Plc.Moves
