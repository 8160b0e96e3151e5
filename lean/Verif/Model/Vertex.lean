import Verif.Model.Basic

/-!
# Flat vertex numbers (`src/plCurve.c`)

A curve is the list of its components, of which only the number of vertices and whether it is open matter here. `int`
arithmetic is taken not to overflow.
-/

namespace Plc.Vtx

/-- `plc_strand` (plCurve.h 102-108): `nv` and `open`. -/
structure Strand where
  nv : Nat
  isOpen : Bool
  deriving DecidableEq, Repr

/-- `plc_num_verts` (plCurve.c 1514-1522). -/
def numVerts : List Strand → Int
  | [] => 0
  | s :: t => (s.nv : Int) + numVerts t

/-- `plc_num_edges` (plCurve.c 1477-1490). -/
def numEdges : List Strand → Int
  | [] => 0
  | s :: t => (if s.isOpen then (s.nv : Int) - 1 else s.nv) + numEdges t

/-- `for(wrapVt = vt;wrapVt < 0;wrapVt += nv)` (plCurve.c 1541). Each round adds at least 1, so `-vt` rounds are
enough. -/
def addUp (nv : Nat) : Nat → Int → Int
  | 0, w => w
  | r + 1, w => if w < 0 then addUp nv r (w + nv) else w

/-- The position on the component (plCurve.c 1533-1544). With no vertices a closed component divides by zero, or loops
for ever. -/
def wrapVt (s : Strand) (vt : Int) : Res Int :=
  if s.isOpen then
    if vt < 0 then .ok 0
    else if vt > (s.nv : Int) - 1 then .ok ((s.nv : Int) - 1)
    else .ok vt
  else if s.nv = 0 then .error .ub
  else .ok ((addUp s.nv (-vt).toNat vt).tmod s.nv)

/-- `plc_vertex_num` (plCurve.c 1527-1547). -/
def vertexNum (l : List Strand) (cp : Nat) (vt : Int) : Res Int := do
  let s ← rd l cp
  let w ← wrapVt s vt
  .ok (w + numVerts (l.take cp))

/-- The loop of `plc_cp_num` (plCurve.c 1555-1561) from component `i` on. -/
def cpLoop : List Strand → Nat → Int → Res Nat
  | [], _, _ => .error .die
  | s :: t, i, w => if w - s.nv < 0 then .ok i else cpLoop t (i + 1) (w - s.nv)

/-- `plc_cp_num` (plCurve.c 1549-1566). -/
def cpNum (l : List Strand) (w : Int) : Res Nat := do
  assertC (w < numVerts l)
  cpLoop l 0 w

/-- The loop of `plc_vt_num` (plCurve.c 1574-1579). -/
def vtLoop : List Strand → Int → Res Int
  | [], _ => .error .die
  | s :: t, w => if w < s.nv then .ok w else vtLoop t (w - s.nv)

/-- `plc_vt_num` (plCurve.c 1568-1584). -/
def vtNum (l : List Strand) (w : Int) : Res Int := do
  assertC (w < numVerts l)
  vtLoop l w

end Plc.Vtx
