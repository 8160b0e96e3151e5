import Verif.Model.Moves

/-! # Putting the end of an edge into a place (`src/pd_crossingmoves.c`) -/

namespace Plc.Moves

open Plc.Cmp Plc.Core

/-- One end of edge `e`, its head or its tail, and the place it is put at. -/
structure Plug where
  head : Bool
  e : Nat
  c : Nat
  k : Nat
  deriving DecidableEq, Repr

/-- The statements `cross[c].edge[k] = e; edge[e].head = c; edge[e].headpos = k;`, or the same with tails, which the moves consist of
(for instance pd_crossingmoves.c 1777-1779). The two buffers are different objects, so the order of the three statements does not
matter. -/
def plug (d : List Cross × List Edge) (w : Plug) : Res (List Cross × List Edge) := do
  let cross ← setSlot d.1 w.c w.k w.e
  let r ← rd d.2 w.e
  let edge ← wr d.2 w.e (if w.head then { r with head := w.c, headpos := w.k } else { r with tail := w.c, tailpos := w.k })
  .ok (cross, edge)

def plugs : List Plug → List Cross × List Edge → Res (List Cross × List Edge)
  | [], d => .ok d
  | w :: l, d => do
    let d ← plug d w
    plugs l d

end Plc.Moves
