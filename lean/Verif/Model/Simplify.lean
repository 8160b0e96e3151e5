import Verif.Model.MovesFull

/-! # Taking loops off a diagram (`src/pd_simplify.c`) -/

namespace Plc.Simplify

open Plc.Cmp Plc.Moves

/-- The loop of `pd_simplify` (pd_simplify.c 43-64) on a diagram with crossings, in buffers of size `caps`: the first face with one
edge is looked for, and the loop at the head of this edge is taken off. Each round takes off a crossing, so `n` rounds are enough
if there are less than `n` crossings. -/
def loop (qs : QSort) : Nat → Io.Caps → Io.Pd → Res Moved
  | 0, _, _ => .error .ub
  | n + 1, caps, pd =>
    match pd.face.find? (fun f => f.edge.length = 1) with
    | none => .ok (.code caps pd)
    | some f => do
      let e ← rd f.edge 0
      let r ← rd pd.edge e
      match ← loopDeletion qs caps.verts pd r.head with
      | .unknot m => .ok (.unknot m)
      | .code caps' pd' => if pd'.cross.length = 0 then .ok (.code caps' pd') else loop qs n caps' pd'

/-- `pd_simplify` (pd_simplify.c 30-68). -/
def simplify (qs : QSort) (pd : Io.Pd) : Res Moved := do
  match ← Query.copy pd with
  | .unknot => .ok (.unknot 0)
  | .code mv pd' => loop qs (pd.cross.length + 1) (Io.capsNew mv) pd'

end Plc.Simplify
