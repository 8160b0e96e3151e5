import Verif.Model.Core

/-! # Rebuilding edge records from crossings (`src/pdcode.c` 700-735, 803-1017) -/

namespace Plc.Edges

open Plc.Core

/-- `pd_oriented_edge` (pdcode.c 512-543), and `pd_reorient_edge` (545-568) on the record. -/
def orientedEdge (e : Edge) : Or → Res Edge
  | .pos => .ok e
  | .neg => .ok ⟨e.tail, e.tailpos, e.head, e.headpos⟩
  | .unset => .error .die

/-- `pdint_next_comp_edge` (pdcode.c 702-728). -/
def nextCompEdge (cross : List Cross) (edge : List Edge) (e : Nat) : Res (Nat × Or) := do
  assertC (e < edge.length)
  let r ← rd edge e
  let c ← rd cross r.head
  let n ← c.rdPos ((r.headpos + 2) % 4)
  let nr ← rd edge n
  if r.head = nr.tail ∧ (r.headpos + 2) % 4 = nr.tailpos then .ok (n, .pos)
  else if r.head = nr.head ∧ (r.headpos + 2) % 4 = nr.headpos then .ok (n, .neg)
  else .error .die

/-- `pd_crossmark_t` (pdcode.c 801-806). -/
structure Mark where
  used : List Bool
  num : Nat
  deriving DecidableEq

/-- `pdint_crossmark_new` (pdcode.c 808-829). -/
def crossmarkNew (ncross : Nat) : List Mark := List.replicate ncross ⟨List.replicate 4 false, 0⟩

/-- The loop over positions of `pdint_find_unused_cross` (pdcode.c 839-846). -/
def findUnusedPos : List Bool → Nat → Option Nat
  | [], _ => none
  | u :: l, j => if u then findUnusedPos l (j + 1) else some j

/-- `pdint_find_unused_cross` (pdcode.c 831-856), from crossing `i` on. -/
def findUnusedCross : List Mark → Nat → Option (Nat × Nat)
  | [], _ => none
  | m :: l, i =>
    if m.num ≠ 4 then
      match findUnusedPos m.used 0 with
      | some j => some (i, j)
      | none => findUnusedCross l (i + 1)
    else findUnusedCross l (i + 1)

/-- The places where an edge number is written, in the order in which
`pdint_find_edge_in_crossings` (pdcode.c 858-901) meets them, from crossing `i` on. -/
def hitsFrom (e : Nat) : List Cross → Nat → List (Nat × Nat)
  | [], _ => []
  | c :: l, i => ([0, 1, 2, 3].filter (fun j => decide (c.at j = e))).map (fun j => (i, j)) ++
      hitsFrom e l (i + 1)

/-- `pdint_find_edge_in_crossings` (pdcode.c 858-901): the first two places, or `exit`. -/
def findEdge (cross : List Cross) (e : Nat) : Res ((Nat × Nat) × (Nat × Nat)) :=
  match hitsFrom e cross 0 with
  | p :: q :: _ => .ok (p, q)
  | _ => .error .die

/-- The loop generating edge records without regard to direction (pdcode.c 935-944), for edges
`e`, ..., `e + r - 1`. -/
def initEdges (cross : List Cross) : Nat → Nat → Res (List Edge)
  | 0, _ => .ok []
  | r + 1, e => do
    let (p, q) ← findEdge cross e
    let l ← initEdges cross r (e + 1)
    .ok (⟨p.1, p.2, q.1, q.2⟩ :: l)

/-- `cm[c].pos_used[k] = true; cm[c].num_used++` (pdcode.c 959-962, 981-984). -/
def markPlace (cm : List Mark) (c k : Nat) : Res (List Mark) := do
  let m ← rd cm c
  let u ← wr m.used k true
  wr cm c ⟨u, m.num + 1⟩

/-- Marking both ends of an edge. -/
def markEdge (cm : List Mark) (r : Edge) : Res (List Mark) := do
  let cm ← markPlace cm r.head r.headpos
  markPlace cm r.tail r.tailpos

/-- The body of the loop along a component (pdcode.c 975-984). -/
def visit (n : Nat) (o : Or) (edge : List Edge) (cm : List Mark) :
    Res (List Edge × List Mark) := do
  let x ← rd edge n
  let x' ← orientedEdge x o
  let edge ← wr edge n x'
  let cm ← markEdge cm x'
  .ok (edge, cm)

/-- The loop along a component (pdcode.c 968-994); the first argument is
`nedges - compsafe`. -/
def walkEdges (cross : List Cross) (start : Nat) : Nat → Nat → Or → List Edge → List Mark →
    Res (List Edge × List Mark)
  | 0, n, o, edge, cm =>
    if n = start then .ok (edge, cm)
    else do
      let _ ← visit n o edge cm
      .error .die
  | r + 1, n, o, edge, cm =>
    if n = start then .ok (edge, cm)
    else do
      let (edge, cm) ← visit n o edge cm
      let (n', o') ← nextCompEdge cross edge n
      walkEdges cross start r n' o' edge cm

/-- One component (pdcode.c 955-994), starting at the unused place `(i, j)`. -/
def oneComp (cross : List Cross) (i j : Nat) (edge : List Edge) (cm : List Mark) :
    Res (List Edge × List Mark) := do
  let c ← rd cross i
  let s ← c.rdPos j
  let r ← rd edge s
  let cm ← markEdge cm r
  let (n, o) ← nextCompEdge cross edge s
  walkEdges cross s edge.length n o edge cm

/-- The loop over components (pdcode.c 953-1005); the first argument is
`ncross - failsafe`. -/
def compLoop (cross : List Cross) : Nat → List Edge → List Mark → Res (List Edge)
  | 0, edge, cm =>
    match findUnusedCross cm 0 with
    | none => .ok edge
    | some (i, j) => do
      let _ ← oneComp cross i j edge cm
      .error .die
  | r + 1, edge, cm =>
    match findUnusedCross cm 0 with
    | none => .ok edge
    | some (i, j) => do
      let (edge, cm) ← oneComp cross i j edge cm
      compLoop cross r edge cm

/-- `pd_regenerate_edges` (pdcode.c 903-1017). -/
def regenEdges (cross : List Cross) : Res (List Edge) := do
  let edge ← initEdges cross (2 * cross.length) 0
  let edge ← compLoop cross cross.length edge (crossmarkNew cross.length)
  let ok ← edgesOk cross edge
  assertC ok
  .ok edge

end Plc.Edges
