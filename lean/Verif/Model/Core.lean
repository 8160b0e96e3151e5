import Verif.Model.Cmp

/-! # Crossing and edge records (`src/pdcode.c`) -/

namespace Plc.Core

open Plc.Cmp

/-- `pdint_rotate_left` (pdcode.c 589-605). -/
def rotL (c : Cross) (k : Nat) : Cross := ⟨c.at k, c.at (1 + k), c.at (2 + k), c.at (3 + k), c.sign⟩

/-- One round of the search for the lowest edge (pdcode.c 616-624). -/
def rdistStep (c : Cross) (pos : Nat) (s : Nat × Nat) : Nat × Nat :=
  if c.at pos < s.2 then (pos, c.at pos) else s

/-- `pdint_cross_rdist` (pdcode.c 607-632). -/
def rdist (c : Cross) : Nat :=
  let s := rdistStep c 3 (rdistStep c 2 (rdistStep c 1 (0, c.at 0)))
  if c.at (s.1 + 3) = s.2 then (s.1 + 3) % 4 else s.1

/-- `pd_canonorder_cross` (pdcode.c 243-263). -/
def canonorderCross (c : Cross) (o : Or) : Cross :=
  let c := if o = .neg then ⟨c.e3, c.e2, c.e1, c.e0, c.sign⟩ else c
  rotL c (rdist c)

/-- The edge loop after the rotation (pdcode.c 659-666). `pos - rot + 4` is computed with
32-bit unsigned numbers, which gives the same residue modulo 4 as `pos + 4 - rot`. -/
def shiftEdges (rots : List Nat) : List Edge → Res (List Edge)
  | [] => .ok []
  | e :: l => do
    let rh ← rd rots e.head
    let rt ← rd rots e.tail
    let r ← shiftEdges rots l
    .ok ({ e with headpos := (e.headpos + 4 - rh) % 4, tailpos := (e.tailpos + 4 - rt) % 4 } :: r)

/-- Renaming of heads and tails (pdcode.c 685-690). -/
def renameEnds (newnum : List Nat) : List Edge → Res (List Edge)
  | [] => .ok []
  | e :: l => do
    let h ← rd newnum e.head
    let t ← rd newnum e.tail
    let r ← renameEnds newnum l
    .ok ({ e with head := h, tail := t } :: r)

/-- `newcross[i] = cross[cross_perm[i]]` (pdcode.c 696). -/
def permute {α : Type} (l : List α) : List Nat → Res (List α)
  | [] => .ok []
  | p :: ps => do
    let x ← rd l p
    let r ← permute l ps
    .ok (x :: r)

/-- `pdint_cross_index_cmp` as the order used by `qsort` (pdcode.c 575-587). -/
def crossLe (cross : List Cross) (i j : Nat) : Bool :=
  match cross[i]?, cross[j]? with
  | some a, some b => decide (crossCmp a b ≤ 0)
  | _, _ => false

/-- `pd_regenerate_crossings` (pdcode.c 635-700). Stack arrays have their logical length
`ncross`. -/
def regenCrossings (qs : QSort) (cross : List Cross) (edge : List Edge) :
    Res (List Cross × List Edge) := do
  let rots := cross.map rdist
  let cross := cross.map (fun c => rotL c (rdist c))
  let edge ← shiftEdges rots edge
  let perm := qs.sort (crossLe cross) (List.range cross.length)
  let newnum ← PermM.invLoop perm 0 (List.replicate cross.length 0)
  let edge ← renameEnds newnum edge
  let cross ← permute cross perm
  .ok (cross, edge)

/-- `pd_next_edge` (pdcode.c 4999-5008). `pd_check_edge` aborts for an edge out of range. -/
def nextEdge (cross : List Cross) (edge : List Edge) (e : Nat) : Res Nat := do
  assertC (e < edge.length)
  let r ← rd edge e
  let c ← rd cross r.head
  let e' ← c.rdPos ((r.headpos + 2) % 4)
  let r' ← rd edge e'
  assertC (r'.tail = r.head)
  .ok e'

/-- `pd_previous_edge` (pdcode.c 4988-4997). -/
def prevEdge (cross : List Cross) (edge : List Edge) (e : Nat) : Res Nat := do
  assertC (e < edge.length)
  let r ← rd edge e
  let c ← rd cross r.tail
  let e' ← c.rdPos ((r.tailpos + 2) % 4)
  let r' ← rd edge e'
  assertC (r'.head = r.tail)
  .ok e'

/-- The counting loop of `pd_cross_ok` (pdcode.c 2152-2181): `none` when an edge number is
too large, otherwise how often each edge was seen. `edge_seen` has `MAXEDGES` places. -/
def countEdges (nedges : Nat) : List Nat → List Nat → Res (Option (List Nat))
  | [], seen => .ok (some seen)
  | e :: es, seen =>
    if ¬ e < nedges then .ok none
    else do
      let s ← rd seen e
      let seen ← wr seen e (s + 1)
      countEdges nedges es seen

/-- `PD_UNSET_POS` (plcTopology.h). -/
def UNSET_POS : Nat := 4

/-- Check that each edge was seen twice (pdcode.c 2184-2206), from edge `e` on. -/
def seenTwice (edge : List Edge) (seen : List Nat) : Nat → Nat → Res Bool
  | 0, _ => .ok true
  | r + 1, e => do
    let s ← rd seen e
    if s ≠ 2 then do
      let x ← rd edge e
      if (x.head = UNSET_IDX ∧ x.tail = UNSET_IDX ∧ x.headpos = UNSET_POS ∧ x.tailpos = UNSET_POS)
          ∧ s = 0 then seenTwice edge seen r (e + 1)
      else .ok false
    else seenTwice edge seen r (e + 1)

/-- Sort order (pdcode.c 2210-2219). -/
def sortedFrom : List Cross → Bool
  | a :: b :: l => if crossCmp b a < 0 then false else sortedFrom (b :: l)
  | _ => true

/-- `pd_cross_ok` (pdcode.c 2133-2220). Signs other than the three legal values are not
representable in the model. `nedges` is the length of the edge buffer and `maxedges` the
space for it. -/
def crossOk (maxedges : Nat) (cross : List Cross) (edge : List Edge) : Res Bool :=
  if cross.length = 0 then .ok true
  else do
    match ← countEdges edge.length (cross.flatMap edges) (List.replicate maxedges 0) with
    | none => .ok false
    | some seen => do
      let b ← seenTwice edge seen edge.length 0
      if b then .ok (sortedFrom cross) else .ok false

/-- One edge of `pd_edges_ok` (pdcode.c 2238-2308). -/
def edgeOk (cross : List Cross) (edge : List Edge) (e : Nat) (r : Edge) : Res Bool :=
  if cross.length ≠ 0 ∧ (r.head ≥ cross.length ∨ r.tail ≥ cross.length) then .ok false
  else if cross.length = 0 ∧ (r.head ≠ UNSET_IDX ∨ r.tail ≠ UNSET_IDX) then .ok false
  else if cross.length ≠ 0 ∧ (r.headpos ≥ 4 ∨ r.tailpos ≥ 4) then .ok false
  else if cross.length = 0 ∧ (r.headpos ≥ 4 ∨ r.tailpos ≥ 4) ∧
      (r.headpos ≠ UNSET_POS ∨ r.tailpos ≠ UNSET_POS) then .ok false
  else if cross.length > 0 then do
    let hc ← rd cross r.head
    let tc ← rd cross r.tail
    let a ← hc.rdPos r.headpos
    if a ≠ e then .ok false
    else do
      let b ← tc.rdPos r.tailpos
      if b ≠ e then .ok false
      else do
        let nextpos := (r.headpos + 2) % 4
        let prevpos := (r.tailpos + 2) % 4
        let n ← hc.rdPos nextpos
        let nr ← rd edge n
        if nr.tail ≠ r.head ∨ nr.tailpos ≠ nextpos then .ok false
        else do
          let p ← tc.rdPos prevpos
          let pr ← rd edge p
          if pr.head ≠ r.tail ∨ pr.headpos ≠ prevpos then .ok false
          else .ok true
  else .ok true

/-- The loop of `pd_edges_ok` over the edges from `e` on. -/
def edgesOkFrom (cross : List Cross) (edge : List Edge) : List Edge → Nat → Res Bool
  | [], _ => .ok true
  | r :: rs, e => do
    let b ← edgeOk cross edge e r
    if b then edgesOkFrom cross edge rs (e + 1) else .ok false

/-- `pd_edges_ok` (pdcode.c 2222-2314). -/
def edgesOk (cross : List Cross) (edge : List Edge) : Res Bool :=
  if cross.length ≠ 0 ∧ edge.length ≠ cross.length * 2 then .ok false
  else edgesOkFrom cross edge edge 0

end Plc.Core
