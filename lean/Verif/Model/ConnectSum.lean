import Verif.Model.Moves
import Verif.Model.Strands
import Verif.Model.Unpack

/-! # Connected sum (`src/pd_crossingmoves.c` 2265-2601) -/

namespace Plc.ConnectSum

open Plc.Cmp Plc.Core Plc.Io Plc.Moves

/-- `tt[e] = nen++` for the edges of a list. -/
def assign : List Nat → Nat → List Nat → Res (List Nat)
  | [], _, tt => .ok tt
  | e :: l, nen, tt => do
    let tt ← wr tt e nen
    assign l (nen + 1) tt

/-- The edges of the components other than number `j` (the loops 2369-2379 and 2416-2426 skip it). -/
def others (comps : List Comp) (j : Nat) : List Nat := (comps.eraseIdx j).flatMap (·.edge)

/-- `edgeAtt` (pd_crossingmoves.c 2350-2379): up to `posA`, a gap of `gap` numbers, the rest of the component, the other ones. -/
def tableA (nedges : Nat) (comps : List Comp) (k : Comp) (j pos gap : Nat) : Res (List Nat) := do
  let tt ← assign (k.edge.take (pos + 1)) 0 (List.replicate nedges UNSET_IDX)
  let tt ← assign (k.edge.drop (pos + 1)) (pos + 1 + gap) tt
  assign (others comps j) (k.edge.length + gap) tt

/-- `edgeBtt` (pd_crossingmoves.c 2381-2426): the component from the edge after `pos` on, cyclically, then the other ones. -/
def tableB (nedges : Nat) (comps : List Comp) (k : Comp) (j pos start nA : Nat) : Res (List Nat) := do
  let tt ← assign (k.edge.drop (pos + 1) ++ k.edge.take (pos + 1)) start (List.replicate nedges UNSET_IDX)
  assign (others comps j) (nA + k.edge.length) tt

/-- The four translated edge numbers, and the sign. -/
def copyCross (tt : List Nat) (x : Cross) : Res Cross := do
  let e0 ← rd tt x.e0
  let e1 ← rd tt x.e1
  let e2 ← rd tt x.e2
  let e3 ← rd tt x.e3
  .ok ⟨e0, e1, e2, e3, x.sign⟩

/-- The loops over crossings (pd_crossingmoves.c 2474-2512), from crossing `i` on; `ct` is the table for crossings. -/
def copyCrosses (tt ct : List Nat) : List Cross → Nat → List Cross → Res (List Cross)
  | [], _, buf => .ok buf
  | x :: l, i, buf => do
    let c ← rd ct i
    let y ← copyCross tt x
    let buf ← wr buf c y
    copyCrosses tt ct l (i + 1) buf

/-- The loops over edges (pd_crossingmoves.c 2518-2549), from edge `i` on. -/
def copyEdges (tt ct : List Nat) : List Edge → Nat → List Edge → Res (List Edge)
  | [], _, buf => .ok buf
  | r :: l, i, buf => do
    let e ← rd tt i
    let h ← rd ct r.head
    let t ← rd ct r.tail
    let buf ← wr buf e ⟨h, r.headpos, t, r.tailpos⟩
    copyEdges tt ct l (i + 1) buf

/-- The heads of two edges are exchanged (pd_crossingmoves.c 2558-2587). -/
def exchange (cross : List Cross) (edge : List Edge) (i j : Nat) : Res (List Cross × List Edge) := do
  let ra ← rd edge i
  let rb ← rd edge j
  let edge ← wr edge j ⟨ra.head, ra.headpos, rb.tail, rb.tailpos⟩
  let edge ← wr edge i ⟨rb.head, rb.headpos, ra.tail, ra.tailpos⟩
  let cross ← setSlot cross rb.head rb.headpos i
  let cross ← setSlot cross ra.head ra.headpos j
  .ok (cross, edge)

/-- The records of the sum before `pd_regenerate` (pd_crossingmoves.c 2297-2587), in buffers of the sizes `caps`. The buffers are
cut to the numbers in use before heads are exchanged: what is exchanged is in use. -/
def raw (qs : QSort) (caps : Io.Caps) (pdA : Io.Pd) (a : Nat) (pdB : Io.Pd) (b : Nat) : Res (List Cross × List Edge) := do
  let (joinA, posA) ← Strands.compAndPos pdA.edge.length pdA.comp a
  let (joinB, posB) ← Strands.compAndPos pdB.edge.length pdB.comp b
  let kA ← rd pdA.comp joinA
  let kB ← rd pdB.comp joinB
  let ttA ← tableA pdA.edge.length pdA.comp kA joinA posA kB.edge.length
  let ttB ← tableB pdB.edge.length pdB.comp kB joinB posB (1 + posA) pdA.edge.length
  assertC (ttA.all (fun e => decide (e ≠ UNSET_IDX)))
  assertC (ttB.all (fun e => decide (e ≠ UNSET_IDX)))
  assertC (decide (qs.sort (fun x y => decide (Buffers.idxCmp x y ≤ 0)) (ttA ++ ttB) =
    List.range (pdA.edge.length + pdB.edge.length)))
  let ctA := List.range pdA.cross.length
  let ctB := List.range' pdA.cross.length pdB.cross.length
  let cross ← copyCrosses ttA ctA pdA.cross 0 (List.replicate caps.verts zeroCross)
  let cross ← copyCrosses ttB ctB pdB.cross 0 cross
  let edge ← copyEdges ttA ctA pdA.edge 0 (List.replicate caps.edges zeroEdge)
  let edge ← copyEdges ttB ctB pdB.edge 0 edge
  let i ← rd ttA a
  let j ← rd ttB b
  exchange (cross.take (pdA.cross.length + pdB.cross.length)) (edge.take (pdA.edge.length + pdB.edge.length)) i j

/-- `pd_connect_sum` (pd_crossingmoves.c 2265-2601) of diagrams in buffers of the sizes `capsA`, `capsB`. `pd_check_edge` aborts
for an edge number out of range; `pd_code_new` asserts that there is a crossing. -/
def connectSum (qs : QSort) (capsA : Io.Caps) (pdA : Io.Pd) (a : Nat) (capsB : Io.Caps) (pdB : Io.Pd) (b : Nat) :
    Res (Io.Caps × Io.Pd) := do
  let ok ← Ok.pdOk qs capsA pdA
  assertC ok
  let ok ← Ok.pdOk qs capsB pdB
  assertC ok
  assertC (decide (a < pdA.edge.length))
  assertC (decide (b < pdB.edge.length))
  assertC (decide (pdA.cross.length + pdB.cross.length ≠ 0))
  let caps := capsNew (pdA.cross.length + pdB.cross.length)
  let (cross, edge) ← raw qs caps pdA a pdB b
  let pd ← Unpack.regeneratePd qs caps ⟨[' '], 0, cross, edge, [], []⟩
  let ok ← Ok.pdOk qs caps pd
  assertC ok
  .ok (caps, pd)

end Plc.ConnectSum
