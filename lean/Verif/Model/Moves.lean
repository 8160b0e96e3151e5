import Verif.Model.Buffers
import Verif.Model.Edgemap
import Verif.Model.Comps

/-! # Adding and removing loops (`src/pd_crossingmoves.c` 274-699) -/

namespace Plc.Moves

open Plc.Cmp Plc.Core Plc.Buffers

/-- `cross[c].edge[k] = e`. -/
def setSlot (cross : List Cross) (c k e : Nat) : Res (List Cross) := do
  let x ← rd cross c
  let x ← x.wrPos k e
  wr cross c x

/-- The record of the new crossing and the places of the new ends (pd_crossingmoves.c 663-681):
crossing, head of `ea`, tail of `eb`, tail of `e`, head of `e`. With an unset orientation nothing is
written; faces never carry it, and it is an error here. -/
def r1Kink (ea eb e : Nat) : Or → Res (Cross × Nat × Nat × Nat × Nat)
  | .pos => .ok (⟨ea, eb, e, e, .unset⟩, 0, 1, 2, 3)
  | .neg => .ok (⟨eb, ea, e, e, .unset⟩, 1, 0, 3, 2)
  | .unset => .error .ub

/-- The surgery of `pd_R1_loop_addition` (pd_crossingmoves.c 654-692) at edge `e`, which has the
orientation `eo` on the face. The copy has room for one crossing and two edges more. -/
def r1AddRaw (cross : List Cross) (edge : List Edge) (e : Nat) (eo : Or) :
    Res (List Cross × List Edge) := do
  let c := cross.length
  let ea := edge.length
  let eb := edge.length + 1
  let r ← rd edge e
  let (x, ha, tb, te, he) ← r1Kink ea eb e eo
  let cross := cross ++ [x]
  let edge := edge ++ [⟨c, ha, r.tail, r.tailpos⟩, ⟨r.head, r.headpos, c, tb⟩]
  let edge ← wr edge e ⟨c, he, c, te⟩
  let cross ← setSlot cross r.tail r.tailpos ea
  let cross ← setSlot cross r.head r.headpos eb
  .ok (cross, edge)

/-- `pd_R1_loop_addition` (pd_crossingmoves.c 647-699) for a diagram with crossings, up to the
regeneration of components; faces and hash are regenerated after that. The sizes of the copy are those of
`pd_code_new(ncross + 2)` (pdcode.c 45-79). `e` and `eo` are read from the face record. -/
def r1Add (qs : QSort) (cross : List Cross) (edge : List Edge) (face : Face) (i : Nat) :
    Res (List Cross × List Edge × List Comp) := do
  let n := cross.length + 2
  let e ← rd face.edge i
  let eo ← rd face.orient i
  let (cross, edge) ← r1AddRaw cross edge e eo
  let (cross, edge) ← regenCrossings qs cross edge
  Comps.regenComps qs (2 * n + 1) (n / 2 + 2) cross edge

/-- The search for a repeated edge (pd_crossingmoves.c 432-447). -/
def findAdj (x : Cross) : Option Nat := [0, 1, 2, 3].find? (fun i => decide (x.at i = x.at (i + 1)))

/-- Records as `calloc` leaves them. -/
def zeroCross : Cross := ⟨0, 0, 0, 0, .neg⟩
def zeroEdge : Edge := ⟨0, 0, 0, 0⟩

/-- The transformed components (pd_crossingmoves.c 319-325). -/
def transComps (qs : QSort) (eidx : List Nat) : List Comp → Res (List Comp)
  | [] => .ok []
  | c :: l => do
    let b ← transformAndCompact qs c.edge eidx
    let r ← transComps qs eidx l
    .ok (⟨b, c.tag⟩ :: r)

/-- The loop which renumbers edges along components (pd_crossingmoves.c 353-363), over the edge numbers of
all components in order: new numbers and new edge buffer. -/
def resortLoop (edge : List Edge) : List Nat → Nat → List Nat → List Edge → Res (List Nat × List Edge)
  | [], _, num, buf => .ok (num, buf)
  | e :: l, i, num, buf => do
    let num ← wr num e i
    let r ← rd edge e
    let buf ← wr buf i r
    resortLoop edge l (i + 1) num buf

/-- New numbers in the components (pd_crossingmoves.c 383-391). -/
def renameComps (num : List Nat) : List Comp → Res (List Comp)
  | [] => .ok []
  | c :: l => do
    let b ← transformAll num c.edge
    let r ← renameComps num l
    .ok (⟨b, c.tag⟩ :: r)

/-- `pd_compact_components` (pd_crossingmoves.c 274-398) without the faces. -/
def compactComps (qs : QSort) (comps : List Comp) (eidx : List Nat) (cross : List Cross) (edge : List Edge) :
    Res (List Cross × List Edge × List Comp) := do
  let cs ← transComps qs eidx comps
  let cs := (qs.sort Comps.compLe cs).takeWhile (fun c => decide (c.edge.length > 0))
  let (num, edge) ← resortLoop edge (cs.flatMap (·.edge)) 0 (List.replicate edge.length 0)
    (List.replicate edge.length zeroEdge)
  let cross ← Emap.renameCross num cross
  let cs ← renameComps num cs
  let (cross, edge) ← regenCrossings qs cross edge
  .ok (cross, edge, cs)

/-- The surgery of `pd_R1_loopdeletion` (pd_crossingmoves.c 462-590) for given edges `e0`, `e1`, `e2`; also the
map from old to new edge numbers. -/
def r1DelRaw (qs : QSort) (cross : List Cross) (edge : List Edge) (cr e0 e1 e2 : Nat) :
    Res (List Cross × List Edge × List Nat) := do
  let (cross1, cidx) ← compactingCopy qs zeroCross cross [cr]
  let r2 ← rd edge e2
  let j ← rd cidx r2.head
  let cross1 ← setSlot cross1 j r2.headpos e0
  let (edge1, eidx) ← compactingCopy qs zeroEdge edge [e1, e2]
  let edge1 ← renameEnds cidx edge1
  let i0 ← rd eidx e0
  let s ← rd edge1 i0
  let edge1 ← wr edge1 i0 { s with head := j, headpos := r2.headpos }
  let cross1 ← Emap.renameCross eidx cross1
  .ok (cross1, edge1, eidx)

/-- `pd_R1_loopdeletion` (pd_crossingmoves.c 403-645), up to faces, hash and the checks at the end.
`none` is the diagram without crossings, which is the answer for the figure eight. -/
def r1Del (qs : QSort) (cross : List Cross) (edge : List Edge) (comps : List Comp) (nfaces : Nat) (cr : Nat) :
    Res (Option (List Cross × List Edge × List Comp)) := do
  assertC (cr < cross.length)
  let x ← rd cross cr
  match findAdj x with
  | none => .error .die
  | some i => do
    let r1 ← rd edge (x.at i)
    let e0 ← x.rdPos ((r1.tailpos + 2) % 4)
    let e1 ← x.rdPos r1.headpos
    let e2 ← x.rdPos ((r1.headpos + 2) % 4)
    if e0 = e2 then
      if comps.length = 1 ∧ cross.length = 1 ∧ edge.length = 2 ∧ nfaces = 3 then .ok none else .error .die
    else do
      let _ ← Strands.compAndPos edge.length comps e0
      let (cross1, edge1, eidx) ← r1DelRaw qs cross edge cr e0 e1 e2
      let (cross1, edge1) ← regenCrossings qs cross1 edge1
      let r ← compactComps qs comps eidx cross1 edge1
      .ok (some r)

end Plc.Moves
