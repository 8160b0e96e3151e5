import Verif.Model.MovesFull
import Verif.Model.Strands

/-! # Removing a bigon (`pd_R2_bigon_elimination`, `src/pd_crossingmoves.c` 702-1725) -/

namespace Plc.BigonDel

open Plc.Cmp Plc.Core Plc.Buffers Plc.Moves Plc.Strands

/-- Where the move takes place: the two crossings in the order of strand A, and three consecutive edges on each strand. -/
structure Site where
  c0 : Nat
  c1 : Nat
  a0 : Nat
  a1 : Nat
  a2 : Nat
  b0 : Nat
  b1 : Nat
  b2 : Nat
  deriving DecidableEq, Repr

/-- Strand B at a shadow (pd_crossingmoves.c 785-808, 816-838): the understrand at `c0`, in one direction or the other. -/
def strandB (cross : List Cross) (edge : List Edge) (c0 c1 : Nat) : Res (Nat × Nat × Nat) := do
  let (i, o) ← understrand cross edge c0
  let ro ← rd edge o
  if ro.head = c1 then do
    let b2 ← nextEdge cross edge o
    .ok (i, o, b2)
  else do
    let ri ← rd edge i
    if ri.tail = c1 then do
      let b0 ← prevEdge cross edge i
      .ok (b0, i, o)
    else .error .die

/-- The search at a shadow (pd_crossingmoves.c 770-849). -/
def findShadow (cross : List Cross) (edge : List Edge) (c0 c1 : Nat) : Res Site := do
  let (i, o) ← overstrand cross edge c0
  let ro ← rd edge o
  if ro.head = c1 then do
    let a2 ← nextEdge cross edge o
    let (b0, b1, b2) ← strandB cross edge c0 c1
    .ok ⟨c0, c1, i, o, a2, b0, b1, b2⟩
  else do
    let ri ← rd edge i
    if ri.tail = c1 then do
      let a0 ← prevEdge cross edge i
      let (b0, b1, b2) ← strandB cross edge c0 c1
      .ok ⟨c1, c0, a0, i, o, b0, b1, b2⟩
    else .error .die

/-- Strand B with signs (pd_crossingmoves.c 906-982): it has to be under at `c1`, too. -/
def strandUnder (cross : List Cross) (edge : List Edge) (c0 c1 : Nat) : Res (Nat × Nat × Nat) := do
  let (i, o) ← understrand cross edge c0
  let ro ← rd edge o
  if ro.head = c1 then do
    let b2 ← nextEdge cross edge o
    let (vi, vo) ← understrand cross edge c1
    if o ≠ vi ∨ b2 ≠ vo then .error .die else .ok (i, o, b2)
  else do
    let ri ← rd edge i
    if ri.tail = c1 then do
      let b0 ← prevEdge cross edge i
      let (vi, vo) ← understrand cross edge c1
      if b0 ≠ vi ∨ i ≠ vo then .error .die else .ok (b0, i, o)
    else .error .die

/-- The search with signs, once the crossings are in order (pd_crossingmoves.c 866-983). -/
def findFrom (cross : List Cross) (edge : List Edge) (c0 c1 : Nat) : Res Site := do
  let (i, o) ← overstrand cross edge c0
  let ro ← rd edge o
  if ro.head ≠ c1 then .error .die
  else do
    let a2 ← nextEdge cross edge o
    let (vi, vo) ← overstrand cross edge c1
    if o ≠ vi ∨ a2 ≠ vo then .error .die
    else do
      let (b0, b1, b2) ← strandUnder cross edge c0 c1
      .ok ⟨c0, c1, i, o, a2, b0, b1, b2⟩

/-- The search with signs (pd_crossingmoves.c 850-983). -/
def findSigned (cross : List Cross) (edge : List Edge) (c0 c1 : Nat) : Res Site := do
  let (_, o) ← overstrand cross edge c0
  let ro ← rd edge o
  if ro.head ≠ c1 then findFrom cross edge c1 c0 else findFrom cross edge c0 c1

/-- Step 2 (pd_crossingmoves.c 763-984). -/
def findSite (cross : List Cross) (edge : List Edge) (c0 c1 : Nat) : Res Site := do
  let x0 ← rd cross c0
  let x1 ← rd cross c1
  if x0.sign = .unset ∧ x1.sign = .unset then findShadow cross edge c0 c1 else findSigned cross edge c0 c1

/-- The faces on the left and on the right of an edge, by `pd_face_and_pos`. Numbers which have not been set are an error. -/
def sideFaces (faces : List Face) (e : Nat) : Res (Nat × Nat) := do
  let s ← Query.faceAndPos faces e
  match s.pos, s.neg with
  | some (f, _), some (g, _) => .ok (f, g)
  | _, _ => .error .ub

/-- The faces `F1` and `F2` (pd_crossingmoves.c 1076-1163). -/
def outerFaces (cross : List Cross) (edge : List Edge) (faces : List Face) (s : Site) : Res (Nat × Nat) := do
  let (pfA, nfA) ← sideFaces faces s.a1
  let (pfB, nfB) ← sideFaces faces s.b1
  let x ← rd cross s.c0
  let r ← rd edge s.a0
  let n ← x.rdPos ((r.headpos + 1) % 4)
  let neg ← (if pfA = nfB ∨ pfB = nfA then .ok (decide (n = s.b0))
    else if pfA = pfB ∨ nfA = nfB then .ok (decide (n = s.b2))
    else .error .die : Res Bool)
  let (pf0, nf0) ← sideFaces faces s.a0
  let (pf2, nf2) ← sideFaces faces s.a2
  if neg then .ok (nf0, nf2) else .ok (pf0, pf2)

/-- Sewing edges `a` to the heads of edges `b` (pd_crossingmoves.c 1217-1277, 1561-1565, 1599-1601), still with old numbers. `edge`
are the old records, `cidx` and `eidx` the new numbers. -/
def sew (edge : List Edge) (cidx eidx : List Nat) : List (Nat × Nat) → List Cross → List Edge → Res (List Cross × List Edge)
  | [], cross1, edge1 => .ok (cross1, edge1)
  | (a, b) :: W, cross1, edge1 => do
    let rb ← rd edge b
    let j ← rd cidx rb.head
    let cross1 ← setSlot cross1 j rb.headpos a
    let i ← rd eidx a
    let s ← rd edge1 i
    let edge1 ← wr edge1 i { s with head := rb.head, headpos := rb.headpos }
    sew edge cidx eidx W cross1 edge1

/-- Sewing, and then the new numbers (pd_crossingmoves.c 1217-1296, 1561-1586, 1599-1619). -/
def sewAll (edge : List Edge) (cidx eidx : List Nat) (W : List (Nat × Nat)) (cross1 : List Cross) (edge1 : List Edge) :
    Res (List Cross × List Edge) := do
  let (cross1, edge1) ← sew edge cidx eidx W cross1 edge1
  let cross1 ← Emap.renameCross eidx cross1
  let edge1 ← renameEnds cidx edge1
  .ok (cross1, edge1)

/-- What comes out: `pd_build_unknot(0)` with a tag, or a diagram with the sizes of its buffers. -/
inductive Out where
  | unknot (tag : Nat)
  | code (caps : Io.Caps) (pd : Io.Pd)
  deriving DecidableEq, Repr

/-- Which ends are sewn together (pd_crossingmoves.c 1217-1277). -/
def pairs (s : Site) : List (Nat × Nat) :=
  if s.b0 = s.a2 then [(s.a0, s.b2)]
  else if s.b2 = s.a0 then [(s.b0, s.a2)]
  else [(s.a0, s.a2), (s.b0, s.b2)]

/-- The case of one diagram (pd_crossingmoves.c 1165-1341). -/
def joined (qs : QSort) (pd : Io.Pd) (s : Site) : Res Out := do
  let (cross1, cidx) ← compactingCopy qs zeroCross pd.cross [s.c0, s.c1]
  let (edge1, eidx) ← compactingCopy qs zeroEdge pd.edge [s.a1, s.a2, s.b1, s.b2]
  let (cross1, edge1) ← sewAll pd.edge cidx eidx (pairs s) cross1 edge1
  let (cross1, edge1) ← regenCrossings qs cross1 edge1
  let (cross1, edge1, comps) ← compactComps qs pd.comp eidx cross1 edge1
  let caps : Io.Caps := ⟨cross1.length, edge1.length, pd.comp.length, (Io.capsNew (pd.cross.length - 2)).faces⟩
  let pd' ← withFaces qs caps.faces 0 cross1 edge1 comps
  let ok ← Ok.pdOk qs caps pd'
  assertC ok
  assertC (decide (pd'.face.length = pd.face.length - 2))
  assertC (decide (pd'.cross.length = pd.cross.length - 2))
  assertC (decide (pd'.edge.length = pd.edge.length - 4))
  .ok (.code caps pd')

/-- The marks on components (pd_crossingmoves.c 1373). -/
inductive Mark where
  | a (walked : Bool)
  | b (walked : Bool)
  | unknown
  deriving DecidableEq, Repr

/-- Walking along a component (pd_crossingmoves.c 1407-1420, 1428-1441): what has no mark yet gets `m`. -/
def markLoop (pd : Io.Pd) (c0 c1 : Nat) (m : Mark) : List Nat → List Mark → Res (List Mark)
  | [], st => .ok st
  | e :: l, st => do
    let r ← rd pd.edge e
    if r.head ≠ c0 ∧ r.head ≠ c1 then do
      let x ← rd pd.cross r.head
      let o ← x.rdPos ((r.headpos + 1) % 4)
      let (k, _) ← compAndPos pd.edge.length pd.comp o
      let s ← rd st k
      if s = .unknown then do
        let st ← wr st k m
        markLoop pd c0 c1 m l st
      else markLoop pd c0 c1 m l st
    else markLoop pd c0 c1 m l st

/-- One pass through the components from number `i` on (pd_crossingmoves.c 1401-1448). -/
def pass (pd : Io.Pd) (c0 c1 : Nat) : List Comp → Nat → List Mark → Res (List Mark)
  | [], _, st => .ok st
  | k :: l, i, st => do
    let s ← rd st i
    match s with
    | .a false => do
      let st ← markLoop pd c0 c1 (.a false) k.edge st
      let st ← wr st i (.a true)
      pass pd c0 c1 l (i + 1) st
    | .b false => do
      let st ← markLoop pd c0 c1 (.b false) k.edge st
      let st ← wr st i (.b true)
      pass pd c0 c1 l (i + 1) st
    | _ => pass pd c0 c1 l (i + 1) st

/-- The scan at the end of a pass (pd_crossingmoves.c 1452-1454). -/
def allWalked (st : List Mark) : Bool := st.all (fun m => m = .a true ∨ m = .b true)

/-- Passes until all have been walked (pd_crossingmoves.c 1395-1456). A pass which does not walk a component changes nothing, so
the loop goes on forever unless it stops after as many passes as there are components; that it goes on forever is the error
here. -/
def passes (pd : Io.Pd) (c0 c1 : Nat) : Nat → List Mark → Res (List Mark)
  | 0, _ => .error .ub
  | n + 1, st => do
    let st ← pass pd c0 c1 pd.comp 0 st
    if allWalked st then .ok st else passes pd c0 c1 n st

/-- The edges of the components with a mark (pd_crossingmoves.c 1481-1516). -/
def edgesOf (m : Mark) : List Comp → List Mark → List Nat
  | k :: l, s :: st => (if s = m then k.edge else []) ++ edgesOf m l st
  | _, _ => []

/-- The heads of edges. -/
def headsOf (edge : List Edge) : List Nat → Res (List Nat)
  | [] => .ok []
  | e :: l => do
    let r ← rd edge e
    let t ← headsOf edge l
    .ok (r.head :: t)

/-- A list has to fit in its buffer. -/
def fits (l : List Nat) (n : Nat) : Res Unit := if l.length ≤ n then .ok () else .error .ub

/-- One of two diagrams (pd_crossingmoves.c 1536-1672), without the crossings `X` and the edges `G`, where `a` is sewn to the head
of `b`. -/
def child (qs : QSort) (pd : Io.Pd) (X G : List Nat) (a b tag : Nat) : Res Out := do
  let (cross1, cidx) ← compactingCopy qs zeroCross pd.cross X
  let (edge1, eidx) ← compactingCopy qs zeroEdge pd.edge G
  if cross1.length = 0 then .ok (.unknot tag)
  else do
    let (cross1, edge1) ← sewAll pd.edge cidx eidx [(a, b)] cross1 edge1
    let (cross1, edge1, comps) ← compactComps qs pd.comp eidx cross1 edge1
    let comps := qs.sort Comps.compLe comps
    let (cross1, edge1) ← regenCrossings qs cross1 edge1
    let caps : Io.Caps := ⟨cross1.length, edge1.length, pd.comp.length, (Io.capsNew pd.cross.length).faces⟩
    let pd' ← withFaces qs caps.faces 0 cross1 edge1 comps
    .ok (.code caps pd')

/-- The numbers of components, crossings and edges of what comes out, and whether it passes the checks (pd_crossingmoves.c
1688-1699); the unknot of `pd_build_unknot(0)` has one component and no crossing. -/
def ncomps : Out → Nat
  | .unknot _ => 1
  | .code _ pd => pd.comp.length
def ncross : Out → Nat
  | .unknot _ => 0
  | .code _ pd => pd.cross.length
def nedges : Out → Nat
  | .unknot _ => 1
  | .code _ pd => pd.edge.length
def eulerOk : Out → Bool
  | .unknot _ => true
  | .code _ pd => decide (pd.cross.length + pd.face.length = pd.edge.length + 2)
def outOk (qs : QSort) : Out → Res Bool
  | .unknot _ => .ok true
  | .code caps pd => Ok.pdOk qs caps pd

/-- The case of two diagrams (pd_crossingmoves.c 1343-1722). -/
def split (qs : QSort) (pd : Io.Pd) (s : Site) : Res (List Out) := do
  let (kA, _) ← compAndPos pd.edge.length pd.comp s.a0
  let (kB, _) ← compAndPos pd.edge.length pd.comp s.b0
  assertC (decide (kA ≠ kB))
  let st ← wr (List.replicate pd.comp.length Mark.unknown) kA (.a false)
  let st ← wr st kB (.b false)
  let st ← passes pd s.c0 s.c1 (pd.comp.length + 1) st
  let eA := edgesOf (.a true) pd.comp st
  let eB := edgesOf (.b true) pd.comp st
  let xA ← headsOf pd.edge eA
  let xB ← headsOf pd.edge eB
  fits xA (2 * pd.cross.length)
  fits xB (2 * pd.cross.length)
  fits (eA ++ [s.b1, s.b2]) pd.edge.length
  fits (eB ++ [s.a1, s.a2]) pd.edge.length
  let ka ← rd pd.comp kA
  let kb ← rd pd.comp kB
  let oA ← child qs pd xB (eB ++ [s.a1, s.a2]) s.a0 s.a2 ka.tag
  let oB ← child qs pd xA (eA ++ [s.b1, s.b2]) s.b0 s.b2 kb.tag
  assertC (decide (ncomps oA + ncomps oB = pd.comp.length))
  assertC (decide (ncross oA + ncross oB = pd.cross.length - 2))
  assertC (decide (ncross oA ≠ 0 ∧ ncross oB ≠ 0 → nedges oA + nedges oB = pd.edge.length - 4))
  assertC (eulerOk oA)
  assertC (eulerOk oB)
  let okA ← outOk qs oA
  assertC okA
  let okB ← outOk qs oB
  assertC okB
  .ok [oA, oB]

/-- The two diagrams with two crossings (pd_crossingmoves.c 1006-1047). -/
def small (pd : Io.Pd) (s : Site) : Res (List Out) :=
  if pd.comp.length = 2 then do
    let (oi, _) ← overstrand pd.cross pd.edge s.c0
    let (ui, _) ← understrand pd.cross pd.edge s.c0
    let (ko, _) ← compAndPos pd.edge.length pd.comp oi
    let (ku, _) ← compAndPos pd.edge.length pd.comp ui
    let a ← rd pd.comp ko
    let b ← rd pd.comp ku
    .ok [.unknot a.tag, .unknot b.tag]
  else do
    let a ← rd pd.comp 0
    .ok [.unknot a.tag]

/-- `pd_R2_bigon_elimination` (pd_crossingmoves.c 702-1725) at the crossings `cr0` and `cr1` of a diagram in buffers of size `caps`.
The swapped numbers written back to `cr` are left out. With fewer than two crossings `pd->ncross-2` wraps around in C, it is 0
here. -/
def bigonElimination (qs : QSort) (caps : Io.Caps) (pd : Io.Pd) (cr0 cr1 : Nat) : Res (List Out) := do
  let ok ← Ok.pdOk qs caps pd
  assertC ok
  assertC (decide (cr0 < pd.cross.length))
  assertC (decide (cr1 < pd.cross.length))
  let s ← findSite pd.cross pd.edge cr0 cr1
  if pd.cross.length = 2 ∧ (pd.comp.length = 2 ∨ pd.comp.length = 1) then small pd s
  else do
    let (f1, f2) ← outerFaces pd.cross pd.edge pd.face s
    if f1 ≠ f2 then do
      let o ← joined qs pd s
      .ok [o]
    else split qs pd s

end Plc.BigonDel
