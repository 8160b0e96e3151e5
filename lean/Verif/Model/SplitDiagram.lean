import Verif.Model.BigonDel
import Verif.Model.Split

/-! # The pieces of a diagram as diagrams of their own (`pd_split_diagram`, `src/pd_splitdiagram.c` 96-425) -/

namespace Plc.Split

open Plc.Cmp Plc.Core Plc.Buffers Plc.Moves Plc.BigonDel

/-- The components whose first edge has label `i` (pd_splitdiagram.c 178-186, 197-229). A component without edges has no buffer to
read from. -/
def pick (code : List Nat) (i : Nat) : List Comp → Res (List Comp)
  | [] => .ok []
  | k :: l => do
    let e ← rd k.edge 0
    let c ← rd code e
    let t ← pick code i l
    .ok (if c = i then k :: t else t)

/-- Giving new numbers from `n` on to the edges of one component, and copying their records (pd_splitdiagram.c 256-268). `maxP` and
`maxC` are the sizes of the edge buffers of the parent and of the child, `new` is `new_edge_num`. -/
def takeEdges (maxP maxC : Nat) (edge : List Edge) : List Nat → Nat → List Nat → Res (List Edge × List Nat)
  | [], _, new => .ok ([], new)
  | e :: l, n, new => do
    assertC (decide (e < maxP))
    assertC (decide (n < maxC))
    let new ← wr new e n
    let r ← rd edge e
    let (t, new) ← takeEdges maxP maxC edge l (n + 1) new
    .ok (r :: t, new)

/-- The same for all components of the child (pd_splitdiagram.c 252-270). -/
def takeComps (maxP maxC : Nat) (edge : List Edge) : List Comp → Nat → List Nat → Res (List Comp × List Edge × List Nat)
  | [], _, new => .ok ([], [], new)
  | k :: l, n, new => do
    let (r, new) ← takeEdges maxP maxC edge k.edge n new
    let (c, t, new) ← takeComps maxP maxC edge l (n + k.edge.length) new
    .ok ({ k with edge := List.range' n k.edge.length } :: c, r ++ t, new)

/-- Every fourth entry (pd_splitdiagram.c 305). -/
def everyFourth : List Nat → List Nat
  | [] => []
  | [a] => [a]
  | [a, _] => [a]
  | [a, _, _] => [a]
  | a :: _ :: _ :: _ :: l => a :: everyFourth l

/-- Copying crossings (pd_splitdiagram.c 305-320), the first of them to place `d`. `maxC` is the size of the buffer, `num` is
`new_crossing_num`. -/
def takeCross (maxC : Nat) (cross : List Cross) (new : List Nat) : List Nat → Nat → List Nat → Res (List Cross × List Nat)
  | [], _, num => .ok ([], num)
  | c :: l, d, num => do
    assertC (decide (d < maxC))
    let x ← rd cross c
    let num ← wr num c d
    let e0 ← rd new x.e0
    let e1 ← rd new x.e1
    let e2 ← rd new x.e2
    let e3 ← rd new x.e3
    let (t, num) ← takeCross maxC cross new l (d + 1) num
    .ok (⟨e0, e1, e2, e3, x.sign⟩ :: t, num)

/-- The piece with label `i`, if it has crossings, before the last steps (pd_splitdiagram.c 192-335). `caps` are the sizes of the
buffers of the parent, `caps'` those of the child. -/
def rawChild (qs : QSort) (caps caps' : Io.Caps) (pd : Io.Pd) (code : List Nat) (i : Nat) :
    Res (List Cross × List Edge × List Comp) := do
  let comps ← pick code i pd.comp
  if comps.length ≤ caps'.comps then do
    let comps := qs.sort Comps.compLe comps
    assertC (decide (pd.edge.length ≤ caps.edges))
    let (comps, edge1, new) ← takeComps caps.edges caps'.edges pd.edge comps 0 (List.replicate caps.edges 0)
    let ends := qs.sort (fun a b => decide (idxCmp a b ≤ 0)) (edge1.flatMap (fun r => [r.head, r.tail]))
    let (cross1, num) ← takeCross caps'.verts pd.cross new (everyFourth ends) 0 (List.replicate pd.cross.length 0)
    let edge1 ← renameEnds num edge1
    .ok (cross1, edge1, comps)
  else .error .ub

/-- The piece with label `i` (pd_splitdiagram.c 159-353). -/
def piece (qs : QSort) (caps : Io.Caps) (pd : Io.Pd) (code : List Nat) (i : Nat) : Res Out := do
  let nedges := code.count i
  if nedges = 1 then do
    let comps ← pick code i pd.comp
    .ok (.unknot (match comps.getLast? with | some k => k.tag | none => 65))
  else do
    assertC (decide (nedges / 2 ≠ 0))
    let caps' := Io.capsNew (nedges / 2)
    let (cross1, edge1, comps) ← rawChild qs caps caps' pd code i
    let (cross1, edge1) ← regenCrossings qs cross1 edge1
    let pd' ← withFaces qs caps'.faces 0 cross1 edge1 comps
    let ok ← Ok.pdOk qs caps' pd'
    assertC ok
    .ok (.code caps' pd')

/-- The loop over pieces (pd_splitdiagram.c 157-353), `n` of them left, from number `i` on. -/
def pieces (qs : QSort) (caps : Io.Caps) (pd : Io.Pd) (code : List Nat) : Nat → Nat → Res (List Out)
  | 0, _ => .ok []
  | n + 1, i => do
    let o ← piece qs caps pd code i
    let t ← pieces qs caps pd code n (i + 1)
    .ok (o :: t)

/-- `pd_split_diagram` (pd_splitdiagram.c 96-425) on a diagram in buffers of size `caps`. -/
def splitDiagram (qs : QSort) (caps : Io.Caps) (pd : Io.Pd) : Res (List Out) := do
  let (code, n) ← labels pd.cross pd.edge
  let outs ← pieces qs caps pd code n 0
  assertC (decide ((outs.map ncross).sum = pd.cross.length))
  assertC (decide ((outs.map nedges).sum = pd.edge.length))
  assertC (decide ((outs.map ncomps).sum = pd.comp.length))
  .ok outs

end Plc.Split
