import Verif.Model.Edges

/-! # Assembling edges into components (`src/pdcode.c` 728-770, 1018-1257) -/

namespace Plc.Comps

open Plc.Core Plc.Cmp Plc.Edges

/-- `pdint_edge_assignment` (pdcode.c 732-746): component and position; `none` is
`PD_UNSET_COMPONENT`, `PD_UNSET_POSITION`. -/
abbrev Asg := Option (Nat × Nat)

/-- `pdint_find_unassigned_edge` (pdcode.c 748-770), from edge `e` on; `none` is
`all_assigned`. -/
def findUnassigned : List Asg → Nat → Option Nat
  | [], _ => none
  | none :: _, e => some e
  | some _ :: l, e => findUnassigned l (e + 1)

/-- The loop over edges in a component (pdcode.c 1117-1146): `n` is `next_edge`, `pos` is
the local `nedges`, and the first argument is `pd->nedges - pos`, which is 0 exactly when the
safety check stops the program. -/
def walkComp (maxedges : Nat) (cross : List Cross) (comp start : Nat) :
    Nat → Nat → Or → Nat → List Edge → List Asg → Res (List Edge × List Asg × Nat)
  | 0, n, o, pos, edge, asg =>
    if n = start ∨ ¬ pos ≤ maxedges + 1 then .ok (edge, asg, pos)
    else do
      let x ← rd edge n
      let x' ← orientedEdge x o
      let _ ← wr edge n x'
      let _ ← wr asg n (some (comp, pos))
      .error .die
  | r + 1, n, o, pos, edge, asg =>
    if n = start ∨ ¬ pos ≤ maxedges + 1 then .ok (edge, asg, pos)
    else do
      let x ← rd edge n
      let x' ← orientedEdge x o
      let edge ← wr edge n x'
      let asg ← wr asg n (some (comp, pos))
      let (n', o') ← nextCompEdge cross edge n
      walkComp maxedges cross comp start r n' o' (pos + 1) edge asg

/-- One component (pdcode.c 1100-1146). -/
def oneComp (maxedges : Nat) (cross : List Cross) (comp e : Nat) (edge : List Edge)
    (asg : List Asg) : Res (List Edge × List Asg × Nat) := do
  let asg ← wr asg e (some (comp, 0))
  let (n, o) ← nextCompEdge cross edge e
  walkComp maxedges cross comp e (edge.length - 1) n o 1 edge asg

/-- The loop over components (pdcode.c 1096-1165). The first argument is
`MAXCOMPONENTS - ncomps`. The test `ncomps > MAXCOMPONENTS` lets `ncomps == MAXCOMPONENTS`
pass, and then `pd->comp[comp]` lies outside the array. `lens` are the lengths of the
buffers allocated so far. -/
def compsLoop (maxedges : Nat) (cross : List Cross) : Nat → Nat → Nat → List Edge → List Asg →
    List Nat → Res (List Edge × List Asg × List Nat)
  | 0, comp, e, edge, asg, _ => do
    let _ ← oneComp maxedges cross comp e edge asg
    .error .ub
  | r + 1, comp, e, edge, asg, lens => do
    let (edge, asg, k) ← oneComp maxedges cross comp e edge asg
    match findUnassigned asg 0 with
    | none => .ok (edge, asg, lens ++ [k])
    | some e' => compsLoop maxedges cross r (comp + 1) e' edge asg (lens ++ [k])

/-- Filling the component buffers (pdcode.c 1172-1179), for edges `e`, `e + 1`, .... -/
def fill : List Asg → Nat → List (List Nat) → Res (List (List Nat))
  | [], _, comps => .ok comps
  | none :: _, _, _ => .error .die
  | some (c, p) :: l, e, comps => do
    assertC (c < comps.length)
    let b ← rd comps c
    assertC (p < b.length)
    let b ← wr b p e
    let comps ← wr comps c b
    fill l (e + 1) comps

/-- Tags (pdcode.c 1196-1200), starting from the code of `'A'`. `pd_tag_t` is `char`; numbers
are not wrapped here. -/
def assignTags : List Comp → Nat → List Comp
  | [], _ => []
  | c :: l, t => { c with tag := t } :: assignTags l (t + 1)

/-- The translation tables (pdcode.c 1210-1222), for one component's edges; places of the two
arrays that have not been written hold `none`. -/
def transEdges : List Nat → Nat → List (Option Nat) → List (Option Nat) →
    Res (List (Option Nat) × List (Option Nat))
  | [], _, old, new => .ok (old, new)
  | e :: l, i, old, new => do
    let old ← wr old i (some e)
    let new ← wr new e (some i)
    transEdges l (i + 1) old new

/-- The loop over components around it (pdcode.c 1208-1222), giving also the new records. -/
def transComps : List Comp → Nat → List (Option Nat) → List (Option Nat) →
    Res (List Comp × List (Option Nat) × List (Option Nat))
  | [], _, old, new => .ok ([], old, new)
  | c :: l, i, old, new => do
    let (old, new) ← transEdges c.edge i old new
    let (r, old, new) ← transComps l (i + c.edge.length) old new
    .ok ({ c with edge := List.range' i c.edge.length } :: r, old, new)

/-- Reading a place of an array on the stack: unset places are undefined behaviour. -/
def rdSet {α : Type} (l : List (Option α)) (i : Nat) : Res α := do
  match ← rd l i with
  | some x => .ok x
  | none => .error .ub

/-- Step 4 (pdcode.c 1226-1238), for new edge numbers `i`, ..., `i + r - 1`. -/
def moveEdges (edge : List Edge) (old : List (Option Nat)) : Nat → Nat → Res (List Edge)
  | 0, _ => .ok []
  | r + 1, i => do
    let o ← rdSet old i
    let x ← rd edge o
    let l ← moveEdges edge old r (i + 1)
    .ok (x :: l)

/-- Step 5 (pdcode.c 1240-1254). -/
def renameCross (new : List (Option Nat)) : List Cross → Res (List Cross)
  | [] => .ok []
  | c :: l => do
    let e0 ← rdSet new c.e0
    let e1 ← rdSet new c.e1
    let e2 ← rdSet new c.e2
    let e3 ← rdSet new c.e3
    let r ← renameCross new l
    .ok (⟨e0, e1, e2, e3, c.sign⟩ :: r)

/-- `pd_component_cmp` as the order used by `qsort`. -/
def compLe (a b : Comp) : Bool := decide (compCmp a b ≤ 0)

/-- `pd_regenerate_comps` (pdcode.c 1018-1257). Freeing old component records is not
modelled. -/
def regenComps (qs : QSort) (maxedges maxcomps : Nat) (cross : List Cross) (edge : List Edge) :
    Res (List Cross × List Edge × List Comp) := do
  let ok ← crossOk maxedges cross edge
  assertC ok
  let ok ← edgesOk cross edge
  assertC ok
  let (edge, asg, lens) ← compsLoop maxedges cross maxcomps 0 0 edge
    (List.replicate edge.length none) []
  let bufs ← fill asg 0 (lens.map (fun k => List.replicate k 0))
  let comps := qs.sort compLe (bufs.map (fun b => (⟨b, 0⟩ : Comp)))
  let comps := assignTags comps 65
  let (comps, old, new) ← transComps comps 0 (List.replicate maxedges none)
    (List.replicate maxedges none)
  let edge ← moveEdges edge old edge.length 0
  let cross ← renameCross new cross
  let (cross, edge) ← regenCrossings qs cross edge
  .ok (cross, edge, comps)

end Plc.Comps
