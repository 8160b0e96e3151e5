import Verif.Model.Faces
import Verif.Model.Strands
import Verif.Model.Perm
import Verif.Model.Iters

/-! # Edge maps (`src/pd_isomorphisms.c`) and operations on components (`src/pd_operations.c`) -/

namespace Plc.Emap

open Plc.Cmp Plc.PermM

/-- `pd_edgemap_t` (pd_isomorphisms.h). -/
structure EMap where
  perm : Perm
  orient : List Or
  deriving DecidableEq, Repr

/-- `pd_new_edgemap` (pd_isomorphisms.c 359-373). -/
def newEMap (n : Nat) : EMap := ⟨newPerm n, List.replicate n .pos⟩

/-- `pd_edgemap_ok` (pd_isomorphisms.c 447-465). -/
def emapOk (m : EMap) : Res Bool := do
  let b ← permOk m.perm
  .ok (b && m.orient.all orOk)

/-- The loop of `pd_compose_edgemaps` (pd_isomorphisms.c 757-772). -/
def composeLoop (A : EMap) : List Nat → List Or → Res (List Nat × List Or)
  | b :: bs, o :: os => do
    let x ← rd A.perm.map b
    let p ← rd A.orient b
    let q ← Iters.composeOr o p
    let (xs, qs) ← composeLoop A bs os
    .ok (x :: xs, q :: qs)
  | _, _ => .ok ([], [])

/-- `pd_compose_edgemaps` (pd_isomorphisms.c 745-776). The cached index of the new permutation
stays 0. -/
def composeE (A B : EMap) : Res EMap := do
  assertC (A.perm.n = B.perm.n)
  let (m, o) ← composeLoop A B.perm.map B.orient
  .ok ⟨⟨m, 0⟩, o⟩

/-- `pd_stareq_edgemap` (pd_isomorphisms.c 778-786). The cached index is not copied. -/
def stareqE (A B : EMap) : Res EMap := do
  let C ← composeE A B
  .ok ⟨⟨C.perm.map, A.perm.pc⟩, C.orient⟩

/-- One edge of the inner loop of `pd_edgemap_consistent` (pd_isomorphisms.c 712-737). -/
def restConsistent (nedges : Nat) (comps : List Comp) (m : EMap) (tc : Nat) (to : Or) :
    List Nat → Res Bool
  | [] => .ok true
  | e :: l => do
    let x ← rd m.perm.map e
    let (c, _) ← Strands.compAndPos nedges comps x
    if c ≠ tc then .ok false
    else do
      let o ← rd m.orient e
      if o ≠ to then .ok false
      else restConsistent nedges comps m tc to l

/-- The loop of `pd_edgemap_consistent` over components (pd_isomorphisms.c 699-739). -/
def compsConsistent (nedges : Nat) (comps : List Comp) (m : EMap) : List Comp → Res Bool
  | [] => .ok true
  | k :: l => do
    let e ← rd k.edge 0
    let x ← rd m.perm.map e
    let (tc, _) ← Strands.compAndPos nedges comps x
    let to ← rd m.orient e
    let b ← restConsistent nedges comps m tc to (k.edge.drop 1)
    if b then compsConsistent nedges comps m l else .ok false

/-- `pd_edgemap_consistent` (pd_isomorphisms.c 674-743) for a map from a diagram to itself, which
is how `pd_apply_edgemap` uses it. -/
def emapConsistent (nedges : Nat) (comps : List Comp) (m : EMap) : Res Bool :=
  if m.perm.n ≠ nedges then .ok false else compsConsistent nedges comps m comps

/-- `pd_reorient_edge` (pdcode.c 545-568). -/
def reorientEdge (edge : List Edge) (e : Nat) (o : Or) : Res (List Edge) := do
  assertC (e < edge.length)
  assertC (o = .pos ∨ o = .neg)
  if o = .neg then do
    let r ← rd edge e
    wr edge e ⟨r.tail, r.tailpos, r.head, r.headpos⟩
  else .ok edge

/-- The copy loop of `pd_apply_edgemap` (pd_isomorphisms.c 805-810). -/
def copyEdges : List Nat → List Or → List Edge → Res (List Edge)
  | x :: xs, o :: os, edge => do
    let edge ← reorientEdge edge x o
    let r ← rd edge x
    let rs ← copyEdges xs os edge
    .ok (r :: rs)
  | _, _, _ => .ok []

/-- New edge numbers in the crossings (pd_isomorphisms.c 845-854). -/
def renameCross (inv : List Nat) : List Cross → Res (List Cross)
  | [] => .ok []
  | c :: l => do
    let a ← rd inv c.e0
    let b ← rd inv c.e1
    let d ← rd inv c.e2
    let e ← rd inv c.e3
    let r ← renameCross inv l
    .ok (⟨a, b, d, e, c.sign⟩ :: r)

/-- `pd_apply_edgemap` (pd_isomorphisms.c 789-877). The renaming of the old face records, which are
freed and rebuilt right after, and the hash are not modelled. -/
def applyEMap (qs : QSort) (bs : BSearch) (maxfaces : Nat) (cross : List Cross) (edge : List Edge)
    (comps : List Comp) (m : EMap) : Res (List Cross × List Edge × List Face) := do
  let ok ← emapConsistent edge.length comps m
  assertC ok
  let edge ← copyEdges m.perm.map m.orient edge
  let inv ← inverse bs m.perm
  let cross ← renameCross inv.map cross
  let (cross, edge) ← Core.regenCrossings qs cross edge
  let faces ← Faces.regenFaces qs maxfaces cross edge
  .ok (cross, edge, faces)

/-- Flipping a sign (pd_operations.c 75-81). -/
def flipSign : Or → Or
  | .pos => .neg
  | .neg => .pos
  | .unset => .unset

/-- Step 1 of `pd_reorient_component` (pd_operations.c 70-85). -/
def flipSigns (edge : List Edge) : List Nat → List Cross → Res (List Cross)
  | [], cross => .ok cross
  | e :: l, cross => do
    let r ← rd edge e
    let c ← rd cross r.head
    let cross ← wr cross r.head { c with sign := flipSign c.sign }
    flipSigns edge l cross

/-- Filling in the edge map (pd_operations.c 122-127), from `e` on: `k` rounds are left. -/
def revLoop (first last : Nat) : Nat → Nat → EMap → Res EMap
  | 0, _, m => .ok m
  | k + 1, e, m => do
    let o ← wr m.orient (first + e) .neg
    let p ← wr m.perm.map (first + e) (last + 1 - e)
    revLoop first last k (e + 1) ⟨⟨p, m.perm.pc⟩, o⟩

/-- `pd_reorient_component` (pd_operations.c 43-144). The assertion at 116 is about 32-bit unsigned
numbers; as long as the component has fewer than 2^31 edges it says the same as here. For the
positive orientation nothing happens; the faces are then whatever they were (`none`). -/
def reorientComponent (qs : QSort) (bs : BSearch) (maxfaces : Nat) (cross : List Cross) (edge : List Edge)
    (comps : List Comp) (cmp : Nat) (o : Or) : Res (List Cross × List Edge × Option (List Face)) := do
  assertC (cmp < comps.length)
  if o = .neg then do
    let k ← rd comps cmp
    let cross ← flipSigns edge k.edge cross
    let first ← rd k.edge 0
    let last ← rd k.edge (k.edge.length - 1)
    assertC (last + 1 = first + k.edge.length)
    let os ← wr (List.replicate edge.length Or.pos) first .neg
    let p ← wr (List.range edge.length) first first
    let m ← revLoop first last (k.edge.length - 1) 1 ⟨⟨p, 0⟩, os⟩
    let perm ← regenPc bs m.perm.map
    let ok ← emapOk ⟨perm, m.orient⟩
    assertC ok
    let (cross, edge, _) ← applyEMap qs bs maxfaces cross edge comps ⟨perm, m.orient⟩
    let faces ← Faces.regenFaces qs maxfaces cross edge
    .ok (cross, edge, some faces)
  else .ok (cross, edge, none)

/-- The loop of `pd_renumber_component` (pd_operations.c 187-193), from `e` on. Orientations are
all positive. -/
def renumLoop (k : List Nat) (ofs : Nat) : Nat → Nat → List Nat → Res (List Nat)
  | 0, _, p => .ok p
  | n + 1, e, p => do
    let x ← rd k e
    let y ← rd k ((e + ofs) % k.length)
    let p ← wr p x y
    renumLoop k ofs n (e + 1) p

/-- `pd_renumber_component` (pd_operations.c 147-213). `e + ofs` is a 32-bit sum, here unbounded. -/
def renumberComponent (qs : QSort) (bs : BSearch) (maxfaces : Nat) (cross : List Cross) (edge : List Edge)
    (comps : List Comp) (cmp ofs : Nat) : Res (List Cross × List Edge × Option (List Face)) := do
  assertC (cmp < comps.length)
  if ofs ≠ 0 then do
    let k ← rd comps cmp
    let p ← renumLoop k.edge ofs k.edge.length 0 (List.range edge.length)
    let perm ← regenPc bs p
    let ok ← emapOk ⟨perm, List.replicate edge.length .pos⟩
    assertC ok
    let (cross, edge, _) ← applyEMap qs bs maxfaces cross edge comps ⟨perm, List.replicate edge.length .pos⟩
    let faces ← Faces.regenFaces qs maxfaces cross edge
    .ok (cross, edge, some faces)
  else .ok (cross, edge, none)

end Plc.Emap
