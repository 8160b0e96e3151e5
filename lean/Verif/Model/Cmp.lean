import Verif.Model.Perm
import Verif.Model.Iters

/-! # Comparison functions handed to `qsort` and `bsearch` -/

namespace Plc.Cmp

/-- `return a - b` for two 32-bit unsigned numbers in a function returning `int`: the
difference modulo 2^32, read as a signed number. -/
def udiff (a b : Nat) : Int :=
  let d : Nat := (a + 2 ^ 32 - b) % 2 ^ 32
  if d < 2 ^ 31 then (d : Int) else (d : Int) - 2 ^ 32

/-- The comparison loop used by all of them: the difference at the first place where two
buffers of the same length differ, or 0 (pd_perm.c 272-284, pdcode.c 338-346, 368-376,
789-797, pd_dihedral.c 328-336, pd_cyclic.c 241-249). -/
def lexU : List Nat → List Nat → Int
  | a :: l, b :: m => if a ≠ b then udiff a b else lexU l m
  | _, _ => 0

/-- The four edges of a crossing. -/
def edges (c : Cross) : List Nat := [c.e0, c.e1, c.e2, c.e3]

/-- `pd_cross_cmp` (pdcode.c 327-348). -/
def crossCmp (a b : Cross) : Int := lexU (edges a) (edges b)

/-- `pd_face_t` (plcTopology.h): `nedges` is the length of the two lists. -/
structure Face where
  edge : List Nat
  orient : List Or
  deriving DecidableEq, Repr

/-- `pd_component_t` (plcTopology.h). -/
structure Comp where
  edge : List Nat
  tag : Nat
  deriving DecidableEq, Repr

/-- Longer buffers first, then dictionary order. -/
def longLex (a b : List Nat) : Int :=
  if a.length ≠ b.length then udiff b.length a.length else lexU a b

/-- `pd_face_cmp` (pdcode.c 350-378). -/
def faceCmp (a b : Face) : Int := longLex a.edge b.edge

/-- `pd_component_cmp` (pdcode.c 771-801). -/
def compCmp (a b : Comp) : Int := longLex a.edge b.edge

/-- `pd_or_ok` (pdcode.c 199-202). -/
def orOk (o : Or) : Bool := decide (o = .pos) || decide (o = .neg)

/-- `pd_or_cmp` (pdcode.c 204-223). -/
def orCmp (a b : Or) : Res Int := do
  assertC (orOk a && orOk b)
  if a = b then .ok 0
  else if a = .pos then .ok (-1)
  else if b = .pos then .ok 1
  else .error .die

/-- `pd_perm_cmp` (pd_perm.c 297-310) on the maps. -/
def permCmp (a b : List Nat) : Res Int := do
  assertC (a.length = b.length)
  .ok (lexU a b)

/-- `pd_dihedral_cmp` (pd_dihedral.c 311-341). -/
def dihedralCmp (a b : Iters.Dihedral) : Res Int := do
  assertC (a.map.length = b.map.length)
  if a.orient ≠ b.orient then .ok (if a.orient = .pos then -1 else 1)
  else .ok (lexU a.map b.map)

/-- `pd_cyclic_cmp` (pd_cyclic.c 231-253). -/
def cyclicCmp (a b : List Nat) : Res Int := do
  assertC (a.length = b.length)
  .ok (lexU a b)

/-- `pd_orientation_cmp` (pd_orientation.c 147-167). -/
def orientationCmp (a b : Or) : Int :=
  if a = b then 0 else if a = .pos then -1 else 1

/-- The loop over orientations of `pd_edgemap_cmp` (pd_isomorphisms.c 498-503). -/
def orsCmp : List Or → List Or → Res Int
  | a :: l, b :: m => do
    let c ← orCmp a b
    if c ≠ 0 then .ok c else orsCmp l m
  | _, _ => .ok 0

/-- `pd_edgemap_cmp` (pd_isomorphisms.c 482-506). -/
def edgemapCmp (pa : List Nat) (oa : List Or) (pb : List Nat) (ob : List Or) : Res Int := do
  let c ← permCmp pa pb
  if c ≠ 0 then .ok c
  else do
    assertC (pa.length = pb.length)
    orsCmp oa ob

/-- `pd_crossmap_cmp` and `pd_facemap_cmp` (pd_isomorphisms.c 945-956, 1280-1291). -/
def crossmapCmp (oa : Or) (pa : List Nat) (ob : Or) (pb : List Nat) : Res Int := do
  let c ← orCmp oa ob
  if c ≠ 0 then .ok c else permCmp pa pb

/-- `crossing_strand_cmp` (plcTopology.c 984-1000); the arclength `s` (a
`double`) is a whole number of units of 1e-9 here. -/
def strandCmp (ca : Nat) (sa : Int) (cb : Nat) (sb : Int) : Int :=
  if ca ≠ cb then udiff cb ca
  else if (sa - sb).natAbs < 10 then 0
  else if sa < sb then -1 else 1

end Plc.Cmp
