import Verif.Model.Motions

/-! # Measuring curves (`src/plCurve.c` 226-288, 1587-1657, 1890-2002, 2407-2429, 2773-2890)

Doubles are real numbers, without rounding. -/

namespace Plc.Measure

open Plc.Core Plc.FindCrossings Plc.RandomPolygon Plc.Equilateral Plc.Motions

/-- `length += |vt[v+1] - vt[v]|` for `k` values of `v`. -/
noncomputable def edgeSum (c : Comp) : Nat → Nat → ℝ → Res ℝ
  | 0, _, s => .ok s
  | k + 1, v, s => do
    let b ← vtAt c ((v : Int) + 1)
    let a ← vtAt c (v : Int)
    edgeSum c k (v + 1) (s + dist3 b a)

/-- The loop of `plc_arclength` (1934-1948): the lengths of the components. -/
noncomputable def compLengths : List Comp → Res (List ℝ)
  | [] => .ok []
  | c :: cs => do
    let l ← edgeSum c (if c.isOpen then c.vt.length - 1 else c.vt.length) 0 0
    let ls ← compLengths cs
    .ok (l :: ls)

/-- `plc_arclength` (1921-1952): the total and the lengths of the components. -/
noncomputable def arclength (L : Curve) : Res (ℝ × List ℝ) := do
  let ls ← compLengths L.cp
  .ok (ls.foldl (· + ·) 0, ls)

/-- The loop of `plc_subarc_length` (1993-1999). -/
noncomputable def subLoop (c : Comp) (v1 v2 : Nat) : Nat → Nat → ℝ → ℝ → Res (ℝ × ℝ)
  | 0, _, l1, l2 => .ok (l1, l2)
  | k + 1, v, l1, l2 => do
    let b ← vtAt c ((v : Int) + 1)
    let a ← vtAt c (v : Int)
    if v1 ≤ v ∧ v < v2 then subLoop c v1 v2 k (v + 1) (l1 + dist3 b a) l2
    else subLoop c v1 v2 k (v + 1) l1 (l2 + dist3 b a)

/-- `plc_subarc_length` (1959-2002). -/
noncomputable def subarc (L : Curve) (cmp vert1 vert2 : Int) : Res ℝ := do
  assertC (decide (cmp ≥ 0) && decide (cmp < (L.cp.length : Int)))
  let c ← rd L.cp cmp.toNat
  assertC (decide (vert1 ≥ 0) && decide (vert1 < (c.vt.length : Int)))
  assertC (decide (vert2 ≥ 0) && decide (vert2 < (c.vt.length : Int)))
  let v1 := (min vert1 vert2).toNat
  let v2 := (max vert1 vert2).toNat
  let start := if c.isOpen then v1 else 0
  let stop := if c.isOpen then v2 else c.vt.length
  let (l1, l2) ← subLoop c v1 v2 (stop - start) start 0 0
  .ok (if c.isOpen then l1 else if l1 ≤ l2 then l1 else l2)

/-- `plc_s` (226-255), the earlier components: from every vertex to the next, up to `vt[nv]`. -/
noncomputable def sComps : List Comp → ℝ → Res ℝ
  | [], s => .ok s
  | c :: cs, s => do
    let s' ← edgeSum c c.vt.length 0 s
    sComps cs s'

/-- `plc_s` (226-255). -/
noncomputable def arcPos (L : Curve) (cmp vert : Nat) : Res ℝ :=
  if cmp < L.cp.length then do
    let s ← sComps (L.cp.take cmp) 0
    let c ← rd L.cp cmp
    edgeSum c vert 0 s
  else .error .ub

/-- The loop of `plc_edgelength_stats` (270-283) for one component: longest, shortest, sum, sum of squares. -/
noncomputable def statLoop (c : Comp) : Nat → Nat → ℝ × ℝ × ℝ × ℝ → Res (ℝ × ℝ × ℝ × ℝ)
  | 0, _, st => .ok st
  | k + 1, v, (lo, sh, su, sq) => do
    let b ← vtAt c (v : Int)
    let a ← vtAt c ((v : Int) - 1)
    statLoop c k (v + 1) (max (dist3 b a) lo, min (dist3 b a) sh, su + dist3 b a, sq + dist3 b a * dist3 b a)

/-- The loop over the components. -/
noncomputable def statComps : List Comp → ℝ × ℝ × ℝ × ℝ → Res (ℝ × ℝ × ℝ × ℝ)
  | [], st => .ok st
  | c :: cs, st => do
    let st ← statLoop c ((if c.isOpen then c.vt.length else c.vt.length + 1) - 1) 1 st
    statComps cs st

/-- `plc_edges` (1490-1508) with `strand_edges`. -/
def edges (L : Curve) : Nat := (L.cp.map fun c => if c.isOpen then c.vt.length - 1 else c.vt.length).sum

/-- `plc_edgelength_stats` (258-292): longest, shortest, mean, second moment. -/
noncomputable def edgeStats (L : Curve) : Res (ℝ × ℝ × ℝ × ℝ) := do
  let (lo, sh, su, sq) ← statComps L.cp (0, 1e20, 0, 0)
  let m ← divC su (edges L)
  let m2 ← divC sq (edges L)
  .ok (lo, sh, m, m2)

/-- All vertices, in the order of the nested loops over components and vertices. -/
def allVerts (L : Curve) : List V3 := L.cp.flatMap (·.vt)

/-- The two inner loops of `plc_pointset_diameter` (2415-2425). -/
noncomputable def farthest (v : V3) (ws : List V3) (d : ℝ) : ℝ :=
  ws.foldl (fun d w => if dist3 v w > d then dist3 v w else d) d

/-- The loops of `plc_pointset_diameter`; the second vertex is the first one or comes after it. -/
noncomputable def diameterOf : List V3 → ℝ → ℝ
  | [], d => d
  | v :: vs, d => diameterOf vs (farthest v (v :: vs) d)

/-- `plc_pointset_diameter` (2407-2429). -/
noncomputable def diameter (L : Curve) : ℝ := diameterOf (allVerts L) 0

/-- `plc_center_of_mass` (2773-2794). -/
noncomputable def centerOfMass (L : Curve) : V3 :=
  (allVerts L).foldl (fun com v => add com (V3.scale (1 / (allVerts L).length) v)) ⟨0, 0, 0⟩

/-- `plc_gyradius` (2800-2822). -/
noncomputable def gyradius (L : Curve) : Res ℝ :=
  divC ((allVerts L).foldl (fun g v => g + distSq (centerOfMass L) v) 0) (allVerts L).length
where
  /-- `plc_M_sq_dist`. -/
  distSq (a b : V3) : ℝ := (a.x - b.x) * (a.x - b.x) + (a.y - b.y) * (a.y - b.y) + (a.z - b.z) * (a.z - b.z)

/-- The inner loop of `plc_mean_squared_chordlengths` (2860-2866, 2877-2881): `k` chords from place `i` of the first buffer and place
`j` of the second one. -/
noncomputable def chordSum (bufA bufB : List V3) : Nat → Nat → Nat → ℝ → Res ℝ
  | 0, _, _, s => .ok s
  | k + 1, i, j, s => do
    let a ← rd bufA i
    let b ← rd bufB j
    chordSum bufA bufB k (i + 1) (j + 1) (s + gyradius.distSq a b)

/-- One entry of the result of `plc_mean_squared_chordlengths` (2829-2890); the component is given. A negative skip reads before the
buffer, if anything is read. -/
noncomputable def meanChord (c : Comp) (skip : Nat) : Res ℝ :=
  if c.isOpen then do
    let s ← chordSum c.vt (c.vt ++ c.vt) (c.vt.length - skip) 0 skip 0
    divC s ((c.vt.length - skip : Nat) : ℝ)
  else do
    let s ← chordSum c.vt (c.vt ++ c.vt) c.vt.length 0 skip 0
    divC s (c.vt.length : ℝ)

/-- `plc_turning_angle` (1587-1628): the angle, with the flag `ok` if it is set. -/
noncomputable def turningAngle (c : Comp) (vt : Int) : Res (ℝ × Option Bool) :=
  if c.isOpen = true ∧ (vt ≤ 0 ∨ vt ≥ (c.vt.length : Int) - 1) then .ok (0, none)
  else do
    let v := if c.isOpen then vt else vt % (c.vt.length : Int)
    let here ← vtAt c v
    let before ← vtAt c (v - 1)
    let after ← vtAt c (v + 1)
    let r := angle (here.sub before) (after.sub here)
    .ok (if r.2 then r.1 else 0, some r.2)

/-- `plc_MR_curvature` (1631-1657). -/
noncomputable def mrCurvature (c : Comp) (vert : Int) : Res ℝ :=
  if c.isOpen = true ∧ (vert = 0 ∨ vert = (c.vt.length : Int) - 1) then .ok 0
  else do
    let here ← vtAt c vert
    let before ← vtAt c (vert - 1)
    let after ← vtAt c (vert + 1)
    let i := here.sub before
    let o := after.sub here
    assertC (decide (norm3 i * norm3 o + i.dot o > eps))
    let k ← divC (2 * norm3 (i.crossProd o)) (norm3 i * norm3 o + i.dot o)
    divC k (if norm3 i - norm3 o < eps then norm3 i else norm3 o)

end Plc.Measure
