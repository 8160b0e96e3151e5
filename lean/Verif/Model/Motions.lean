import Verif.Model.Equilateral
import Verif.Model.Constraint

/-! # Moving a curve and its constraints (`src/plCurve.c` 120-224, 294-380, 2431-2770, `src/vector.c` 519-559, `src/symmetries.c` 29-48)

Doubles are real numbers, without rounding. The copies `vt[-1]` and `vt[nv]` of a component are not stored but are those which
`plc_fix_wrap` makes; every function here ends by calling it. Components have at least one vertex, as `plc_new` demands. -/

namespace Plc.Motions

open Plc.Core Plc.FindCrossings Plc.RandomPolygon Plc.Equilateral Plc.Cst

/-- `plc_strand`, without colors. -/
structure Comp where
  isOpen : Bool
  vt : List V3

/-- `plCurve`: components and constraints; the two vectors of a constraint are a pair. Symmetry groups are left out. -/
structure Curve where
  cp : List Comp
  cst : List (Cst (V3 × V3))

/-- `plc_fix_wrap` (1137-1155). -/
def fixWrap (c : Comp) : Comp := { c with isOpen := c.isOpen || decide (c.vt.length < 3) }

/-- `vt[i]` for `-1 ≤ i ≤ nv`, the ends as made by `plc_fix_wrap`. The copies of an open component of one vertex are those of each other,
not of a vertex, and count as not initialised. -/
def vtAt (c : Comp) (i : Int) : Res V3 :=
  if i < -1 ∨ i > (c.vt.length : Int) then .error .ub
  else if i = -1 then (if c.isOpen then rd c.vt 1 else rd c.vt (c.vt.length - 1))
  else if i = (c.vt.length : Int) then (if c.isOpen then (if c.vt.length < 2 then .error .ub else rd c.vt (c.vt.length - 2)) else rd c.vt 0)
  else rd c.vt i.toNat

/-- Changing all vertices, and `plc_fix_wrap`. -/
def mapVerts (g : V3 → V3) (cp : List Comp) : List Comp := cp.map fun c => fixWrap { c with vt := c.vt.map g }

/-- `DBL_EPSILON`. -/
noncomputable def eps : ℝ := 1 / 2 ^ 52

/-- The body of the loops of `plc_rotate` (2566-2591), of `plc_pfm` after recentering (2497-2521), and of `plc_rotate_vect`
(vector.c 533-557). -/
noncomputable def turn (axis : V3) (angle : ℝ) (p : V3) : V3 :=
  let par := V3.scale (p.dot axis) axis
  let nor := p.sub par
  let b := axis.crossProd nor
  if norm3 b < eps ∧ -norm3 b < eps then p
  else
    let binor := V3.scale (norm3 nor) (V3.scale (1 / norm3 b) b)
    let newnor := lincomb (Real.cos angle) nor (Real.sin angle) binor
    add newnor par

/-- `plc_rotate` (2533-2603). -/
noncomputable def rotate (L : Curve) (axis : V3) (angle : ℝ) : Curve := { L with cp := mapVerts (turn axis angle) L.cp }

/-- `plc_rotate_vect` (vector.c 519-559). -/
noncomputable def rotateVect (v axis : V3) (angle : ℝ) : V3 :=
  if norm3 axis < eps ∧ -norm3 axis < eps then v else turn (V3.scale (1 / norm3 axis) axis) angle v

/-- A matrix, by its rows. -/
structure Mat where
  r0 : V3
  r1 : V3
  r2 : V3

/-- The product of a matrix and a vector. -/
noncomputable def Mat.app (A : Mat) (p : V3) : V3 := ⟨A.r0.dot p, A.r1.dot p, A.r2.dot p⟩

/-- `plc_matrix_matrix_multiply` (matrix.c). -/
noncomputable def Mat.mul (A B : Mat) : Mat :=
  let c0 : V3 := ⟨B.r0.x, B.r1.x, B.r2.x⟩
  let c1 : V3 := ⟨B.r0.y, B.r1.y, B.r2.y⟩
  let c2 : V3 := ⟨B.r0.z, B.r1.z, B.r2.z⟩
  ⟨⟨A.r0.dot c0, A.r0.dot c1, A.r0.dot c2⟩, ⟨A.r1.dot c0, A.r1.dot c1, A.r1.dot c2⟩, ⟨A.r2.dot c0, A.r2.dot c1, A.r2.dot c2⟩⟩

/-- `plc_rotation_matrix` (symmetries.c 29-48). -/
noncomputable def rotationMatrix (axis : V3) (t : ℝ) : Res Mat :=
  if norm3 axis < eps ∧ -norm3 axis < eps then .error .die
  else
    let u := V3.scale (1 / norm3 axis) axis
    .ok ⟨⟨Real.cos t + u.x * u.x * (1 - Real.cos t), u.x * u.y * (1 - Real.cos t) - u.z * Real.sin t,
          u.x * u.z * (1 - Real.cos t) + u.y * Real.sin t⟩,
        ⟨u.y * u.x * (1 - Real.cos t) + u.z * Real.sin t, Real.cos t + u.y * u.y * (1 - Real.cos t),
          u.y * u.z * (1 - Real.cos t) - u.x * Real.sin t⟩,
        ⟨u.z * u.x * (1 - Real.cos t) - u.y * Real.sin t, u.z * u.y * (1 - Real.cos t) + u.x * Real.sin t,
          Real.cos t + u.z * u.z * (1 - Real.cos t)⟩⟩

/-- What `plc_rotate` does to the matrix of a symmetry (2540-2559). -/
noncomputable def rotateSym (axis : V3) (angle : ℝ) (T : Mat) : Res Mat := do
  let A ← rotationMatrix axis angle
  let Ainv ← rotationMatrix axis (-angle)
  .ok (A.mul (T.mul Ainv))

/-- `plc_M_vecteq` (plCurve.h 310-316). -/
noncomputable def vectEq (a b : V3) : Bool :=
  decide (a.x - b.x ≤ 2 * eps) && decide (-(a.x - b.x) ≤ 2 * eps) && decide (a.y - b.y ≤ 2 * eps) && decide (-(a.y - b.y) ≤ 2 * eps) &&
    decide (a.z - b.z ≤ 2 * eps) && decide (-(a.z - b.z) ≤ 2 * eps)

/-- `plc_pfm` (2466-2530) on the component. -/
noncomputable def pfm (c : Comp) (vt0 vt1 : Int) (angle : ℝ) : Res Comp := do
  assertC (decide (vt0 ≥ -1) && decide (vt0 ≤ (c.vt.length : Int)))
  assertC (decide (vt1 ≥ -1) && decide (vt1 ≤ (c.vt.length : Int)))
  let a ← vtAt c vt0
  let b ← vtAt c vt1
  assertC (!vectEq a b)
  if vt0 = vt1 then .ok c
  else do
    let (vt0, vt1, a, b) := if vt1 < vt0 then (vt1, vt0, b, a) else (vt0, vt1, a, b)
    if norm3 (b.sub a) < eps ∧ -norm3 (b.sub a) < eps then .error .die
    else
      let axis := V3.scale (1 / norm3 (b.sub a)) (b.sub a)
      .ok (fixWrap { c with vt := c.vt.mapIdx fun i v => if vt0 < (i : Int) ∧ (i : Int) < vt1 then add (turn axis angle (v.sub a)) a else v })

/-- `plc_scale` (2431-2463): the constraint. -/
noncomputable def scaleCst (k : ℝ) (c : Cst (V3 × V3)) : Cst (V3 × V3) :=
  match c.kind with
  | .unconstrained => c
  | .fixed => { c with vect := (V3.scale k c.vect.1, c.vect.2) }
  | .line => { c with vect := (c.vect.1, V3.scale k c.vect.2) }
  | .plane => { c with vect := (c.vect.1, V3.scale k c.vect.2) }

/-- `plc_scale` (2431-2463). -/
noncomputable def scale (L : Curve) (k : ℝ) : Curve := ⟨mapVerts (V3.scale k) L.cp, L.cst.map (scaleCst k)⟩

/-- `plc_translate` (2607-2656): the constraint. -/
noncomputable def moveCst (t : V3) (c : Cst (V3 × V3)) : Cst (V3 × V3) :=
  match c.kind with
  | .unconstrained => c
  | .fixed => { c with vect := (add c.vect.1 t, c.vect.2) }
  | .line => { c with vect := (c.vect.1, add c.vect.2 t) }
  | .plane => { c with vect := (c.vect.1, { c.vect.2 with x := c.vect.2.x + c.vect.1.dot t }) }

/-- `plc_translate` (2607-2656). -/
noncomputable def translate (L : Curve) (t : V3) : Curve :=
  if norm3 t < 1e-10 then L else ⟨mapVerts (fun p => add p t) L.cp, L.cst.map (moveCst t)⟩

/-- `plc_project` (2707-2733). -/
noncomputable def projectTo (L : Curve) (N : V3) : Res Curve :=
  if norm3 N < eps ∧ -norm3 N < eps then .error .die
  else
    let h := V3.scale (1 / norm3 N) N
    .ok { L with cp := mapVerts (fun p => p.sub (V3.scale (p.dot h) h)) L.cp }

/-- `plc_random_rotate` (2735-2770). The square root of a negative number is not a number, and not greater than anything. -/
noncomputable def randomRotate (L : Curve) (a : V3) : Curve :=
  if 0 ≤ 1 - a.z * a.z ∧ Real.sqrt (1 - a.z * a.z) > eps then
    let t := Real.sqrt (1 - a.z * a.z)
    let t2 := 1 / t
    { L with cp := mapVerts (fun p => ⟨-p.x * (a.y * t2) + p.y * (a.x * t2),
        -p.x * (a.x * a.z * t2) - p.y * (a.y * a.z * t2) + p.z * t, p.x * a.x + p.y * a.y + p.z * a.z⟩) L.cp }
  else L

/-- `Closest_line_point` (120-161). -/
noncomputable def closestLine (p t q : V3) : Res V3 := do
  assertC (decide (t.x * t.x + t.y * t.y + t.z * t.z > eps))
  let s := (t.x * (p.x - q.x) + t.y * (p.y - q.y) + t.z * (p.z - q.z)) / (t.x * t.x + t.y * t.y + t.z * t.z)
  .ok ⟨t.x * s + q.x, t.y * s + q.y, t.z * s + q.z⟩

/-- The end of `Closest_plane_point` (218-223), with the coordinates in the order used there. -/
noncomputable def closestIn (a b c d p0 p1 p2 : ℝ) : Res V3 := do
  let frac ← divC (a * p0 + b * p1 + c * p2 - d) (a * a + b * b + c * c)
  let x := p0 - a * frac
  let y := p1 - b * frac
  let z ← divC (d - a * x - b * y) c
  .ok ⟨x, y, z⟩

/-- `Closest_plane_point` (182-224). -/
noncomputable def closestPlane (p n : V3) (d : ℝ) : Res V3 := do
  assertC (decide (n.x * n.x + n.y * n.y + n.z * n.z > eps))
  if n.z ≤ 1e-12 ∧ n.z ≥ -1e-12 then
    if n.y ≤ 1e-12 ∧ n.y ≥ -1e-12 then do
      let r ← closestIn n.z n.y n.x d p.z p.y p.x
      .ok ⟨r.z, r.y, r.x⟩
    else do
      let r ← closestIn n.x n.z n.y d p.x p.z p.y
      .ok ⟨r.x, r.z, r.y⟩
  else closestIn n.x n.y n.z d p.x p.y p.z

/-- The nearest point allowed by a constraint, as in the loops of `plc_check_cst` and `plc_fix_cst`. -/
noncomputable def closest (c : Cst (V3 × V3)) (p : V3) : Res V3 :=
  match c.kind with
  | .unconstrained => .error .die
  | .fixed => .ok c.vect.1
  | .line => closestLine p c.vect.1 c.vect.2
  | .plane => closestPlane p c.vect.1 c.vect.2.x

/-- The vertices a constraint is applied to: one, if it is `fixed` (313, 354). -/
def vertsOf (c : Cst (V3 × V3)) : List Int :=
  match c.kind with
  | .fixed => [c.vert]
  | _ => (List.range c.num.toNat).map fun (i : Nat) => c.vert + (i : Int)

/-- Reading a vertex of the curve. -/
def getVert (cp : List Comp) (i : Nat) (v : Int) : Res V3 := do
  let c ← rd cp i
  vtAt c v

/-- Writing a vertex of the curve; the two copies are not to be written. -/
def setVert (cp : List Comp) (i : Nat) (v : Int) (p : V3) : Res (List Comp) := do
  let c ← rd cp i
  if v < 0 then .error .ub
  else do
    let vt ← wr c.vt v.toNat p
    wr cp i { c with vt := vt }

/-- The loop of `plc_check_cst` (310-333) over the vertices of one constraint. -/
noncomputable def checkOne (cp : List Comp) (c : Cst (V3 × V3)) : List Int → ℝ → Res ℝ
  | [], m => .ok m
  | v :: vs, m => do
    let p ← getVert cp c.cmp v
    let q ← closest c p
    checkOne cp c vs (max m ((p.sub q).dot (p.sub q)))

/-- The loop over the constraints. -/
noncomputable def checkAll (cp : List Comp) : List (Cst (V3 × V3)) → ℝ → Res ℝ
  | [], m => .ok m
  | c :: cs, m => do
    assertC (decide (c.kind ≠ .unconstrained))
    let m' ← checkOne cp c (vertsOf c) m
    checkAll cp cs m'

/-- `plc_check_cst` (294-339). -/
noncomputable def checkCst (L : Curve) : Res ℝ := do
  let m ← checkAll L.cp L.cst 0
  .ok (Real.sqrt m)

/-- The loop of `plc_fix_cst` (351-374) over the vertices of one constraint. -/
noncomputable def fixOne (c : Cst (V3 × V3)) : List Int → List Comp → Res (List Comp)
  | [], cp => .ok cp
  | v :: vs, cp => do
    let p ← getVert cp c.cmp v
    let q ← closest c p
    let cp' ← setVert cp c.cmp v q
    fixOne c vs cp'

/-- The loop over the constraints. -/
noncomputable def fixAll : List (Cst (V3 × V3)) → List Comp → Res (List Comp)
  | [], cp => .ok cp
  | c :: cs, cp => do
    assertC (decide (c.kind ≠ .unconstrained))
    let cp' ← fixOne c (vertsOf c) cp
    fixAll cs cp'

/-- `plc_fix_cst` (341-380). -/
noncomputable def fixCst (L : Curve) : Res Curve := do
  let cp ← fixAll L.cst L.cp
  .ok { L with cp := cp.map fixWrap }

end Plc.Motions
