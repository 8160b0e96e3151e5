import Verif.Model.Generate

/-! # Steps in the moment polytope (`src/plcToricSymplectic.c` 294-367, 384-784)

Doubles are real numbers, without rounding, and always finite. The random direction is any list of numbers, one for every diagonal, and the
number drawn by `gsl_rng_uniform` any number `u`; `gsl_ran_flat(rng,a,b)` is `a * (1 - u) + b * u`. Printing is left out. -/

namespace Plc.Embed

open Plc.Core Plc.FindCrossings Plc.Tri

/-- A walk over the triangles: `step` at the triangle, then the daughters. The recursion is cut off as for `worker`. -/
def visit {σ : Type} (T : Triangulation) (step : Triangle → σ → Res σ) : Nat → Nat → σ → Res σ
  | 0, _, _ => .error .ub
  | f + 1, tri, x => do
    let t ← rd T.triangles tri
    let x ← step t x
    let x ← (match t.t0 with
      | none => .ok x
      | some s => visit T step f s x)
    match t.t1 with
    | none => .ok x
    | some s => visit T step f s x

/-- `tsmcmc_variation` (387-391). -/
def variation (dv : List ℝ) (c : CRef) : Res ℝ := if c.diag then rd dv c.num else .ok 0

/-- `tsmcmc_apply_triangle_inequality` (393-460) for the bounds `tupper`, `tlower`. -/
noncomputable def applyIneq (el dl dv : List ℝ) (A B C : CRef) (x : ℝ × ℝ) : Res (ℝ × ℝ) := do
  let a ← chordLength dl el A
  let b ← chordLength dl el B
  let c ← chordLength dl el C
  let va ← variation dv A
  let vb ← variation dv B
  let vc ← variation dv C
  let num := -a - b + c
  let denom := va + vb - vc
  .ok (if |denom| < 1e-8 then x
    else if denom > 0 then (x.1, if num / denom > x.2 then num / denom else x.2)
    else (if num / denom < x.1 then num / denom else x.1, x.2))

/-- The three inequalities of a triangle (472-484). -/
noncomputable def threeIneqs (el dl dv : List ℝ) (t : Triangle) (x : ℝ × ℝ) : Res (ℝ × ℝ) := do
  let x ← applyIneq el dl dv t.parent t.d0 t.d1 x
  let x ← applyIneq el dl dv t.d0 t.d1 t.parent x
  applyIneq el dl dv t.d1 t.parent t.d0 x

/-- `tsmcmc_moment_polytope_worker` (462-498) from triangle 0 on, with the bounds of the beginning: the bounds for `t`. -/
noncomputable def bounds (T : Triangulation) (el dl dv : List ℝ) : Res (ℝ × ℝ) := visit T (threeIneqs el dl dv) T.triangles.length 0 (1e12, -1e12)

/-- `gsl_ran_flat`. -/
noncomputable def flat (u a b : ℝ) : ℝ := a * (1 - u) + b * u

/-- `diagonal_lengths[i] += t*dv[i]`, for all diagonals (514-516). -/
noncomputable def shift (dl dv : List ℝ) (t : ℝ) : List ℝ := List.zipWith (fun d v => d + t * v) dl dv

/-- `tsmcmc_moment_polytope_step` (500-540): the new lengths of the diagonals. -/
noncomputable def mpStep (T : Triangulation) (el dl dv : List ℝ) (u : ℝ) : Res (List ℝ) := do
  let x ← bounds T el dl dv
  .ok (shift dl dv (flat u x.2 x.1))

/-- The loop of `tsmcmc_confined_moment_polytope_step` (572-592). -/
noncomputable def confine (R : ℝ) : List ℝ → List ℝ → ℝ × ℝ → ℝ × ℝ
  | d :: dl, v :: dv, x =>
    confine R dl dv (if |v| > 1e-8 then
      if v > 0 then (if (R - d) / v < x.1 then (R - d) / v else x.1, x.2) else (x.1, if (R - d) / v > x.2 then (R - d) / v else x.2)
      else x)
  | _, _, x => x

/-- `tsmcmc_confined_moment_polytope_step` (542-623). -/
noncomputable def confinedStep (T : Triangulation) (R : ℝ) (el dl dv : List ℝ) (u : ℝ) : Res (List ℝ) := do
  let x ← bounds T el dl dv
  let x := confine R dl dv x
  .ok (shift dl dv (flat u x.2 x.1))

/-- `tsmcmc_diagonals_ok_worker` (625-684). -/
noncomputable def okWorker (T : Triangulation) (el dl : List ℝ) : Nat → Nat → Res Bool
  | 0, _ => .error .ub
  | f + 1, tri => do
    let t ← rd T.triangles tri
    let a ← chordLength dl el t.parent
    let b ← chordLength dl el t.d0
    let c ← chordLength dl el t.d1
    if a + b < c ∨ b + c < a ∨ c + a < b then .ok false
    else do
      let r ← (match t.t0 with
        | none => .ok true
        | some s => okWorker T el dl f s)
      if !r then .ok false
      else match t.t1 with
        | none => .ok true
        | some s => okWorker T el dl f s

/-- `tsmcmc_diagonals_ok` (686-733). -/
noncomputable def diagonalsOk (T : Triangulation) (el dl : List ℝ) : Res Bool := do
  assertC (decide (0 < T.edges.length))
  assertC (decide (T.diags.length + 3 = T.edges.length))
  okWorker T el dl T.triangles.length 0

/-- `tsmcmc_confined_diagonals_ok` (735-764). -/
noncomputable def confinedDiagonalsOk (T : Triangulation) (R : ℝ) (el dl : List ℝ) : Res Bool := do
  let r ← okWorker T el dl T.triangles.length 0
  if !r then .ok false else .ok (!dl.any (fun d => decide (d > R)))

/-- `tsmcmc_edgelengths_equilateral` (766-784). -/
noncomputable def edgesUnit (el : List ℝ) : Bool := el.all (fun x => !decide (|x - 1| > 1e-8))

/-- The vertices of the folded triangle (304-328). -/
noncomputable def foldedVerts (n : Nat) : List V3 :=
  (List.range n).map (fun i => if i = 0 then ⟨0, 0, 0⟩ else if i % 2 = 0 then ⟨1, 0, 0⟩ else ⟨1 / 2, Real.sqrt 3 / 2, 0⟩)

/-- `tsmcmc_folded_triangle` (294-348), without the check of the polygon: lengths of edges and diagonals; the dihedral angles are not
used. -/
noncomputable def folded (T : Triangulation) : Res (List ℝ × List ℝ) := do
  let vt := foldedVerts T.edges.length
  let el ← computeLengths vt T.edges
  let dl ← computeLengths vt T.diags
  .ok (el, dl)

/-- A step of the confined chain (`tsmcmc_confined_dihedral_diagonal_step`, 997-1022): the steps in the polytope made, none if the dihedral
angles are drawn again. Then lengths are checked (1322-1323). -/
noncomputable def chainStep (T : Triangulation) (R : ℝ) (el : List ℝ) (moves : List (List ℝ × ℝ)) (dl : List ℝ) : Res (List ℝ) := do
  let dl ← moves.foldlM (fun dl m => confinedStep T R el dl m.1 m.2) dl
  assertC (edgesUnit el)
  let ok ← confinedDiagonalsOk T R el dl
  assertC ok
  .ok dl

/-- The lengths of the chain in `tsmcmc_confined_equilateral_expectation` (1293-1376) after the steps given: start (350-363) and steps. -/
noncomputable def confinedChain (Q : QSort) (n : Nat) (R : ℝ) (first : List ℝ × ℝ) (steps : List (List (List ℝ × ℝ))) : Res (Triangulation × List ℝ × List ℝ) := do
  let T ← fanT Q n
  assertC (decide (R > 1))
  let (el, dl) ← folded T
  let dl ← confinedStep T R el dl first.1 first.2
  let dl ← steps.foldlM (fun dl s => chainStep T R el s dl) dl
  .ok (T, el, dl)

end Plc.Embed
