import Verif.Model.Polytope

/-! # Permutation of the edges (`src/plcToricSymplectic.c` 827-937)

`gsl_ran_shuffle` is any function which permutes lists. Allocation and printing are left out. -/

namespace Plc.Embed

open Plc.Core Plc.FindCrossings Plc.RandomPolygon Plc.Tri

/-- `edgelengths_match_equilateral_pattern` (837-845). -/
noncomputable def equilateralPattern (el : List ℝ) : Bool := el.all (fun x => !decide (|x - 1| > 1e-8))

/-- `edgelengths_match_ftc_pattern` (827-835). -/
noncomputable def ftcPattern (el : List ℝ) : Bool := (el.drop 1).all (fun x => !decide (|x - 1| > 1e-8))

/-- The edges of the polygon (866); vertex `n` is vertex 0. -/
noncomputable def edgeSet (n : Nat) (vt : List V3) : Res (List V3) :=
  (List.range n).mapM (fun i => do
    let p ← rd vt ((i + 1) % n)
    let q ← rd vt i
    .ok (p.sub q))

/-- The vertices from `v` on (907-908). -/
noncomputable def sumLoop (v : V3) : List V3 → List V3
  | [] => []
  | e :: es => v :: sumLoop (add e v) es

/-- The shuffled edges (881-895). -/
noncomputable def shuffled (sh : List V3 → List V3) (el : List ℝ) (es : List V3) : Res (List V3) :=
  if equilateralPattern el then .ok (sh es)
  else if ftcPattern el then .ok (es.take 1 ++ sh (es.drop 1))
  else .error .die

/-- `tsmcmc_edgepermute_step` (847-937): the new lengths of edges and diagonals, and the angles. There is no check for NULL. -/
noncomputable def permuteStep (T : Triangulation) (sh : List V3 → List V3) (el dl da : List ℝ) : Res (List ℝ × List ℝ × List ℝ) := do
  let L ← embed T el dl da
  match L with
  | none => .error .ub
  | some vt => do
    let es ← edgeSet T.edges.length vt
    let es ← shuffled sh el es
    let nv := sumLoop ⟨0, 0, 0⟩ es
    let dl' ← computeLengths nv T.diags
    let da' ← computeDihedrals T nv
    let el' ← computeLengths nv T.edges
    if (List.zipWith (fun x y => decide (|x - y| > 1e-8)) el' el).any id then .error .die
    else .ok (el', dl', da'.map (·.1))

end Plc.Embed
