import Verif.Model.Polytope
import Verif.Spec.Embed

/-! # Steps in the moment polytope: what is expected -/

namespace Plc.Embed

open Plc.Tri

/-- The three ways to take two sides of a triangle, and the third one. -/
def sides (t : Triangle) : List (CRef × CRef × CRef) := [(t.parent, t.d0, t.d1), (t.d0, t.d1, t.parent), (t.d1, t.parent, t.d0)]

/-- By how much two sides are longer than the third one. -/
noncomputable def slack (el dl : List ℝ) (s : CRef × CRef × CRef) : ℝ := lengthOf el dl s.1 + lengthOf el dl s.2.1 - lengthOf el dl s.2.2

/-- How fast a chord gets longer in direction `dv`. -/
def rateOf (dv : List ℝ) (c : CRef) : ℝ := if c.diag then (dv[c.num]?).getD 0 else 0

/-- How fast the slack grows. -/
def rate (dv : List ℝ) (s : CRef × CRef × CRef) : ℝ := rateOf dv s.1 + rateOf dv s.2.1 - rateOf dv s.2.2

/-- No slack changes by less than 10⁻⁸ without being constant. -/
def Regular (T : Triangulation) (dv : List ℝ) : Prop :=
  dv.length = T.diags.length ∧ ∀ t ∈ T.triangles, ∀ s ∈ sides t, rate dv s = 0 ∨ 1e-8 ≤ |rate dv s|

/-- No diagonal either. -/
def RegularC (T : Triangulation) (dv : List ℝ) : Prop := Regular T dv ∧ ∀ v ∈ dv, v = 0 ∨ 1e-8 < |v|

end Plc.Embed
