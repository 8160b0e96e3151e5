import Verif.Model.Minrad
import Verif.Spec.Measure

/-! # The minimal radius: what is expected -/

namespace Plc

open Plc.FindCrossings Plc.Motions

/-- The component turns at vertex `v` by an angle `t`, noticeably, and `m` is the radius belonging to the edge before (`s = v - 1`) or after
(`s = v + 1`) it: the length of the edge divided by 2 tan(t/2). This is the radius of the circle which touches both edges at the same
distance from the vertex, half of the edge. -/
def Bend (c : Comp) (v : Nat) (s : Int) (m : ℝ) : Prop :=
  ∃ (p q r : V3) (t : ℝ), v < c.vt.length ∧ Neighbours c v p q r ∧ IsAngle (q.sub p) (r.sub q) t ∧ 1e-12 ≤ apart p q * apart q r * Real.sin t ∧
    ((s = (v : Int) - 1 ∧ m = apart p q / (2 * Real.tan (t / 2))) ∨ (s = (v : Int) + 1 ∧ m = apart q r / (2 * Real.tan (t / 2))))

/-- The same for a curve. -/
def BendOf (L : Curve) (i v : Nat) (s : Int) (m : ℝ) : Prop := ∃ c, L.cp[i]? = some c ∧ Bend c v s m

end Plc
