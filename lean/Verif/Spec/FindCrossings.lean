import Verif.Model.FindCrossings

/-! # The crossings of a projection -/

namespace Plc

open Plc.FindCrossings Plc.FromCurve

/-- The point of the curve on edge `i` of component `c`, the fraction `t` of the way from vertex `i` to the next one. Components are
closed, so the vertex after the last one is the first one. -/
def PointAt (L : List Strand3) (c i : Nat) (t : ℝ) (p : V3) : Prop :=
  ∃ (s : Strand3) (a b : V3), L[c]? = some s ∧ s.2[i]? = some a ∧ s.2[(i + 1) % s.2.length]? = some b ∧
    p.x = (1 - t) * a.x + t * b.x ∧ p.y = (1 - t) * a.y + t * b.y ∧ p.z = (1 - t) * a.z + t * b.z

/-- Two edges which are different and have no vertex in common: edge `i` of component `c` and edge `j` of component `d`. -/
def ApartEdges (L : List Strand3) (c i d j : Nat) : Prop :=
  c ≠ d ∨ ∃ s : Strand3, L[c]? = some s ∧ i ≠ j ∧ (i + 1) % s.2.length ≠ j ∧ (j + 1) % s.2.length ≠ i

/-- The direction of an edge in the projection to the plane. -/
def Direction (L : List Strand3) (c i : Nat) (dx dy : ℝ) : Prop :=
  ∃ (s : Strand3) (a b : V3), L[c]? = some s ∧ s.2[i]? = some a ∧ s.2[(i + 1) % s.2.length]? = some b ∧ dx = b.x - a.x ∧ dy = b.y - a.y

/-- The two strands of a crossing are these, in this order or the other one. -/
def AtStrands (x : Crossing ℝ) (c : Nat) (s : ℝ) (d : Nat) (t : ℝ) : Prop :=
  (x.upperCmp = c ∧ x.upperS = s ∧ x.lowerCmp = d ∧ x.lowerS = t) ∨ (x.upperCmp = d ∧ x.upperS = t ∧ x.lowerCmp = c ∧ x.lowerS = s)

/-- The entry describes a crossing: the points at the two parameters are above each other, the one of the upper strand not lower than
the one of the lower strand, on edges which have no vertex in common, inside of both edges, and the sign is 1 if turning from the
upper to the lower strand goes to the left, and -1 otherwise. -/
structure RealCrossing (L : List Strand3) (x : Crossing ℝ) : Prop where
  places : ∃ (i j : Nat) (t u : ℝ) (p q : V3), x.upperS = i + t ∧ 0 < t ∧ t < 1 ∧ x.lowerS = j + u ∧ 0 < u ∧ u < 1 ∧
    PointAt L x.upperCmp i t p ∧ PointAt L x.lowerCmp j u q ∧ p.x = q.x ∧ p.y = q.y ∧ q.z ≤ p.z ∧ ApartEdges L x.upperCmp i x.lowerCmp j ∧
    ∃ dx dy ex ey, Direction L x.upperCmp i dx dy ∧ Direction L x.lowerCmp j ex ey ∧
      ((dx * ey - dy * ex > 0 ∧ x.sign = 1) ∨ (dx * ey - dy * ex < 0 ∧ x.sign = -1))

/-- In the projection no vertex is on the line through an edge it does not belong to, up to the tolerance of the program: twice the
area of the triangle of the three points is more than 1e-10. The vertices are those of edges without common vertices with the edge. -/
def GenericProjection (L : List Strand3) : Prop :=
  ∀ (c i d j : Nat) (s s' : Strand3) (a b v w : V3), L[c]? = some s → s.2[i]? = some a → s.2[(i + 1) % s.2.length]? = some b →
    L[d]? = some s' → s'.2[j]? = some v → s'.2[(j + 1) % s'.2.length]? = some w → ApartEdges L c i d j →
    1e-10 < |(b.x - a.x) * (v.y - a.y) - (b.y - a.y) * (v.x - a.x)| ∧ 1e-10 < |(b.x - a.x) * (w.y - a.y) - (b.y - a.y) * (w.x - a.x)|

end Plc
