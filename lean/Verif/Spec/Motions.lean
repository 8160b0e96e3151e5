import Verif.Model.Motions
import Verif.Spec.Equilateral

/-! # Moving curves: what is expected -/

namespace Plc

open Plc.FindCrossings Plc.Motions Plc.Cst

/-- Vertex `j` of component `i`. -/
def vertexOf (L : Curve) (i j : Nat) : Option V3 :=
  match L.cp[i]? with
  | some c => c.vt[j]?
  | none => none

/-- A scalar product. -/
noncomputable def dotOf (a b : V3) : ℝ := a.x * b.x + a.y * b.y + a.z * b.z

/-- The part of `p` perpendicular to the unit vector `u`. -/
noncomputable def perp (u p : V3) : V3 := ⟨p.x - dotOf p u * u.x, p.y - dotOf p u * u.y, p.z - dotOf p u * u.z⟩

/-- The distance of `p` from the line through the origin along the unit vector `u`. -/
noncomputable def offAxis (u p : V3) : ℝ := apart (perp u p) ⟨0, 0, 0⟩

/-- `p'` is `p` turned by the angle `t` around the unit vector `u`: the part along `u` is the same, and the parts across it have the same
length and make the angle `t`, counterclockwise seen from the tip of `u`. -/
structure Turned (u : V3) (t : ℝ) (p p' : V3) : Prop where
  along : dotOf p' u = dotOf p u
  size : dotOf (perp u p') (perp u p') = dotOf (perp u p) (perp u p)
  cosine : dotOf (perp u p) (perp u p') = dotOf (perp u p) (perp u p) * Real.cos t
  sine : dotOf u (crossOf (perp u p) (perp u p')) = dotOf (perp u p) (perp u p) * Real.sin t

/-- The edges of a component: from every vertex to the next one, and, if it is closed, from the last to the first. -/
def IsEdge (c : Comp) (i j : Nat) : Prop :=
  i < c.vt.length ∧ ((j = i + 1 ∧ j < c.vt.length) ∨ (c.isOpen = false ∧ i + 1 = c.vt.length ∧ j = 0))

/-- A component with so few vertices is not closed. -/
def Proper (c : Comp) : Prop := c.isOpen = false → 3 ≤ c.vt.length

/-- The point is where the constraint wants it: at a given point, on the line through a point with a direction, on the plane with a
normal vector and a scalar product. -/
def Allowed (c : Cst (V3 × V3)) (p : V3) : Prop :=
  match c.kind with
  | .unconstrained => True
  | .fixed => p = c.vect.1
  | .line => ∃ s : ℝ, p.x = c.vect.2.x + s * c.vect.1.x ∧ p.y = c.vect.2.y + s * c.vect.1.y ∧ p.z = c.vect.2.z + s * c.vect.1.z
  | .plane => dotOf c.vect.1 p = c.vect.2.x

/-- All constraints of the curve are met. -/
def Obeys (L : Curve) : Prop :=
  ∀ c ∈ L.cst, ∀ (j : Nat) (p : V3), c.vert ≤ (j : Int) → (j : Int) < c.vert + c.num → vertexOf L c.cmp j = some p → Allowed c p

/-- The constraints are about vertices which exist, and a fixed vertex is one vertex (as `plc_set_constraint` demands). -/
def InRange (L : Curve) : Prop :=
  ∀ c ∈ L.cst, 0 ≤ c.vert ∧ 1 ≤ c.num ∧ (∃ s, L.cp[c.cmp]? = some s ∧ c.vert + c.num ≤ (s.vt.length : Int)) ∧ (c.kind = .fixed → c.num = 1)

/-- The directions of lines and normals of planes are not (nearly) zero. -/
def Definite (L : Curve) : Prop :=
  ∀ c ∈ L.cst, c.kind ≠ .unconstrained ∧ (c.kind = .line ∨ c.kind = .plane → dotOf c.vect.1 c.vect.1 > 1 / 2 ^ 52)

end Plc
