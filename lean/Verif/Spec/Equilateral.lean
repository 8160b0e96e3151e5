import Verif.Spec.Length

/-! # Equilateral polygons -/

namespace Plc

open Plc.FindCrossings

/-- The square of the distance. -/
noncomputable def distSq (a b : V3) : ℝ := (a.x - b.x) ^ 2 + (a.y - b.y) ^ 2 + (a.z - b.z) ^ 2

/-- The distance. -/
noncomputable def apart (a b : V3) : ℝ := Real.sqrt (distSq a b)

/-- All edges of a closed polygon, the one back to the first vertex included, have length `r`. -/
def ClosedEdges (r : ℝ) (vs : List V3) : Prop :=
  ∀ (i : Nat) (a b : V3), vs[i]? = some a → vs[(i + 1) % vs.length]? = some b → apart a b = r

/-- All edges of an open polygon have length `r`. -/
def OpenEdges (r : ℝ) (vs : List V3) : Prop :=
  ∀ (i : Nat) (a b : V3), vs[i]? = some a → vs[i + 1]? = some b → apart a b = r

/-- The vector product. -/
noncomputable def crossOf (a b : V3) : V3 := ⟨a.y * b.z - a.z * b.y, a.z * b.x - a.x * b.z, a.x * b.y - a.y * b.x⟩

/-- The angle from the triangle 0pq to the triangle 0qr around their common side is `t`, said by sine and cosine: the normals of the two
triangles have this angle, and it is measured clockwise looking along q. -/
def DihedralAngle (p q r : V3) (t : ℝ) : Prop :=
  let m := crossOf p q
  let k := crossOf q r
  let c := apart m ⟨0, 0, 0⟩ * apart k ⟨0, 0, 0⟩
  m.x * k.x + m.y * k.y + m.z * k.z = c * Real.cos t ∧
    ∃ s : ℝ, s * apart q ⟨0, 0, 0⟩ = -(c * Real.sin t) ∧ crossOf m k = ⟨s * q.x, s * q.y, s * q.z⟩

/-- Lengths of the diagonals from the first vertex which make triangles with sides of length 1. -/
def Diagonals (d : List ℝ) : Prop :=
  (∀ x ∈ d, 1e-12 ≤ x) ∧ ∀ (i : Nat) (a b : ℝ), d[i]? = some a → d[i + 1]? = some b → |a - b| ≤ 1 ∧ 1 ≤ a + b

end Plc
