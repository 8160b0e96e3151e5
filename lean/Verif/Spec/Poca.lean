import Verif.Spec.Measure

/-! # The closest points of two edges: what is expected -/

namespace Plc

open Plc.FindCrossings

/-- The point at `t` on the edge from `a` to `b`. -/
noncomputable def along (a b : V3) (t : ℝ) : V3 := ⟨a.x + t * (b.x - a.x), a.y + t * (b.y - a.y), a.z + t * (b.z - a.z)⟩

/-- The edges at `t` and `u` are `d` apart, and no two points of the two edges are closer than `d - e`. -/
structure ClosestUpTo (e : ℝ) (A0 A1 B0 B1 : V3) (t u d : ℝ) : Prop where
  t0 : 0 ≤ t
  t1 : t ≤ 1
  u0 : 0 ≤ u
  u1 : u ≤ 1
  dist : d = apart (along A0 A1 t) (along B0 B1 u)
  least : ∀ s v, 0 ≤ s → s ≤ 1 → 0 ≤ v → v ≤ 1 → d ≤ apart (along A0 A1 s) (along B0 B1 v) + e

/-- The area of the parallelogram of the two edges. -/
noncomputable def area (A0 A1 B0 B1 : V3) : ℝ := apart (crossOf (A1.sub A0) (B1.sub B0)) ⟨0, 0, 0⟩

end Plc
