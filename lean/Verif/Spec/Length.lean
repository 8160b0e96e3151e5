import Verif.Model.RandomPolygon

/-! # Lengths of polygons -/

namespace Plc

open Plc.FindCrossings Plc.RandomPolygon

/-- The length of an open polygon with these vertices. -/
noncomputable def openLength : List V3 → ℝ
  | a :: b :: l => Real.sqrt ((a.x - b.x) ^ 2 + (a.y - b.y) ^ 2 + (a.z - b.z) ^ 2) + openLength (b :: l)
  | _ => 0

/-- The length of a closed polygon: it goes back to the first vertex. -/
noncomputable def closedLength : List V3 → ℝ
  | [] => 0
  | a :: l => openLength (a :: l ++ [a])

/-- Two complex vectors of the same length are linearly independent. -/
def Independent (A B : List ℂ) : Prop :=
  ∀ z w : ℂ, (∀ (i : Nat) (a b : ℂ), A[i]? = some a → B[i]? = some b → z * a + w * b = 0) → z = 0 ∧ w = 0

end Plc
