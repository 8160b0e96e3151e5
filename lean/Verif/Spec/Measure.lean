import Verif.Spec.Length
import Verif.Spec.Motions

/-! # Measuring curves: what is expected -/

namespace Plc

open Plc.FindCrossings Plc.Motions

/-- The lengths of the edges of an open polygon. -/
noncomputable def gaps : List V3 → List ℝ
  | a :: b :: l => apart a b :: gaps (b :: l)
  | _ => []

/-- The vertices of a component one after the other, back to the first one if it is closed. -/
def tour (c : Comp) : List V3 := if c.isOpen then c.vt else c.vt ++ c.vt.take 1

/-- The length of a component. -/
noncomputable def lengthOf (c : Comp) : ℝ := if c.isOpen then openLength c.vt else closedLength c.vt

/-- The lengths of all edges of a curve. -/
noncomputable def edgeLengths (L : Curve) : List ℝ := L.cp.flatMap fun c => gaps (tour c)

/-- The point is a vertex of the curve. -/
def IsVertex (L : Curve) (p : V3) : Prop := ∃ i j, vertexOf L i j = some p

/-- The vertices of a curve with their multiplicities. -/
def verticesOf (L : Curve) : List V3 := L.cp.flatMap fun c => c.vt

/-- `p`, `q`, `r` are the vertices before, at and after place `v`: inside of an open component, around a closed one. -/
def Neighbours (c : Comp) (v : Int) (p q r : V3) : Prop :=
  if c.isOpen then ∃ j : Nat, v = (j : Int) + 1 ∧ c.vt[j]? = some p ∧ c.vt[j + 1]? = some q ∧ c.vt[j + 2]? = some r
  else c.vt[((v - 1) % (c.vt.length : Int)).toNat]? = some p ∧ c.vt[(v % (c.vt.length : Int)).toNat]? = some q ∧
    c.vt[((v + 1) % (c.vt.length : Int)).toNat]? = some r

/-- `t` is the angle of the vectors `a` and `b`, which are not zero. -/
structure IsAngle (a b : V3) (t : ℝ) : Prop where
  nonneg : 0 ≤ t
  le_pi : t ≤ Real.pi
  cosine : dotOf a b = apart a ⟨0, 0, 0⟩ * apart b ⟨0, 0, 0⟩ * Real.cos t

end Plc
