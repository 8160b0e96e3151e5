import Verif.Model.Symmetry
import Verif.Spec.Nearest
import Mathlib.Algebra.BigOperators.Group.Finset.Basic

/-! # Symmetries of curves: what is expected -/

namespace Plc

open Plc.FindCrossings Plc.Motions Plc.Symmetry

/-- Vertex `l.2` of component `l.1`. -/
def vert (L : SCurve) (l : Loc) : Option V3 := L.cp[l.1]?.bind fun c => c.vt[l.2]?

/-- There is such a vertex. -/
def HasVert (L : SCurve) (l : Loc) : Prop := ∃ p, vert L l = some p

/-- The image of a point under a matrix. -/
noncomputable def image (A : Mat) (p : V3) : V3 :=
  ⟨A.r0.x * p.x + A.r0.y * p.y + A.r0.z * p.z, A.r1.x * p.x + A.r1.y * p.y + A.r1.z * p.z, A.r2.x * p.x + A.r2.y * p.y + A.r2.z * p.z⟩

/-- The matrix keeps distances. -/
def Rigid (A : Mat) : Prop := ∀ p q, apart (image A p) (image A q) = apart p q

/-- The vertex a symmetry sends vertex `l` to. -/
def sent (s : Sym) (l : Loc) : Option Loc := s.target[l.1]?.bind fun row => row[l.2]?

/-- The symmetries are there, one for each element of a group of `n` elements, and the group acts on space by their matrices and on the
vertices (those with `V`) by their targets; `inverse` is the inverse of the group. -/
structure Acts {K : Type} [Group K] {n : Nat} (V : Loc → Prop) (G : SymGroup) (e : Fin n ≃ K) (M : K → Mat) (t : K → Loc → Loc) : Prop where
  size : G.sym.length = n
  sym : ∀ i : Fin n, ∃ s, G.sym[(i : Nat)]? = some (some s) ∧ s.transform = M (e i) ∧ ∀ l, V l → sent s l = some (t (e i) l)
  inv : ∀ i : Fin n, G.inverse[(i : Nat)]? = some ((e.symm (e i)⁻¹ : Fin n) : Nat)
  stays : ∀ a l, V l → V (t a l)
  one : ∀ l, V l → t 1 l = l
  mul : ∀ a b l, V l → t (a * b) l = t a (t b l)
  oneM : ∀ p, image (M 1) p = p
  mulM : ∀ a b p, image (M (a * b)) p = image (M a) (image (M b) p)

/-- The average of finitely many points. -/
noncomputable def mean {K : Type} [Fintype K] (f : K → V3) : V3 :=
  ⟨(∑ a, (f a).x) / (Fintype.card K : ℝ), (∑ a, (f a).y) / (Fintype.card K : ℝ), (∑ a, (f a).z) / (Fintype.card K : ℝ)⟩

/-- The vertices (given by `f`) are as symmetric as they can be: every element of the group carries vertices to vertices. -/
def Symmetric {K : Type} (V : Loc → Prop) (M : K → Mat) (t : K → Loc → Loc) (f : Loc → V3) : Prop :=
  ∀ a l, V l → f (t a l) = image (M a) (f l)

/-- Nothing but the vertices differs: components, numbers of vertices, and the copies before the first and after the last vertex. -/
def SameFrame (L L' : SCurve) : Prop :=
  L'.addr = L.addr ∧ L'.cp.length = L.cp.length ∧ ∀ (i : Nat) (c c' : SComp), L.cp[i]? = some c → L'.cp[i]? = some c' →
    c'.addr = c.addr ∧ c'.isOpen = c.isOpen ∧ c'.vt.length = c.vt.length ∧ c'.before = c.before ∧ c'.after = c.after

/-- The curve is one whose nearest vertices can be looked for. -/
structure SearchableCurve (L : SCurve) : Prop where
  comps : L.cp ≠ []
  full : ∀ c ∈ L.cp, c.vt ≠ []
  fits : ∀ c ∈ L.cp, 5000 ≤ c.vt.length → Fits c.vt

/-- Vertex `m` is one of the nearest to the point `q`. -/
def NearestVert (L : SCurve) (q : V3) (m : Loc) : Prop :=
  ∃ v, vert L m = some v ∧ ∀ (m' : Loc) (w : V3), vert L m' = some w → apart q v ≤ apart q w

/-- `p'` is the mirror image of `p` in the plane through the origin with the unit normal vector `u`. -/
structure Mirrored (u p p' : V3) : Prop where
  across : dotOf p' u = -dotOf p u
  along : perp u p' = perp u p

end Plc
