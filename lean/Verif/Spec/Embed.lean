import Verif.Model.Embed
import Verif.Spec.Motions

/-! # Triangulations, and polygons made from them: what is expected -/

namespace Plc.Embed

open Plc.FindCrossings Plc.Tri

/-- The ends of a chord. -/
def ends (T : Triangulation) (c : CRef) : Option Chord := if c.diag then T.diags[c.num]? else T.edges[c.num]?

/-- The chord `c` runs from `u` to `w`; on its far side there are the vertices `xs`, in order, and the chords `cs` (with `c` itself) of a
triangulation, whose triangle at `c` has the number `s`, if `c` is not an edge. -/
inductive Behind (T : Triangulation) : CRef → Option Nat → Nat → Nat → List Nat → List CRef → Prop
  | edge (k u w : Nat) : T.edges[k]? = some (u, w) → Behind T ⟨false, k⟩ none u w [] [⟨false, k⟩]
  | diag (k u v w s : Nat) (t : Triangle) (xs ys : List Nat) (cs ds : List CRef) : T.diags[k]? = some (u, w) → T.triangles[s]? = some t →
      t.parent = ⟨true, k⟩ → Behind T t.d0 t.t0 u v xs cs → Behind T t.d1 t.t1 v w ys ds →
      Behind T ⟨true, k⟩ (some s) u w (xs ++ v :: ys) (⟨true, k⟩ :: (cs ++ ds))

/-- A triangulation of the polygon with vertices 0, ..., n - 1, and edges from each vertex to the next one: triangle 0 is at an edge from
`a` to `b`, the other triangles are behind its other two sides; every vertex and every chord is there once. -/
structure Proper (T : Triangulation) : Prop where
  edges : ∀ i, i < T.edges.length → T.edges[i]? = some (i, (i + 1) % T.edges.length)
  count : T.triangles.length + 2 = T.edges.length
  tree : ∃ (t : Triangle) (a b c k : Nat) (xs ys : List Nat) (cs ds : List CRef), T.triangles[0]? = some t ∧ t.parent = ⟨false, k⟩ ∧
    T.edges[k]? = some (a, b) ∧ Behind T t.d0 t.t0 b c xs cs ∧ Behind T t.d1 t.t1 c a ys ds ∧
    (a :: b :: (xs ++ c :: ys)).Nodup ∧ (∀ i, i ∈ a :: b :: (xs ++ c :: ys) ↔ i < T.edges.length) ∧
    (⟨false, k⟩ :: (cs ++ ds)).Nodup ∧ ∀ (c : CRef) (p : Chord), ends T c = some p → c ∈ (⟨false, k⟩ :: (cs ++ ds) : List CRef)

/-- The length meant for a chord. -/
def lengthOf (el dl : List ℝ) (c : CRef) : ℝ := ((if c.diag then dl else el)[c.num]?).getD 0

/-- There is a length for every chord, and none is shorter than 10⁻⁸. -/
structure Sized (T : Triangulation) (el dl : List ℝ) : Prop where
  edges : el.length = T.edges.length
  diags : dl.length = T.diags.length
  long : ∀ x, x ∈ el ∨ x ∈ dl → 1e-8 ≤ x

/-- The triangle inequalities hold in the triangle. -/
def Closes (el dl : List ℝ) (t : Triangle) : Prop :=
  lengthOf el dl t.parent ≤ lengthOf el dl t.d0 + lengthOf el dl t.d1 ∧
    lengthOf el dl t.d0 ≤ lengthOf el dl t.d1 + lengthOf el dl t.parent ∧ lengthOf el dl t.d1 ≤ lengthOf el dl t.parent + lengthOf el dl t.d0

/-- Around the diagonal from `A` to `C`, the triangle with `D` has to be turned by `theta` to come to the side of the triangle with `B`:
the parts of `D - A` and `B - A` across the diagonal make this angle, counterclockwise seen from `C`. -/
structure FoldedBy (A B C D : V3) (theta : ℝ) : Prop where
  range : 0 ≤ theta ∧ theta < 2 * Real.pi
  cosine : ∀ e : V3, C.sub A = V3.scale (apart C A) e → dotOf (perp e (D.sub A)) (perp e (B.sub A)) =
    apart (perp e (D.sub A)) ⟨0, 0, 0⟩ * apart (perp e (B.sub A)) ⟨0, 0, 0⟩ * Real.cos theta
  sine : ∀ e : V3, C.sub A = V3.scale (apart C A) e → dotOf e (crossOf (perp e (D.sub A)) (perp e (B.sub A))) =
    apart (perp e (D.sub A)) ⟨0, 0, 0⟩ * apart (perp e (B.sub A)) ⟨0, 0, 0⟩ * Real.sin theta

/-- Four times the square of the area of a triangle, from the lengths of its sides. -/
noncomputable def area4 (A B C : ℝ) : ℝ := B ^ 2 * C ^ 2 - ((B ^ 2 + C ^ 2 - A ^ 2) / 2) ^ 2

end Plc.Embed
