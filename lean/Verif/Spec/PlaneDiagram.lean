import Verif.Proofs.Planar

/-! # Diagrams drawn in the plane -/

namespace Plc

open Plc.Cmp

/-- A connected link diagram in the plane with at least one crossing: crossings and edge records agree,
strands go straight through crossings in one direction, one can walk from every crossing to every
other, and there are two more faces than crossings. -/
structure PlaneDiagram (cross : List Cross) (edge : List Edge) : Prop where
  consistent : Consistent cross edge
  oriented : Oriented cross edge
  nonempty : cross ≠ []
  connected : Connected cross edge
  plane : PlaneFaces cross edge

/-- The component records list every edge once, in consecutive order, longest component first; along each
component edges follow each other, cyclically; tags are `A`, `B`, .... -/
structure GoodComps (cross : List Cross) (edge : List Edge) (comps : List Comp) : Prop where
  all : comps.flatMap (·.edge) = List.range edge.length
  longest : comps.Pairwise (fun a b => b.edge.length ≤ a.edge.length)
  nonempty : ∀ c ∈ comps, c.edge ≠ []
  follow : ∀ c ∈ comps, ∀ (j e : Nat), c.edge[j]? = some e →
    ∃ e', c.edge[(j + 1) % c.edge.length]? = some e' ∧ Follows cross edge e e'
  tags : comps.map (·.tag) = List.range' 65 comps.length

/-- The face records list every side of every edge once, two more records than crossings, longest first,
each starting with its smallest edge; along each face sides turn into each other, cyclically. -/
structure GoodFaces (cross : List Cross) (edge : List Edge) (faces : List Face) : Prop where
  count : faces.length = cross.length + 2
  all : (faces.flatMap sides).Perm (allSides edge.length)
  shape : ∀ f ∈ faces, f.edge.length = f.orient.length ∧ f.edge ≠ []
  turn : ∀ f ∈ faces, ∀ (j : Nat) (s : Nat × Or), (sides f)[j]? = some s →
    ∃ t, (sides f)[(j + 1) % f.edge.length]? = some t ∧ Turns edge s t
  longest : faces.Pairwise (fun a b => b.edge.length ≤ a.edge.length)
  first : ∀ f ∈ faces, ∃ e, f.edge[0]? = some e ∧ ∀ x ∈ f.edge, e ≤ x

/-- Crossings are in dictionary order. -/
def SortedCross (cross : List Cross) : Prop :=
  cross.Pairwise (fun a b => ¬ ([b.e0, b.e1, b.e2, b.e3] : List Nat) < [a.e0, a.e1, a.e2, a.e3])

end Plc
