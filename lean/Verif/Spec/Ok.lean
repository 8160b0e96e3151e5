import Verif.Spec.PlaneDiagram

/-! # Records a checker can vouch for -/

namespace Plc

open Plc.Cmp

/-- Edge `n` leaves the crossing where edge `e` arrives, opposite to it. -/
def HeadToTail (edge : List Edge) (e n : Nat) : Prop :=
  ∃ r s, edge[e]? = some r ∧ edge[n]? = some s ∧ s.tail = r.head ∧ s.tailpos % 4 = (r.headpos + 2) % 4

/-- Component records number the edges consecutively, and along each component edges follow each other. -/
structure CompRecords (edge : List Edge) (comps : List Comp) : Prop where
  all : comps.flatMap (·.edge) = List.range edge.length
  follow : ∀ k ∈ comps, ∀ (j e : Nat), k.edge[j]? = some e →
    ∃ n, k.edge[(j + 1) % k.edge.length]? = some n ∧ HeadToTail edge e n
  tags : (comps.map (·.tag)).Nodup
  letters : ∀ k ∈ comps, k.tag < 65 → ∀ k' ∈ comps, k.tag ≤ k'.tag

/-- The order of faces: longest first, then by edge numbers. -/
def FaceBefore (f g : Face) : Prop :=
  g.edge.length < f.edge.length ∨ (f.edge.length = g.edge.length ∧ ¬ g.edge < f.edge)

/-- Face records run along sides of edges, each begins with its smallest edge, and they are in order. -/
structure FaceRecords (edge : List Edge) (faces : List Face) : Prop where
  nonempty : ∀ f ∈ faces, f.edge ≠ []
  turn : ∀ f ∈ faces, ∀ (j e : Nat), f.edge[j]? = some e → ∃ (o : Or) (n : Nat) (o' : Or),
    f.orient[j]? = some o ∧ f.edge[(j + 1) % f.edge.length]? = some n ∧
    f.orient[(j + 1) % f.edge.length]? = some o' ∧ Turns edge (e, o) (n, o')
  first : ∀ f ∈ faces, ∃ e, f.edge[0]? = some e ∧ ∀ x ∈ f.edge, e ≤ x
  sorted : faces.Pairwise FaceBefore

end Plc
