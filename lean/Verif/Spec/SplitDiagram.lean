import Verif.Spec.Split
import Verif.Spec.BigonPiece

/-! # Diagrams in several pieces -/

namespace Plc

open Plc.Core Plc.Cmp Plc.BigonDel Plc.Ok

/-- There are two more faces than crossings on the part of the diagram whose edges have `lab`: `cs` are the crossings where such an
edge is, `reps` is a list of sides, one from each face. -/
def PlanePart (cross : List Cross) (edge : List Edge) (lab : Nat → Prop) : Prop :=
  ∃ (cs : List Nat) (reps : List (Nat × Or)), cs.Nodup ∧ (∀ c, c ∈ cs ↔ ∃ k e, slot cross c k = some e ∧ lab e) ∧
    reps.length = cs.length + 2 ∧ (∀ s ∈ reps, s ∈ allSides edge.length ∧ lab s.1) ∧
    reps.Pairwise (fun x y => ¬ Relation.ReflTransGen (Turns edge) x y) ∧
    ∀ s ∈ allSides edge.length, lab s.1 → ∃ r ∈ reps, Relation.ReflTransGen (Turns edge) r s

/-- The records of a diagram which may be in several pieces, each of them plane. Edges which meet no crossing are circles by
themselves. Edges and components may be in any order; nothing is asked of crossings being in order, of faces and of the hash. -/
structure Scattered (pd : Io.Pd) : Prop where
  loose : Loose pd.cross pd.edge
  through_head : ∀ (e : Nat) (r : Edge), pd.edge[e]? = some r → r ≠ freeEdge → ∃ (e' : Nat) (r' : Edge), pd.edge[e']? = some r' ∧
    r'.tail = r.head ∧ r'.tailpos = (r.headpos + 2) % 4
  through_tail : ∀ (e : Nat) (r : Edge), pd.edge[e]? = some r → r ≠ freeEdge → ∃ (e' : Nat) (r' : Edge), pd.edge[e']? = some r' ∧
    r'.head = r.tail ∧ r'.headpos = (r.tailpos + 2) % 4
  all : (pd.comp.flatMap (·.edge)).Perm (List.range pd.edge.length)
  nonempty : ∀ k ∈ pd.comp, k.edge ≠ []
  follow : ∀ k ∈ pd.comp, ∀ (j e : Nat), k.edge[j]? = some e → pd.edge[e]? ≠ some freeEdge →
    ∃ e', k.edge[(j + 1) % k.edge.length]? = some e' ∧ Follows pd.cross pd.edge e e'
  free : ∀ k ∈ pd.comp, ∀ e ∈ k.edge, pd.edge[e]? = some freeEdge → k.edge = [e]
  tags : (pd.comp.map (·.tag)).Nodup
  letters : ∀ k ∈ pd.comp, ∀ k' ∈ pd.comp, (∃ a ∈ k.edge, ∃ b ∈ k'.edge, Linked pd.cross a b) → k.tag < 65 → k.tag ≤ k'.tag
  plane : ∀ (e : Nat) (r : Edge), pd.edge[e]? = some r → r ≠ freeEdge → PlanePart pd.cross pd.edge (Linked pd.cross e)

/-- What comes out for the piece whose edges have `lab`: a circle with the tag it had, or a diagram with the crossings and the edges
of the piece, and the components with their tags. -/
def Part (pd : Io.Pd) (lab : Nat → Prop) (o : Out) : Prop :=
  (∃ k ∈ pd.comp, ∃ e, k.edge = [e] ∧ pd.edge[e]? = some freeEdge ∧ (∀ x, x < pd.edge.length → (lab x ↔ x = e)) ∧
    o = .unknot k.tag) ∨
  ∃ (caps : Io.Caps) (pd' : Io.Pd) (X G : List Nat) (τ σ ρ : Nat → Nat), o = .code caps pd' ∧ Neat pd' ∧
    (∀ q : QSort, pdOk q caps pd' = .ok true) ∧
    (∀ c, c ∈ X ↔ c < pd.cross.length ∧ ¬ ∃ k e, slot pd.cross c k = some e ∧ lab e) ∧
    (∀ e, e ∈ G ↔ e < pd.edge.length ∧ ¬ lab e) ∧
    Erased pd.cross pd.edge X G [] pd'.cross pd'.edge τ σ ρ ∧
    (pd'.comp.map (·.tag)).Perm ((onSide lab pd.comp).map (·.tag)) ∧
    ∀ c' ∈ pd'.comp, ∃ c ∈ pd.comp, c.tag = c'.tag ∧ ∀ f, f < pd'.edge.length → (f ∈ c'.edge ↔ τ f ∈ c.edge)

end Plc
