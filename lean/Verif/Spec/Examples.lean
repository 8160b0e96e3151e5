import Verif.Spec.Diagram
import Verif.Proofs.Diagram

/-! Concrete diagrams used to show that hypotheses of theorems are met. -/

namespace Plc

theorem consistent_iff_fin (cross : List Cross) (edge : List Edge) :
    Consistent cross edge ↔ (edge.length = 2 * cross.length ∧
      ∀ e : Fin edge.length, slot cross edge[e].head edge[e].headpos = some e.val ∧
        slot cross edge[e].tail edge[e].tailpos = some e.val ∧
        (edge[e].head, edge[e].headpos) ≠ (edge[e].tail, edge[e].tailpos)) := by
  constructor
  · intro h
    refine ⟨h.count, fun e => ?_⟩
    have he : edge[e.val]? = some edge[e] := by simp
    exact ⟨h.head _ _ he, h.tail _ _ he, h.ends_ne _ _ he⟩
  · rintro ⟨h1, h2⟩
    have key : ∀ (e : Nat) (r : Edge), edge[e]? = some r → slot cross r.head r.headpos = some e ∧
        slot cross r.tail r.tailpos = some e ∧ (r.head, r.headpos) ≠ (r.tail, r.tailpos) := by
      intro e r hr
      obtain ⟨hlt, rfl⟩ := List.getElem?_eq_some_iff.mp hr
      exact h2 ⟨e, hlt⟩
    exact ⟨h1, fun e r hr => (key e r hr).1, fun e r hr => (key e r hr).2.1,
      fun e r hr => (key e r hr).2.2⟩

instance (cross : List Cross) (edge : List Edge) : Decidable (Consistent cross edge) :=
  decidable_of_iff _ (consistent_iff_fin cross edge).symm

theorem oriented_iff_fin (cross : List Cross) (edge : List Edge) :
    Oriented cross edge ↔ (
      ∀ e : Fin edge.length,
        (∃ e' : Fin edge.length, edge[e'].tail = edge[e].head ∧ edge[e'].tailpos = (edge[e].headpos + 2) % 4) ∧
        (∃ e' : Fin edge.length, edge[e'].head = edge[e].tail ∧ edge[e'].headpos = (edge[e].tailpos + 2) % 4)) := by
  constructor
  · intro h e
    have he : edge[e.val]? = some edge[e] := by simp
    constructor
    · obtain ⟨e', r', h1, h2, h3⟩ := h.through_head _ _ he
      obtain ⟨hlt, rfl⟩ := List.getElem?_eq_some_iff.mp h1
      exact ⟨⟨e', hlt⟩, h2, h3⟩
    · obtain ⟨e', r', h1, h2, h3⟩ := h.through_tail _ _ he
      obtain ⟨hlt, rfl⟩ := List.getElem?_eq_some_iff.mp h1
      exact ⟨⟨e', hlt⟩, h2, h3⟩
  · intro h
    constructor
    · intro e r hr
      obtain ⟨hlt, rfl⟩ := List.getElem?_eq_some_iff.mp hr
      obtain ⟨e', h2, h3⟩ := (h ⟨e, hlt⟩).1
      exact ⟨e', edge[e'], by simp, h2, h3⟩
    · intro e r hr
      obtain ⟨hlt, rfl⟩ := List.getElem?_eq_some_iff.mp hr
      obtain ⟨e', h2, h3⟩ := (h ⟨e, hlt⟩).2
      exact ⟨e', edge[e'], by simp, h2, h3⟩

instance (cross : List Cross) (edge : List Edge) : Decidable (Oriented cross edge) :=
  decidable_of_iff _ (oriented_iff_fin cross edge).symm

/-- The trefoil, all crossings of one sign: crossings (0,3,1,4), (2,5,3,0), (4,1,5,2). -/
def trefoilCross (s : Or) : List Cross := [⟨0, 3, 1, 4, s⟩, ⟨2, 5, 3, 0, s⟩, ⟨4, 1, 5, 2, s⟩]

def trefoilEdge : List Edge :=
  [⟨0, 0, 1, 3⟩, ⟨2, 1, 0, 2⟩, ⟨1, 0, 2, 3⟩, ⟨0, 1, 1, 2⟩, ⟨2, 0, 0, 3⟩, ⟨1, 1, 2, 2⟩]

example (s : Or) : Consistent (trefoilCross s) trefoilEdge := by cases s <;> decide
example (s : Or) : Oriented (trefoilCross s) trefoilEdge := by cases s <;> decide

/-- The Hopf link: components {0,1} and {2,3}. -/
def hopfCross (s : Or) : List Cross := [⟨3, 0, 2, 1, s⟩, ⟨1, 2, 0, 3, s⟩]

def hopfEdge : List Edge := [⟨0, 1, 1, 2⟩, ⟨1, 0, 0, 3⟩, ⟨1, 1, 0, 2⟩, ⟨0, 0, 1, 3⟩]

example (s : Or) : Consistent (hopfCross s) hopfEdge := by cases s <;> decide
example (s : Or) : Oriented (hopfCross s) hopfEdge := by cases s <;> decide

/-- The one-crossing unknot (a loop at each side): edges 0 and 1, both loops. -/
def loopCross (s : Or) : List Cross := [⟨0, 0, 1, 1, s⟩]

def loopEdge : List Edge := [⟨0, 1, 0, 0⟩, ⟨0, 2, 0, 3⟩]

example (s : Or) : Consistent (loopCross s) loopEdge := by cases s <;> decide
example (s : Or) : Oriented (loopCross s) loopEdge := by cases s <;> decide

end Plc
