import Verif.Spec.Diagram
import Verif.Model.Core
import Mathlib.Logic.Relation

/-! # Connected pieces of a diagram -/

namespace Plc

/-- The record of an edge without crossings: a circle by itself. -/
def freeEdge : Edge := ⟨UNSET_IDX, Core.UNSET_POS, UNSET_IDX, Core.UNSET_POS⟩

/-- Edge records agree with crossing records, where some edges may be circles by themselves. -/
structure Loose (cross : List Cross) (edge : List Edge) : Prop where
  ends : ∀ (e : Nat) (r : Edge), edge[e]? = some r → r ≠ freeEdge →
    slot cross r.head r.headpos = some e ∧ slot cross r.tail r.tailpos = some e ∧
    (r.head, r.headpos) ≠ (r.tail, r.tailpos)
  slots : ∀ (c k e : Nat), slot cross c k = some e → ∃ r, edge[e]? = some r ∧
    ((r.head = c ∧ r.headpos = k) ∨ (r.tail = c ∧ r.tailpos = k))

/-- The two edges meet at some crossing. -/
def Touch (cross : List Cross) (e f : Nat) : Prop :=
  ∃ c p q, slot cross c p = some e ∧ slot cross c q = some f

/-- One can get from one edge to the other through crossings. -/
def Linked (cross : List Cross) : Nat → Nat → Prop := Relation.ReflTransGen (Touch cross)

end Plc
