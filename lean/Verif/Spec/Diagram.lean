import Verif.Model.Basic

/-!
# What it means for edge records to agree with crossing records

Independent of the checkers in the code: an edge record is right when the two places
it names really hold that edge number, and they are two different places.
-/

namespace Plc

/-- The edge number at position `k` of crossing `c`, if there is such a place. -/
def slot (cross : List Cross) (c k : Nat) : Option Nat :=
  if k < 4 then cross[c]?.map (fun cr => cr.at k) else none

/-- The edge records agree with the crossing records: an `n`-crossing diagram has `2n`
edges, and each edge's head and tail are two different places where its number is
written. -/
structure Consistent (cross : List Cross) (edge : List Edge) : Prop where
  count : edge.length = 2 * cross.length
  head : ∀ (e : Nat) (r : Edge), edge[e]? = some r → slot cross r.head r.headpos = some e
  tail : ∀ (e : Nat) (r : Edge), edge[e]? = some r → slot cross r.tail r.tailpos = some e
  ends_ne : ∀ (e : Nat) (r : Edge), edge[e]? = some r → (r.head, r.headpos) ≠ (r.tail, r.tailpos)

/-- Strands run straight through crossings, in one direction: opposite positions of a
crossing are entered by one edge and left by the other. -/
structure Oriented (cross : List Cross) (edge : List Edge) : Prop where
  through_head : ∀ (e : Nat) (r : Edge), edge[e]? = some r → ∃ (e' : Nat) (r' : Edge), edge[e']? = some r' ∧
    r'.tail = r.head ∧ r'.tailpos = (r.headpos + 2) % 4
  through_tail : ∀ (e : Nat) (r : Edge), edge[e]? = some r → ∃ (e' : Nat) (r' : Edge), edge[e']? = some r' ∧
    r'.head = r.tail ∧ r'.headpos = (r.tailpos + 2) % 4

end Plc
