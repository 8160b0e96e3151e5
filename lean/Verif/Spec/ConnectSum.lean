import Verif.Spec.Diagram

/-! # Joining two diagrams along an edge of each -/

namespace Plc

/-- A crossing whose edge numbers are raised by `m`. -/
def shiftCross (m : Nat) (x : Cross) : Cross := ⟨x.e0 + m, x.e1 + m, x.e2 + m, x.e3 + m, x.sign⟩

/-- An edge record whose crossing numbers are raised by `n`. -/
def shiftEdge (n : Nat) (r : Edge) : Edge := ⟨r.head + n, r.headpos, r.tail + n, r.tailpos⟩

/-- Two diagrams next to each other: the numbers of the second come after those of the first. -/
def besideCross (crossA : List Cross) (m : Nat) (crossB : List Cross) : List Cross := crossA ++ crossB.map (shiftCross m)

def besideEdge (edgeA : List Edge) (n : Nat) (edgeB : List Edge) : List Edge := edgeA ++ edgeB.map (shiftEdge n)

/-- The edges `i` and `j` have exchanged their heads: edge `i` now ends where `j` ended and the other way round,
and everything else is as before. -/
structure HeadsSwapped (cross : List Cross) (edge : List Edge) (i j : Nat) (cross' : List Cross) (edge' : List Edge) : Prop where
  len : cross'.length = cross.length
  elen : edge'.length = edge.length
  slots : ∀ (c : Nat) (x : Cross), cross[c]? = some x → ∃ x', cross'[c]? = some x' ∧ x'.sign = x.sign ∧
    ∀ k, k < 4 → ∃ ri rj : Edge, edge[i]? = some ri ∧ edge[j]? = some rj ∧
      x'.at k = if (c, k) = (ri.head, ri.headpos) then j else if (c, k) = (rj.head, rj.headpos) then i else x.at k
  ends : ∀ (e : Nat) (r : Edge), edge[e]? = some r → ∃ h, edge[if e = i then j else if e = j then i else e]? = some h ∧
    edge'[e]? = some ⟨h.head, h.headpos, r.tail, r.tailpos⟩

end Plc
