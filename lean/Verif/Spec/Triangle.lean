import Verif.Spec.Diagram

/-! # Moving a strand across a crossing (Reidemeister's third move) -/

namespace Plc

/-- The diagram `cross'`, `edge'` is `cross`, `edge` with the triangle whose sides are the edges `T` turned over. Each side is a piece of
a strand which meets two crossings, first the one at its tail and then the one at its head; afterwards the strand meets them in the
other order. So the edge which came to the first crossing now comes to the second one, at the place where the side came in; the side
runs from the second crossing to the first one, from the place where the strand went out to the place where it came in; and the edge
which left the second crossing now leaves the first one, from the place where the side left. At each crossing the strands come in and
go out at the same places as before, and the sign is the same. No other end of an edge is moved. -/
structure TriangleFlipped (cross : List Cross) (edge : List Edge) (T : List Nat) (cross' : List Cross) (edge' : List Edge) : Prop where
  len : cross'.length = cross.length
  elen : edge'.length = edge.length
  consistent : Consistent cross' edge'
  signs : ∀ (c : Nat) (x : Cross), cross[c]? = some x → ∃ x', cross'[c]? = some x' ∧ x'.sign = x.sign
  side : ∀ e ∈ T, ∀ r, edge[e]? = some r →
    edge'[e]? = some ⟨r.tail, (r.tailpos + 2) % 4, r.head, (r.headpos + 2) % 4⟩
  before : ∀ e ∈ T, ∀ r, edge[e]? = some r → ∀ (a : Nat) (s : Edge), edge[a]? = some s → s.head = r.tail →
    s.headpos = (r.tailpos + 2) % 4 → ∃ s', edge'[a]? = some s' ∧ s'.head = r.head ∧ s'.headpos = r.headpos
  after : ∀ e ∈ T, ∀ r, edge[e]? = some r → ∀ (b : Nat) (s : Edge), edge[b]? = some s → s.tail = r.head →
    s.tailpos = (r.headpos + 2) % 4 → ∃ s', edge'[b]? = some s' ∧ s'.tail = r.tail ∧ s'.tailpos = r.tailpos
  head_kept : ∀ (a : Nat) (s : Edge), edge[a]? = some s → a ∉ T →
    (∀ e ∈ T, ∀ r, edge[e]? = some r → ¬ (s.head = r.tail ∧ s.headpos = (r.tailpos + 2) % 4)) →
    ∃ s', edge'[a]? = some s' ∧ s'.head = s.head ∧ s'.headpos = s.headpos
  tail_kept : ∀ (b : Nat) (s : Edge), edge[b]? = some s → b ∉ T →
    (∀ e ∈ T, ∀ r, edge[e]? = some r → ¬ (s.tail = r.head ∧ s.tailpos = (r.headpos + 2) % 4)) →
    ∃ s', edge'[b]? = some s' ∧ s'.tail = s.tail ∧ s'.tailpos = s.tailpos

end Plc
