import Verif.Spec.Diagram

/-! # Pushing one edge across another (Reidemeister's second move) -/

namespace Plc

/-- The diagram `cross'`, `edge'` is `cross`, `edge` with the edges `e1` and `e2` pushed across each other. The two new crossings
`c`, `d` are the last ones; along `e1` one meets `c` first. Each of the two edges is now three in a row: `e1` keeps its number for
the middle part, before it comes the edge `edge.length` and after it the edge `edge.length + 1`, and likewise for `e2`. `o1` and `o2`
tell on which side the face lies in which this happens: the middle part of `e2` is on the other side of `e1`, that is on the right
of `e1` (the next place counterclockwise from where `e1` comes in) if `o1` is positive. If `o1 = o2` then `e1` and `e2` run in opposite
directions along the face, so `e2` meets `d` first. Nothing else is changed. -/
structure BigonAdded (cross : List Cross) (edge : List Edge) (e1 e2 : Nat) (o1 o2 : Or) (cross' : List Cross) (edge' : List Edge) :
    Prop where
  len : cross'.length = cross.length + 2
  elen : edge'.length = edge.length + 4
  consistent : Consistent cross' edge'
  signs : ∀ (c : Nat) (x : Cross), cross[c]? = some x → ∃ x', cross'[c]? = some x' ∧ x'.sign = x.sign
  fresh : ∀ (c : Nat) (x : Cross), cross.length ≤ c → cross'[c]? = some x → x.sign = .unset
  kept : ∀ (e : Nat) (r : Edge), edge[e]? = some r → e ≠ e1 → e ≠ e2 → edge'[e]? = some r
  pass : ∃ (r1 r2 : Edge) (k l s c d : Nat), c = cross.length ∧ d = cross.length + 1 ∧ s = (if o1 = .pos then 1 else 3) ∧
    edge[e1]? = some r1 ∧ edge[e2]? = some r2 ∧
    edge'[edge.length]? = some ⟨c, k, r1.tail, r1.tailpos⟩ ∧
    edge'[e1]? = some ⟨d, l, c, (k + 2) % 4⟩ ∧
    edge'[edge.length + 1]? = some ⟨r1.head, r1.headpos, d, (l + 2) % 4⟩ ∧
    (o1 = o2 → edge'[edge.length + 2]? = some ⟨d, (l + s + 2) % 4, r2.tail, r2.tailpos⟩ ∧
      edge'[e2]? = some ⟨c, (k + s) % 4, d, (l + s) % 4⟩ ∧
      edge'[edge.length + 3]? = some ⟨r2.head, r2.headpos, c, (k + s + 2) % 4⟩) ∧
    (o1 ≠ o2 → edge'[edge.length + 2]? = some ⟨c, (k + s + 2) % 4, r2.tail, r2.tailpos⟩ ∧
      edge'[e2]? = some ⟨d, (l + s) % 4, c, (k + s) % 4⟩ ∧
      edge'[edge.length + 3]? = some ⟨r2.head, r2.headpos, d, (l + s + 2) % 4⟩)

end Plc
