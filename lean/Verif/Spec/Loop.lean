import Verif.Spec.Diagram

/-! # Removing a loop (Reidemeister I) -/

namespace Plc

/-- The diagram `cross'`, `edge'` is the diagram `cross`, `edge` without the loop at crossing `c`.

The strand enters `c` along `e0`, goes around the loop `e1` and leaves along `e2`; the two ends of the loop are
next to each other at `c`. Without the loop `e0` takes over the head of `e2`, and `e1`, `e2` and `c` are gone.
What is edge `f` in the second diagram is edge `τ f` in the first, crossing `d` is crossing `σ d`, and place `k`
at crossing `d` is place `k + ρ d`; signs are the same. -/
structure LoopRemoved (cross : List Cross) (edge : List Edge) (c e0 e1 e2 : Nat)
    (cross' : List Cross) (edge' : List Edge) (τ σ ρ : Nat → Nat) : Prop where
  len : cross.length = cross'.length + 1
  elen : edge.length = edge'.length + 2
  loop : ∃ r0 r1 r2, edge[e0]? = some r0 ∧ edge[e1]? = some r1 ∧ edge[e2]? = some r2 ∧
    r1.head = c ∧ r1.tail = c ∧ (r1.headpos = (r1.tailpos + 1) % 4 ∨ r1.tailpos = (r1.headpos + 1) % 4) ∧
    r0.head = c ∧ r0.headpos = (r1.tailpos + 2) % 4 ∧ r2.tail = c ∧ r2.tailpos = (r1.headpos + 2) % 4
  ne01 : e0 ≠ e1
  ne02 : e0 ≠ e2
  ne12 : e1 ≠ e2
  slt : ∀ d, d < cross'.length → σ d < cross.length ∧ σ d ≠ c
  sinj : ∀ d d', d < cross'.length → d' < cross'.length → σ d = σ d' → d = d'
  tlt : ∀ f, f < edge'.length → τ f < edge.length ∧ τ f ≠ e1 ∧ τ f ≠ e2
  tinj : ∀ f f', f < edge'.length → f' < edge'.length → τ f = τ f' → f = f'
  cross : ∀ (d : Nat) (x' : Cross), cross'[d]? = some x' → ∃ x, cross[σ d]? = some x ∧ x'.sign = x.sign ∧
    ∀ k, x'.at k < edge'.length ∧ τ (x'.at k) = if x.at (k + ρ d) = e2 then e0 else x.at (k + ρ d)
  edge : ∀ (f : Nat) (r' : Edge), edge'[f]? = some r' →
    r'.head < cross'.length ∧ r'.headpos < 4 ∧ r'.tail < cross'.length ∧ r'.tailpos < 4 ∧
    ∃ r h, edge[τ f]? = some r ∧ edge[if τ f = e0 then e2 else τ f]? = some h ∧
      σ r'.tail = r.tail ∧ (r'.tailpos + ρ r'.tail) % 4 = r.tailpos ∧
      σ r'.head = h.head ∧ (r'.headpos + ρ r'.head) % 4 = h.headpos

end Plc
