import Verif.Spec.Diagram
import Verif.Model.Comps

/-! # Pulling strands off crossings -/

namespace Plc

/-- The edge where the new edge that begins with `g` ends: `W` pairs the first with the last edge of each strand that has been
pulled off. -/
def lastOf (W : List (Nat × Nat)) (g : Nat) : Nat :=
  match W.find? (fun p => p.1 == g) with
  | some p => p.2
  | none => g

/-- The first edge of the strand which ends with `e`. -/
def firstOf (W : List (Nat × Nat)) (e : Nat) : Nat :=
  match W.find? (fun p => p.2 == e) with
  | some p => p.1
  | none => e

/-- The diagram `cross'`, `edge'` is what is left of the diagram `cross`, `edge` when the crossings `X` are gone.

Edges in `G` are gone as well. Each pair of edges in `W` is one edge now: it begins where the first one begins and ends where the
second one ends. What is edge `f` in the second diagram is (or begins with) edge `τ f` of the first, crossing `d` is crossing `σ d`,
and place `k` at crossing `d` is place `k + ρ d`; signs are the same. Everything not in `X` and `G` is still there. -/
structure Erased (cross : List Cross) (edge : List Edge) (X G : List Nat) (W : List (Nat × Nat))
    (cross' : List Cross) (edge' : List Edge) (τ σ ρ : Nat → Nat) : Prop where
  slt : ∀ d, d < cross'.length → σ d < cross.length ∧ σ d ∉ X
  sinj : ∀ d d', d < cross'.length → d' < cross'.length → σ d = σ d' → d = d'
  sonto : ∀ c, c < cross.length → c ∉ X → ∃ d, d < cross'.length ∧ σ d = c
  tlt : ∀ f, f < edge'.length → τ f < edge.length ∧ τ f ∉ G
  tinj : ∀ f f', f < edge'.length → f' < edge'.length → τ f = τ f' → f = f'
  tonto : ∀ e, e < edge.length → e ∉ G → ∃ f, f < edge'.length ∧ τ f = e
  cross : ∀ (d : Nat) (x' : Cross), cross'[d]? = some x' → ∃ x, cross[σ d]? = some x ∧ x'.sign = x.sign ∧
    ∀ k, x'.at k < edge'.length ∧ τ (x'.at k) = firstOf W (x.at (k + ρ d))
  edge : ∀ (f : Nat) (r' : Edge), edge'[f]? = some r' →
    r'.head < cross'.length ∧ r'.headpos < 4 ∧ r'.tail < cross'.length ∧ r'.tailpos < 4 ∧
    ∃ r h, edge[τ f]? = some r ∧ edge[lastOf W (τ f)]? = some h ∧
      σ r'.tail = r.tail ∧ (r'.tailpos + ρ r'.tail) % 4 = r.tailpos ∧
      σ r'.head = h.head ∧ (r'.headpos + ρ r'.head) % 4 = h.headpos

end Plc
