import Verif.Spec.Diagram

/-! # The same diagram under other names -/

namespace Plc

/-- An edge record after its places have been renamed, and turned around if `b`. -/
def moveEdge (σ ρ : Nat → Nat) (b : Bool) (r : Edge) : Edge :=
  if b then ⟨σ r.tail, (r.tailpos + 4 - ρ r.tail) % 4, σ r.head, (r.headpos + 4 - ρ r.head) % 4⟩
  else ⟨σ r.head, (r.headpos + 4 - ρ r.head) % 4, σ r.tail, (r.tailpos + 4 - ρ r.tail) % 4⟩

/-- The second diagram is the first one after: edge `e` is called `τ e`, crossing `c` is called `σ c`,
crossing `c` is read starting from place `ρ c`, and the edges with `rev e` are turned around. Signs are
not compared. -/
structure Renamed (cross : List Cross) (edge : List Edge) (cross' : List Cross) (edge' : List Edge)
    (τ σ ρ : Nat → Nat) (rev : Nat → Bool) : Prop where
  len : cross'.length = cross.length
  elen : edge'.length = edge.length
  slt : ∀ c, c < cross.length → σ c < cross.length
  sinj : ∀ c d, c < cross.length → d < cross.length → σ c = σ d → c = d
  tlt : ∀ e, e < edge.length → τ e < edge.length
  tinj : ∀ e f, e < edge.length → f < edge.length → τ e = τ f → e = f
  rho : ∀ c, ρ c < 4
  cross : ∀ (c : Nat) (x : Cross), cross[c]? = some x →
    ∃ x', cross'[σ c]? = some x' ∧ ∀ k, x'.at k = τ (x.at (k + ρ c))
  edge : ∀ (e : Nat) (r : Edge), edge[e]? = some r → edge'[τ e]? = some (moveEdge σ ρ (rev e) r)

end Plc
