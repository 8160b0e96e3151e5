import Verif.Props.Isos
import Verif.Spec.PlaneDiagram

/-! # When two diagrams have the same shadow

Over and under information and directions of edges are not compared. -/

namespace Plc

open Plc.Cmp

/-- Edge `e` of the first diagram corresponds to edge `τ e` of the second, crossing `c` to crossing `σ c`,
and around each crossing the edges come in the same order, or, for the negative orientation, around each
crossing in the opposite order. -/
structure SameShadow (A B : List Cross) (m : Nat) (τ σ : Nat → Nat) (o : Or) : Prop where
  len : B.length = A.length
  tlt : ∀ e, e < m → τ e < m
  tinj : ∀ e f, e < m → f < m → τ e = τ f → e = f
  slt : ∀ c, c < A.length → σ c < A.length
  sinj : ∀ c d, c < A.length → d < A.length → σ c = σ d → c = d
  carried : ∀ (c : Nat) (x : Cross), A[c]? = some x → ∃ z, B[σ c]? = some z ∧ CarriedTo τ o x z

/-- The second list of edges is the first one with the edges renamed, up to where one starts reading; for
the negative orientation it is read backwards. -/
def ListCarried (τ : Nat → Nat) (o : Or) (l l' : List Nat) : Prop :=
  l' ~r (if o = .neg then (l.map τ).reverse else l.map τ)

/-- The same for the faces of two diagrams. -/
structure SameFaces (F G : List Face) (m : Nat) (τ φ : Nat → Nat) (o : Or) : Prop where
  len : G.length = F.length
  tlt : ∀ e, e < m → τ e < m
  tinj : ∀ e f, e < m → f < m → τ e = τ f → e = f
  plt : ∀ i, i < F.length → φ i < F.length
  pinj : ∀ i j, i < F.length → j < F.length → φ i = φ j → i = j
  carried : ∀ (i : Nat) (f : Face), F[i]? = some f → ∃ g, G[φ i]? = some g ∧ ListCarried τ o f.edge g.edge

end Plc
