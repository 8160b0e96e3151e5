import Verif.Spec.Lens
import Verif.Spec.Erased
import Verif.Proofs.Neat

/-! # What the removal of a bigon leaves -/

namespace Plc

open Plc.Core Plc.Cmp Plc.Comps Plc.BigonDel Plc.Ok Plc.Isotopy

/-- The edges with `lab` and those without meet nowhere but at the crossings `c0` and `c1`. -/
structure Apart (cross : List Cross) (edge : List Edge) (c0 c1 : Nat) (lab : Nat → Prop) : Prop where
  along : ∀ e e', Follows cross edge e e' → (lab e ↔ lab e')
  meet : ∀ (e x : Nat) (r q : Edge), edge[e]? = some r → edge[x]? = some q → r.head = q.head → r.head ≠ c0 → r.head ≠ c1 →
    (lab e ↔ lab x)

open Classical in
/-- The components whose edges have `lab`. -/
noncomputable def onSide (lab : Nat → Prop) (comps : List Comp) : List Comp :=
  comps.filter (fun c => decide (∀ e ∈ c.edge, lab e))

/-- What comes out for one of the two sides: the part of the diagram whose edges have `lab`, with the strand `a0`, `a1`, `a2` pulled
off the other part. If this strand closes up right away it is a circle that meets nothing, and there is nothing else on this
side. -/
def Piece (pd : Io.Pd) (lab : Nat → Prop) (a0 a1 a2 : Nat) (o : Out) : Prop :=
  (a0 = a2 ∧ (∀ e, e < pd.edge.length → (lab e ↔ (e = a0 ∨ e = a1))) ∧ ∃ c ∈ pd.comp, a0 ∈ c.edge ∧ o = .unknot c.tag) ∨
  (a0 ≠ a2 ∧ ∃ (caps : Io.Caps) (pd' : Io.Pd) (X G : List Nat) (τ σ ρ : Nat → Nat), o = .code caps pd' ∧ Neat pd' ∧
    (∀ q : QSort, pdOk q caps pd' = .ok true) ∧ caps.verts = pd'.cross.length ∧ caps.edges = pd'.edge.length ∧
    (∀ c, c ∈ X ↔ ∃ (e : Nat) (r : Edge), pd.edge[e]? = some r ∧ r.head = c ∧ ¬ lab e) ∧
    (∀ e, e ∈ G ↔ e < pd.edge.length ∧ (¬ lab e ∨ e = a1 ∨ e = a2)) ∧
    Erased pd.cross pd.edge X G [(a0, a2)] pd'.cross pd'.edge τ σ ρ ∧
    (pd'.comp.map (·.tag)).Perm ((onSide lab pd.comp).map (·.tag)) ∧
    ∀ c' ∈ pd'.comp, ∃ c ∈ pd.comp, c.tag = c'.tag ∧ ∀ f, f < pd'.edge.length → (f ∈ c'.edge ↔ τ f ∈ c.edge))

/-- The pairs of edges that become one when both strands are pulled off: either strand on its own, or, if one follows the other, the
first edge of the one and the last edge of the other. -/
def spliced (s : Site) : List (Nat × Nat) :=
  if s.b0 = s.a2 then [(s.a0, s.b2)] else if s.b2 = s.a0 then [(s.b0, s.a2)] else [(s.a0, s.a2), (s.b0, s.b2)]

/-- `pd'` in buffers of size `caps` is the diagram `pd` with both strands pulled off each other. -/
def Pulled (pd : Io.Pd) (s : Site) (caps : Io.Caps) (pd' : Io.Pd) : Prop :=
  ∃ τ σ ρ : Nat → Nat, Neat pd' ∧ (∀ q : QSort, pdOk q caps pd' = .ok true) ∧ caps.verts = pd'.cross.length ∧
    caps.edges = pd'.edge.length ∧ pd'.cross.length + 2 = pd.cross.length ∧ pd'.edge.length + 4 = pd.edge.length ∧
    pd'.face.length + 2 = pd.face.length ∧
    Erased pd.cross pd.edge [s.c0, s.c1] [s.a1, s.a2, s.b1, s.b2] (spliced s) pd'.cross pd'.edge τ σ ρ ∧
    (pd'.comp.map (·.tag)).Perm (pd.comp.map (·.tag)) ∧
    ∀ c' ∈ pd'.comp, ∃ c ∈ pd.comp, c.tag = c'.tag ∧ ∀ f, f < pd'.edge.length → (f ∈ c'.edge ↔ τ f ∈ c.edge)

end Plc
