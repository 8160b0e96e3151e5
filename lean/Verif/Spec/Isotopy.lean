import Verif.Spec.Iso

/-! # Isotopies of diagrams -/

namespace Plc

open Plc.Cmp

/-- Slot `k` of a crossing that is turned by `t` slots, or, for the negative orientation, seen from behind. -/
def slotTo (o : Or) (t k : Nat) : Nat := if o = .neg then (t + (4 - k)) % 4 else (t + k) % 4

/-- The second diagram is the first one with edges and crossings renamed, crossings turned, and perhaps the
whole diagram seen from behind: slots of crossings hold the same edges, every edge leaves and enters
crossings at the same slots, signs of crossings are the same, and so are the tags of components. -/
structure SameDiagram (A B : Io.Pd) (τ σ : Nat → Nat) (o : Or) (turn : Nat → Nat) : Prop where
  len : B.cross.length = A.cross.length
  tlt : ∀ e, e < A.edge.length → τ e < A.edge.length
  tinj : ∀ e f, e < A.edge.length → f < A.edge.length → τ e = τ f → e = f
  slt : ∀ c, c < A.cross.length → σ c < A.cross.length
  sinj : ∀ c d, c < A.cross.length → d < A.cross.length → σ c = σ d → c = d
  slots : ∀ (c : Nat) (x : Cross), A.cross[c]? = some x → ∃ z, B.cross[σ c]? = some z ∧ z.sign = x.sign ∧
    ∀ k, k < 4 → z.at (slotTo o (turn c) k) = τ (x.at k)
  ends : ∀ (e : Nat) (r : Edge), A.edge[e]? = some r → ∃ s, B.edge[τ e]? = some s ∧
    s.tail = σ r.tail ∧ s.tailpos = slotTo o (turn r.tail) r.tailpos ∧
    s.head = σ r.head ∧ s.headpos = slotTo o (turn r.head) r.headpos
  tags : ∀ k ∈ A.comp, ∃ b ∈ B.comp, b.tag = k.tag ∧ ∀ e ∈ k.edge, τ e ∈ b.edge

/-- What `pd_build_diagram_isotopies` looks for: every component is taken to the component with the same tag,
and, in the order of the edge lists, around it; signs are the same. -/
structure LooseIsotopy (A B : Io.Pd) (τ σ : Nat → Nat) (o : Or) : Prop where
  shadow : SameShadow A.cross B.cross A.edge.length τ σ o
  signs : ∀ (c : Nat) (x : Cross), A.cross[c]? = some x → ∃ z, B.cross[σ c]? = some z ∧ z.sign = x.sign
  comps : ∀ k ∈ A.comp, ∃ b ∈ B.comp, b.tag = k.tag ∧ ListCarried τ .pos k.edge b.edge

/-- The same, as lists of numbers. -/
structure IsotopyMaps (A B : Io.Pd) (κ τ : List Nat) (os : List Or) (σ : List Nat) (o : Or) (φ : List Nat) : Prop where
  maps : IsoMaps A B κ τ os σ o φ o
  kept : ∀ d ∈ os, d = .pos
  signs : ∀ (c : Nat) (x : Cross), A.cross[c]? = some x → ∃ i z, σ[c]? = some i ∧ B.cross[i]? = some z ∧ z.sign = x.sign
  tags : ∀ (c : Nat) (k : Comp), A.comp[c]? = some k → ∃ t b, κ[c]? = some t ∧ B.comp[t]? = some b ∧ b.tag = k.tag

end Plc
