import Verif.Spec.Shape
import Verif.Model.Io

/-! # Isomorphisms of diagrams, as lists of numbers -/

namespace Plc

open Plc.Cmp

/-- Component `c` goes to component `κ[c]`, edge `e` to edge `τ[e]`, with its direction kept or reversed as
`os[e]` says, crossing `c` to crossing `σ[c]` and face `f` to face `φ[f]`. Every component is followed around
its image, in one direction; the edges around each crossing come in the order of its image or, if `oc` is
negative, in the opposite order; and the same for faces and `of`. -/
structure IsoMaps (A B : Io.Pd) (κ τ : List Nat) (os : List Or) (σ : List Nat) (oc : Or) (φ : List Nat) (of : Or) :
    Prop where
  sameComps : B.comp.length = A.comp.length
  sameCross : B.cross.length = A.cross.length
  sameFaces : B.face.length = A.face.length
  comps : κ.Perm (List.range A.comp.length)
  edges : τ.Perm (List.range A.edge.length)
  ors : os.length = A.edge.length
  crosses : σ.Perm (List.range A.cross.length)
  faces : φ.Perm (List.range A.face.length)
  along : ∀ (c : Nat) k, A.comp[c]? = some k → ∃ t b dir, κ[c]? = some t ∧ B.comp[t]? = some b ∧ dir ≠ .unset ∧
    ListCarried (fun e => τ[e]!) dir k.edge b.edge ∧ ∀ e ∈ k.edge, os[e]? = some dir
  crossings : ∀ (c : Nat) x, A.cross[c]? = some x → ∃ i z, σ[c]? = some i ∧ B.cross[i]? = some z ∧
    CarriedTo (fun e => τ[e]!) oc x z
  around : ∀ (c : Nat) f, A.face[c]? = some f → ∃ i g, φ[c]? = some i ∧ B.face[i]? = some g ∧
    ListCarried (fun e => τ[e]!) of f.edge g.edge

end Plc
