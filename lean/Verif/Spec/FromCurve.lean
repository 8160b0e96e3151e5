import Verif.Model.FromCurve
import Verif.Spec.PlaneDiagram
import Verif.Model.Strands

/-! # The diagram which a list of crossings describes

A list of crossings tells for every crossing the components and the parameters of the upper and of the lower strand, and its sign. A
strand is a pair of the number of a crossing and `true` for the upper strand. -/

namespace Plc

open Plc.Core Plc.Cmp Plc.FromCurve

variable {K : Type} [LinearOrder K]

/-- The component of a strand. -/
def StrandOn (cc : List (Crossing K)) (a : Nat × Bool) (c : Nat) (s : K) : Prop :=
  ∃ x : Crossing K, cc[a.1]? = some x ∧ (if a.2 then x.upperCmp = c ∧ x.upperS = s else x.lowerCmp = c ∧ x.lowerS = s)

/-- Going along a component, strand `b` is the next one after `a`: it has the next larger parameter, or `a` has the largest one and
`b` the smallest one on the component. -/
def NextStrand (cc : List (Crossing K)) (a b : Nat × Bool) : Prop :=
  ∃ c s t, StrandOn cc a c s ∧ StrandOn cc b c t ∧
    ((s < t ∧ ∀ d u, StrandOn cc d c u → ¬ (s < u ∧ u < t)) ∨ ∀ d u, StrandOn cc d c u → t ≤ u ∧ u ≤ s)

/-- No two strands of a component are at the same parameter or too near to each other, and components are numbered from 0 to
`nc - 1`, each of them having a crossing. -/
structure Spread (near : K → K → Bool) (nc : Nat) (cc : List (Crossing K)) : Prop where
  apart : ∀ a b c s t, StrandOn cc a c s → StrandOn cc b c t → a ≠ b → near s t = false
  range : ∀ a c s, StrandOn cc a c s → c < nc
  every : ∀ c, c < nc → ∃ a s, StrandOn cc a c s

/-- The records show the crossings: `inn a` is the edge which ends at strand `a`, and it begins at the strand before. At a crossing
the lower strand goes from place 0 to place 2, the upper one from 3 to 1 if the crossing is positive and from 1 to 3 if it is
not. -/
structure Draws (cc : List (Crossing K)) (inn : Nat × Bool → Nat) (cross : List Cross) (edge : List Edge) : Prop where
  len : cross.length = cc.length
  elen : edge.length = 2 * cc.length
  inn_lt : ∀ a c s, StrandOn cc a c s → inn a < edge.length
  inn_inj : ∀ a b c d s t, StrandOn cc a c s → StrandOn cc b d t → inn a = inn b → a = b
  sign : ∀ (i : Nat) (x : Crossing K), cc[i]? = some x → ∃ y : Cross, cross[i]? = some y ∧ y.sign = if 0 < x.sign then .pos else .neg
  edges : ∀ (a b : Nat × Bool) (x y : Crossing K), NextStrand cc a b → cc[a.1]? = some x → cc[b.1]? = some y →
    edge[inn b]? = some ⟨b.1, if b.2 then (if 0 < y.sign then 3 else 1) else 0, a.1, if a.2 then (if 0 < x.sign then 1 else 3) else 2⟩
  slots : ∀ (a b : Nat × Bool) (x y : Crossing K), NextStrand cc a b → cc[a.1]? = some x → cc[b.1]? = some y →
    slot cross b.1 (if b.2 then (if 0 < y.sign then 3 else 1) else 0) = some (inn b) ∧
    slot cross a.1 (if a.2 then (if 0 < x.sign then 1 else 3) else 2) = some (inn b)

/-- The diagram shows the crossings, whatever the numbers of its crossings and edges are and wherever the records of crossings begin:
crossing `i` of the list is crossing `σ i` of the diagram, the strands which `pd_overstrand` and `pd_understrand` find there are the
upper and the lower strand of the list, they are joined in the order of the parameters, and the components are those of the list. -/
structure Shows (nc : Nat) (cc : List (Crossing K)) (pd : Io.Pd) (σ : Nat → Nat) (inn out : Nat × Bool → Nat) : Prop where
  len : pd.cross.length = cc.length
  elen : pd.edge.length = 2 * cc.length
  slt : ∀ i, i < cc.length → σ i < cc.length
  sinj : ∀ i j, i < cc.length → j < cc.length → σ i = σ j → i = j
  sign : ∀ (i : Nat) (x : Crossing K), cc[i]? = some x → ∃ y : Cross, pd.cross[σ i]? = some y ∧ y.sign = if 0 < x.sign then .pos else .neg
  over : ∀ i, i < cc.length → Strands.overstrand pd.cross pd.edge (σ i) = .ok (inn (i, true), out (i, true))
  under : ∀ i, i < cc.length → Strands.understrand pd.cross pd.edge (σ i) = .ok (inn (i, false), out (i, false))
  next : ∀ a b, NextStrand cc a b → out a = inn b
  inn_lt : ∀ a c s, StrandOn cc a c s → inn a < pd.edge.length
  inn_inj : ∀ a b c d s t, StrandOn cc a c s → StrandOn cc b d t → inn a = inn b → a = b
  count : pd.comp.length = nc
  comps : ∀ c, c < nc → ∃ k ∈ pd.comp, ∀ a d s, StrandOn cc a d s → (inn a ∈ k.edge ↔ d = c)

end Plc
