import Verif.Spec.PlaneDiagram
import Verif.Props.Planar

/-! # Showing that concrete diagrams are plane -/

namespace Plc

open Plc.Planar Plc.Faces Plc.Cmp Plc.Core

variable {cross : List Cross} {edge : List Edge}

theorem planeFaces_of (hC : Consistent cross edge) (m : Nat) (hm0 : 0 < m)
    (hm : ∀ d ∈ D edge, (nd cross edge)^[m] d = d) (reps : List Dart) (hl : reps.length = cross.length + 2)
    (hD : ∀ x ∈ reps, x ∈ D edge)
    (hA : ∀ x ∈ reps, x ∈ allSides edge.length)
    (hp : reps.Pairwise (fun x y => y ∉ (List.range m).map (fun i => (nd cross edge)^[i] x)))
    (hc : ∀ s ∈ allSides edge.length, ∃ r ∈ reps, s ∈ (List.range m).map (fun i => (nd cross edge)^[i] r)) :
    PlaneFaces cross edge := by
  have this : ∀ x ∈ reps, ∀ y, Relation.ReflTransGen (Turns edge) x y ↔
      y ∈ (List.range m).map (fun i => (nd cross edge)^[i] x) := by
    intro x hx y
    exact reach_range hC (hD x hx) hm0 (hm x (hD x hx))
  refine ⟨reps, hl, hA, ?_, ?_⟩
  · refine List.Pairwise.imp_of_mem ?_ hp
    intro x y hx _ h
    rwa [this x hx]
  · intro s hs
    obtain ⟨r, h1, h2⟩ := hc s hs
    exact ⟨r, h1, (this r h1 s).mpr h2⟩

theorem connected_by (f : Nat → Nat) (h : ∀ c < cross.length, c = 0 ∨ ∃ r ∈ edge,
    (r.head = c ∧ f r.tail < f c ∧ r.tail < cross.length) ∨ (r.tail = c ∧ f r.head < f c ∧ r.head < cross.length)) :
    Connected cross edge := by
  have hsym : ∀ c d, Joined edge c d → Joined edge d c := by
    rintro c d ⟨r, hr, h⟩
    exact ⟨r, hr, h.symm⟩
  have h0 : ∀ n c, f c < n → c < cross.length → Relation.ReflTransGen (Joined edge) c 0 := by
    intro n
    induction n with
    | zero =>
      intro c hc _
      omega
    | succ n ih =>
      intro c hc hl
      rcases h c hl with rfl | ⟨r, hr, ⟨h1, h2, h3⟩ | ⟨h1, h2, h3⟩⟩
      · exact .refl
      · exact .head ⟨r, hr, Or.inl ⟨h1, rfl⟩⟩ (ih r.tail (by omega) h3)
      · exact .head ⟨r, hr, Or.inr ⟨rfl, h1⟩⟩ (ih r.head (by omega) h3)
  intro c d hc hd
  refine (h0 (f c + 1) c (Nat.lt_succ_self _) hc).trans ?_
  have h1 := h0 (f d + 1) d (Nat.lt_succ_self _) hd
  generalize 0 = z at h1
  induction h1 with
  | refl => exact .refl
  | tail _ h2 ih => exact .head (hsym _ _ h2) ih

theorem connected_of (h : ∀ c < cross.length, c = 0 ∨ ∃ r ∈ edge, (r.head = c ∧ r.tail < c) ∨ (r.tail = c ∧ r.head < c)) :
    Connected cross edge := by
  refine connected_by id (fun c hc => (h c hc).imp id ?_)
  rintro ⟨r, hr, ⟨h1, h2⟩ | ⟨h1, h2⟩⟩
  · exact ⟨r, hr, Or.inl ⟨h1, h2, by omega⟩⟩
  · exact ⟨r, hr, Or.inr ⟨h1, h2, by omega⟩⟩

end Plc
