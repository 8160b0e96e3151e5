import Verif.Proofs.Split
import Verif.Spec.Examples
import Batteries.Lean.Except
import Mathlib.Tactic.IntervalCases

/-! # C35: splitting a diagram separates exactly the connected pieces -/

namespace Plc.Split

open Plc.Core

/-- The search always ends with every edge labelled; labels agree exactly on edges which are connected through
crossings, and the labels used are exactly those below the number of pieces. Edges without crossings (circles
by themselves) may be present. -/
theorem C35_split_labels {cross : List Cross} {edge : List Edge} (h : Loose cross edge)
    (hsm : edge.length ≤ UNSET_IDX) :
    ∃ code n, labels cross edge = .ok (code, n) ∧ code.length = edge.length ∧
      (∀ (a b x y : Nat), code[a]? = some x → code[b]? = some y → (x = y ↔ Linked cross a b)) ∧
      ∀ k, k < n ↔ k ∈ code := by
  obtain ⟨code, n, h1, h2⟩ := labels_ok h hsm
  have hne : ∀ (a x : Nat), code[a]? = some x → code[a]? ≠ some UNSET_IDX := by
    intro a x hx
    exact h2.done a (by rw [← h2.len]; exact (List.getElem?_eq_some_iff.mp hx).1)
  refine ⟨code, n, h1, h2.len, ?_, ?_⟩
  · intro a b x y hx hy
    have ha : a < edge.length := by rw [← h2.len]; exact (List.getElem?_eq_some_iff.mp hx).1
    have hb : b < edge.length := by rw [← h2.len]; exact (List.getElem?_eq_some_iff.mp hy).1
    rw [← linked_iff h]
    constructor
    · rintro rfl
      exact h2.linked a b ha hb (hne a x hx) (by rw [hx, hy])
    · intro hr
      have key : code[b]? = code[a]? := by
        clear hy hb
        induction hr with
        | refl => rfl
        | tail _ hab ih =>
          rw [← ih]
          exact h2.closed _ _ hab (by rw [ih]; exact hne a x hx)
      rw [hx, hy] at key
      exact (Option.some.inj key).symm
  · intro k
    constructor
    · intro hk
      obtain ⟨a, ha⟩ := h2.used k hk
      exact List.mem_of_getElem? ha
    · intro hk
      obtain ⟨a, ha⟩ := List.mem_iff_getElem?.mp hk
      rcases h2.small a k ha with h3 | h3
      · rw [h3] at ha
        exact absurd ha (hne a _ ha)
      · exact h3

/-- In particular for diagrams in which all edges have crossings. -/
theorem C35_split_consistent {cross : List Cross} {edge : List Edge} (h : Consistent cross edge)
    (hsm : edge.length ≤ UNSET_IDX) :
    ∃ code n, labels cross edge = .ok (code, n) ∧ code.length = edge.length ∧
      (∀ (a b x y : Nat), code[a]? = some x → code[b]? = some y → (x = y ↔ Linked cross a b)) ∧
      ∀ k, k < n ↔ k ∈ code :=
  C35_split_labels (loose_of_consistent h) hsm

/-- A diagram has a single piece exactly when it is not empty and any two of its edges are connected. -/
theorem C35_one_piece {cross : List Cross} {edge : List Edge} (h : Loose cross edge)
    (hsm : edge.length ≤ UNSET_IDX) :
    (∃ code, labels cross edge = .ok (code, 1)) ↔
      edge ≠ [] ∧ ∀ a b, a < edge.length → b < edge.length → Linked cross a b := by
  obtain ⟨code, n, h1, h2, h3, h4⟩ := C35_split_labels h hsm
  have hget : ∀ a, (ha : a < edge.length) → code[a]? = some (code[a]'(by omega)) := fun a ha => by simp
  rw [h1]
  constructor
  · rintro ⟨c, hc⟩
    cases hc
    constructor
    · rintro rfl
      have := (h4 0).mp (by omega)
      rw [List.length_eq_zero_iff.mp h2] at this
      cases this
    · intro a b ha hb
      refine (h3 a b _ _ (hget a ha) (hget b hb)).mp ?_
      have e1 := (h4 _).mpr (List.mem_of_getElem? (hget a ha))
      have e2 := (h4 _).mpr (List.mem_of_getElem? (hget b hb))
      omega
  · rintro ⟨hne, hl⟩
    have h0 : 0 < edge.length := List.length_pos_iff.mpr hne
    refine ⟨code, ?_⟩
    have hall : ∀ k ∈ code, k = code[0] := by
      intro k hk
      obtain ⟨a, ha⟩ := List.mem_iff_getElem?.mp hk
      have hal : a < edge.length := by rw [← h2]; exact (List.getElem?_eq_some_iff.mp ha).1
      exact (h3 a 0 _ _ ha (hget 0 h0)).mpr (hl a 0 hal h0)
    have hpos : 0 < n := by
      have := (h4 _).mpr (List.mem_of_getElem? (hget 0 h0))
      omega
    have hn : n = 1 := by
      by_contra hne1
      have a0 := hall 0 ((h4 0).mp hpos)
      have a1 := hall 1 ((h4 1).mp (by omega))
      omega
    rw [hn]

/-- Two Hopf links and a circle by itself, numbered in a mixed order. -/
def mixCross : List Cross :=
  [⟨0, 4, 2, 6, .pos⟩, ⟨1, 5, 3, 7, .pos⟩, ⟨0, 6, 2, 4, .pos⟩, ⟨1, 7, 3, 5, .pos⟩]
def mixEdge : List Edge :=
  [⟨0, 0, 2, 0⟩, ⟨1, 0, 3, 0⟩, ⟨0, 2, 2, 2⟩, ⟨1, 2, 3, 2⟩,
   ⟨0, 1, 2, 3⟩, ⟨1, 1, 3, 3⟩, ⟨0, 3, 2, 1⟩, ⟨1, 3, 3, 1⟩, freeEdge]

theorem mix_loose : Loose mixCross mixEdge where
  ends e r he hf := by
    have : e < 9 := (List.getElem?_eq_some_iff.mp he).1
    interval_cases e <;> · simp [mixEdge] at he; subst he; first | exact absurd rfl hf | decide
  slots c k e hs := by
    have h1 := slot_lt hs
    have hc : c < 4 := h1.1
    have hk : k < 4 := h1.2
    interval_cases c <;> interval_cases k <;>
      · simp [slot, mixCross, Cross.at] at hs
        subst hs
        refine ⟨_, rfl, ?_⟩
        decide

example : labels mixCross mixEdge = .ok ([0, 1, 0, 1, 0, 1, 0, 1, 2], 3) := by decide +kernel

/-- The corresponding statement about connectivity, from the theorem. -/
example : Linked mixCross 0 6 ∧ ¬ Linked mixCross 0 7 := by
  obtain ⟨code, n, h1, h2, h3, h4⟩ := C35_split_labels mix_loose (by decide)
  have e : labels mixCross mixEdge = .ok ([0, 1, 0, 1, 0, 1, 0, 1, 2], 3) := by decide +kernel
  rw [e] at h1
  cases h1
  exact ⟨(h3 0 6 0 0 rfl rfl).mp rfl, fun h => absurd ((h3 0 7 0 1 rfl rfl).mpr h) (by decide)⟩

end Plc.Split
