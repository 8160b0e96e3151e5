import Verif.Model.Chords

/-! # Triangulations of an n-gon by chords -/

namespace Plc.Tri

/-- A chord between two vertices of the n-gon that are different and not next to each other. -/
def Diagonal (n : Nat) (c : Chord) : Prop :=
  c.1 < n ∧ c.2 < n ∧ c.1 ≠ c.2 ∧ (c.1 + 1) % n ≠ c.2 ∧ (c.2 + 1) % n ≠ c.1

/-- The chords have the same ends. -/
def Same (c d : Chord) : Prop := (c.1 = d.1 ∧ c.2 = d.2) ∨ (c.1 = d.2 ∧ c.2 = d.1)

/-- Strictly between the two ends of the chord, in the numbering of the vertices. -/
def Inside (c : Chord) (x : Nat) : Prop := (c.1 < x ∧ x < c.2) ∨ (c.2 < x ∧ x < c.1)

/-- On the other side: neither an end nor strictly between. -/
def Outside (c : Chord) (x : Nat) : Prop := (x < c.1 ∧ x < c.2) ∨ (c.1 < x ∧ c.2 < x)

/-- The chords cross: the ends of one are on different sides of the other. -/
def Crossing (c d : Chord) : Prop := (Inside c d.1 ∧ Outside c d.2) ∨ (Inside c d.2 ∧ Outside c d.1)

/-- `n-3` diagonals of the n-gon, no two equal and no two crossing: a triangulation. -/
def IsTriangulation (n : Nat) (sys : List Chord) : Prop :=
  sys.length = n - 3 ∧ (∀ c ∈ sys, Diagonal n c) ∧ sys.Pairwise (fun c d => ¬ Same c d ∧ ¬ Crossing c d)

end Plc.Tri
