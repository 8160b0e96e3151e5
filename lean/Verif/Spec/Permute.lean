import Verif.Model.Permute

/-! # Permutation of the edges: what is expected -/

namespace Plc.Embed

open Plc.FindCrossings

/-- The edges of a closed polygon, as vectors. -/
noncomputable def edgeVectors (vt : List V3) : List V3 :=
  (List.range vt.length).map (fun i => ((vt[(i + 1) % vt.length]?).getD ⟨0, 0, 0⟩).sub ((vt[i]?).getD ⟨0, 0, 0⟩))

/-- The function permutes lists. -/
def Shuffles (sh : List V3 → List V3) : Prop := ∀ l, (sh l).Perm l

end Plc.Embed
