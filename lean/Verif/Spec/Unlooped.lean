import Verif.Spec.Loop
import Verif.Proofs.Neat

/-! # Taking loops off, one after the other -/

namespace Plc

/-- `pd'` is `pd` with any number of loops taken off, one after the other; on the way all diagrams are such as the library makes them,
and components keep their tags and, apart from the edges gone, their edges. -/
inductive Unlooped (pd : Io.Pd) : Io.Pd → Prop
  | refl : Unlooped pd pd
  | step {q q' : Io.Pd} {c e0 e1 e2 : Nat} {τ σ ρ : Nat → Nat} : Unlooped pd q → Neat q' →
      LoopRemoved q.cross q.edge c e0 e1 e2 q'.cross q'.edge τ σ ρ → (q'.comp.map (·.tag)).Perm (q.comp.map (·.tag)) →
      (∀ c' ∈ q'.comp, ∃ k ∈ q.comp, k.tag = c'.tag ∧ ∀ f, f < q'.edge.length → (f ∈ c'.edge ↔ τ f ∈ k.edge)) → Unlooped pd q'

/-- Somewhere the edge at one place of a crossing is the edge at the next place as well. -/
def HasLoop (cross : List Cross) : Prop := ∃ x ∈ cross, ∃ k, x.at k = x.at (k + 1)

end Plc
