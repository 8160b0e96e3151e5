import Verif.Proofs.Edges
import Verif.Spec.Examples
import Batteries.Lean.Except

/-! # C19: rebuilding edge records from crossings -/

namespace Plc

open Plc.Edges

/-- All edge numbers written at the crossings. -/
def written (cross : List Cross) : List Nat := cross.flatMap (fun c => [c.e0, c.e1, c.e2, c.e3])

/-- C19 fails as stated: the single crossing `[0, 1, 0, 1]` uses each of its edge numbers twice
but has two components and one crossing, so the failsafe counting components against
crossings stops the program. -/
theorem C19_regenerate_edges_false :
    ∃ cross : List Cross, cross ≠ [] ∧ (∀ e, e < 2 * cross.length → (written cross).count e = 2) ∧
      regenEdges cross = .error .die :=
  ⟨[⟨0, 1, 0, 1, .unset⟩], by simp, by decide, by decide⟩

/-- C19, whatever the crossings: when every edge number is written exactly twice, the run never
touches memory it should not, and if it does not stop the program then every edge runs between
the two places where its number is written, and strands pass straight through crossings in one
direction. -/
theorem C19_regenerate_edges_sound {cross : List Cross} (h0 : cross ≠ [])
    (hT : ∀ e, e < 2 * cross.length → (written cross).count e = 2) :
    (∃ edge, regenEdges cross = .ok edge ∧ Consistent cross edge ∧ Oriented cross edge) ∨
    regenEdges cross = .error .die := by
  rcases regenEdges_cases h0 hT with h | ⟨h, _⟩
  · exact Or.inl h
  · exact Or.inr h

/-- C19, with what is missing for success: no edge faces itself across a crossing. This always
holds for a diagram drawn on the sphere. -/
theorem C19_regenerate_edges_partial {cross : List Cross} (h0 : cross ≠ [])
    (hT : ∀ e, e < 2 * cross.length → (written cross).count e = 2)
    (hF : ∀ c ∈ cross, c.e0 ≠ c.e2 ∧ c.e1 ≠ c.e3) :
    ∃ edge, regenEdges cross = .ok edge ∧ Consistent cross edge ∧ Oriented cross edge := by
  rcases regenEdges_cases h0 hT with h | ⟨_, c, k, e, hk, h1, h2⟩
  · exact h
  · exfalso
    rw [slot_eq_some] at h1 h2
    obtain ⟨_, cr, hc, ha⟩ := h1
    obtain ⟨_, cr', hc', hb⟩ := h2
    rw [hc] at hc'
    cases hc'
    have := hF cr (List.mem_of_getElem? hc)
    match k, hk with
    | 0, _ => exact this.1 (ha.trans hb.symm)
    | 1, _ => exact this.2 (ha.trans hb.symm)
    | 2, _ => exact this.1 (hb.trans ha.symm)
    | 3, _ => exact this.2 (hb.trans ha.symm)

/-- C19, when the two ends are written the records are forced up to direction: any two edge
records that agree with the same crossings name the same two places. -/
theorem C19_regenerate_edges_ends {cross : List Cross} (h0 : cross ≠ []) {edge : List Edge}
    (h : Consistent cross edge) (hF : ∀ c ∈ cross, c.e0 ≠ c.e2 ∧ c.e1 ≠ c.e3) :
    ∃ edge', regenEdges cross = .ok edge' ∧ Oriented cross edge' ∧
      ∀ (e : Nat) (r r' : Edge), edge[e]? = some r → edge'[e]? = some r' →
        ({(r.head, r.headpos), (r.tail, r.tailpos)} : Finset (Nat × Nat)) =
          {(r'.head, r'.headpos), (r'.tail, r'.tailpos)} := by
  have hT : ∀ e, e < 2 * cross.length → (written cross).count e = 2 := by
    intro e he
    exact Core.count_two h (by rw [h.count]; exact he)
  obtain ⟨edge', h1, h2, h3⟩ := C19_regenerate_edges_partial h0 hT hF
  refine ⟨edge', h1, h3, ?_⟩
  intro e r r' hr hr'

  have e1 : e < edge.length := (List.getElem?_eq_some_iff.mp hr).1
  have e2 : e < edge'.length := (List.getElem?_eq_some_iff.mp hr').1
  have x1 : edge[e]! = r := by rw [getElem!_pos edge e e1]; exact (List.getElem?_eq_some_iff.mp hr).2
  have x2 : edge'[e]! = r' := by rw [getElem!_pos edge' e e2]; exact (List.getElem?_eq_some_iff.mp hr').2
  have a := Places.hd_mem h e1
  have b := Places.hd_mem h2 e2
  have c := Places.tl_mem h2 e2
  have o := Places.oth_hd h e1
  have n := Places.hd_ne_tl h2 e2
  have k1 := Places.same_edge h a.1 b.1 (a.2.trans b.2.symm)
  have k2 := Places.same_edge h a.1 c.1 (a.2.trans c.2.symm)
  rw [o] at k1 k2
  rw [x1] at k1 k2
  rw [x2] at k1 k2 n
  show ({Places.hd r, Places.tl r} : Finset _) = {Places.hd r', Places.tl r'}
  rcases k1 with k1 | k1 <;> rcases k2 with k2 | k2
  · exact absurd (k1.trans k2.symm) n
  · rw [k1, k2]
  · rw [k1, k2, Finset.pair_comm]
  · exact absurd (k1.trans k2.symm) n

/-- The hypotheses of the theorems hold for the trefoil and for a kink in an unknot, and
directions differ from the first-found order of places. -/
example : (∀ e, e < 2 * (trefoilCross .pos).length → (written (trefoilCross .pos)).count e = 2) ∧
    (∀ c ∈ trefoilCross .pos, c.e0 ≠ c.e2 ∧ c.e1 ≠ c.e3) := by decide

example : regenEdges [⟨0, 0, 1, 1, .pos⟩] = .ok [⟨0, 0, 0, 1⟩, ⟨0, 3, 0, 2⟩] := by decide

end Plc
