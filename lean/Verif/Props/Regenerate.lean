import Verif.Proofs.Regenerate
import Verif.Proofs.Std
import Verif.Model.Io
import Batteries.Lean.Except

/-! # C49: `pd_regenerate` on plane diagrams; C19 and C21 there -/

namespace Plc

open Plc.Core Plc.Cmp Plc.Regenerate Plc.Moves Plc.CompBound

/-- **C21.** A connected plane diagram with `n` crossings has at most `n/2 + 1` components, so the
component buffer made by `pd_code_new` for it is large enough. -/
theorem C21_components_fit (cross : List Cross) (edge : List Edge) (h : PlaneDiagram cross edge) :
    AtMostStrands cross edge (cross.length / 2 + 1) :=
  strands_le h.consistent h.oriented h.nonempty h.connected h.plane (by omega)

/-- **C21.** On a connected plane diagram in buffers made by `pd_code_new`, `pd_regenerate_comps` returns
the same diagram renamed, with good component records. -/
theorem C21_regenerate_comps_plane (qs : QSort) (mv : Nat) (cross : List Cross) (edge : List Edge)
    (h : PlaneDiagram cross edge) (hs : SortedCross cross) (hmv : cross.length ≤ mv)
    (hsmall : 2 * edge.length < 2 ^ 31) :
    ∃ cross' edge' comps τ σ ρ,
      Comps.regenComps qs (Io.capsNew mv).edges (Io.capsNew mv).comps cross edge = .ok (cross', edge', comps) ∧
      Renamed cross edge cross' edge' τ σ ρ (fun _ => false) ∧ SameSigns cross cross' σ ∧
      SortedCross cross' ∧ GoodComps cross' edge' comps := by
  have hc := h.consistent.count
  obtain ⟨cross', edge', comps, faces, τ, σ, ρ, h1, _, h3, h4, h5, h6, _⟩ := finish qs
    (maxedges := (Io.capsNew mv).edges) (maxcomps := (Io.capsNew mv).comps) (maxfaces := cross.length + 2) h hs
    hsmall (by simp only [Io.capsNew]; omega) (by simp only [Io.capsNew]; omega) (Nat.le_refl _)
  exact ⟨cross', edge', comps, τ, σ, ρ, h1, h3, h4, h5, h6⟩

/-- **C19.** When the crossings are those of a connected plane diagram, `pd_regenerate_edges` finds its
edges, up to the direction of whole components. -/
theorem C19_regenerate_edges_plane (cross : List Cross) (edge : List Edge) (h : PlaneDiagram cross edge) :
    ∃ edge' rev, Edges.regenEdges cross = .ok edge' ∧
      Renamed cross edge cross edge' id id (fun _ => 0) rev ∧ Renamed.Along cross edge rev :=
  edges_renamed h

/-- **C49.** A plane diagram with at least one sign set, in buffers made by `pd_code_new`, goes through
`pd_regenerate` unchanged up to the names of edges and crossings and the place where reading a crossing
starts: directions and signs are kept, and component and face records are correct. -/
theorem C49_regenerate_keeps (qs : QSort) (mv : Nat) (cross : List Cross) (edge : List Edge)
    (h : PlaneDiagram cross edge) (hsign : ∃ x ∈ cross, x.sign ≠ .unset) (hmv : cross.length ≤ mv)
    (hsmall : 2 * edge.length < 2 ^ 31) :
    ∃ cross' edge' comps faces τ σ ρ,
      regenerate qs (Io.capsNew mv).edges (Io.capsNew mv).comps (Io.capsNew mv).faces cross edge =
        .ok (cross', edge', comps, faces) ∧
      Renamed cross edge cross' edge' τ σ ρ (fun _ => false) ∧ SameSigns cross cross' σ ∧
      SortedCross cross' ∧ GoodComps cross' edge' comps ∧ GoodFaces cross' edge' faces := by
  have hc := h.consistent.count
  obtain ⟨c1, e1, σ1, ρ1, a1, a2, a3, a4, _⟩ := regenCrossings_renamed qs h.consistent (by omega)
  have h1 := h.renamed a2 along_false
  obtain ⟨cross', edge', comps, faces, τ, σ, ρ, b1, b2, b3, b4, b5, b6, b7⟩ := finish qs
    (maxedges := (Io.capsNew mv).edges) (maxcomps := (Io.capsNew mv).comps) (maxfaces := (Io.capsNew mv).faces)
    h1 a4 (by rw [a2.elen]; exact hsmall) (by rw [a2.elen]; simp only [Io.capsNew]; omega)
    (by rw [a2.len]; simp only [Io.capsNew]; omega) (by rw [a2.len]; simp only [Io.capsNew]; omega)
  have t := a2.trans b3 h.consistent
  simp only [Bool.xor_false] at t
  refine ⟨cross', edge', comps, faces, _, _, _, ?_, t, SameSigns.trans a3 b4, b5, b6, b7⟩
  · have hch : chooseEdges c1 e1 = .ok (c1, e1) := by
      unfold chooseEdges
      rw [if_neg, (C23_checks_accept e1.length c1 e1 h1.consistent h1.oriented h1.nonempty (Nat.le_refl _)
        (by rw [a2.elen]; omega) a4).2, ok_bind, if_pos rfl]
      intro hall
      rw [List.all_eq_true] at hall
      obtain ⟨x, hx, hs⟩ := hsign
      obtain ⟨c, hcl, rfl⟩ := List.getElem_of_mem hx
      obtain ⟨x', g1, g2⟩ := a3 c _ (List.getElem?_eq_getElem hcl)
      have := hall x' (List.mem_of_getElem? g1)
      rw [g2] at this
      simp at this
      exact hs this
    unfold regenerate
    rw [a1, ok_bind]
    simp only
    rw [hch, ok_bind]
    simp only
    rw [b1, ok_bind]
    simp only
    rw [b2, ok_bind]

/-- **C49.** When the crossings are those of a connected plane diagram but all signs are unset, or the
edge records do not agree with the crossings (for instance, there are none), `pd_regenerate` rebuilds
the edges: the result is the diagram the crossings came from, up to names and the direction of whole
components. All signs are then unset, also those that were set before. -/
theorem C49_regenerate_rebuilds (qs : QSort) (mv : Nat) (cross : List Cross) (edge0 edge : List Edge)
    (h : PlaneDiagram cross edge0) (hrange : ∀ r ∈ edge, r.head < cross.length ∧ r.tail < cross.length)
    (hwhy : (∀ x ∈ cross, x.sign = .unset) ∨ edge.length ≠ 2 * cross.length ∨
      ∃ e r, edge[e]? = some r ∧ ((r.headpos < 4 ∧ slot cross r.head r.headpos ≠ some e) ∨
        (r.tailpos < 4 ∧ slot cross r.tail r.tailpos ≠ some e)))
    (hmv : cross.length ≤ mv) (hsmall : 2 * edge0.length < 2 ^ 31) :
    ∃ cross' edge' comps faces τ σ ρ rev,
      regenerate qs (Io.capsNew mv).edges (Io.capsNew mv).comps (Io.capsNew mv).faces cross edge =
        .ok (cross', edge', comps, faces) ∧
      Renamed cross edge0 cross' edge' τ σ ρ rev ∧ Renamed.Along cross edge0 rev ∧
      PlaneDiagram cross' edge' ∧ (∀ x ∈ cross', x.sign = .unset) ∧
      SortedCross cross' ∧ GoodComps cross' edge' comps ∧ GoodFaces cross' edge' faces := by
  have hC := h.consistent
  have hc := hC.count
  obtain ⟨c1, e1, σ1, ρ1, a1, a2, a3, a4, _⟩ := regenCrossings_renamed qs hC (by omega)
  have h1 := h.renamed a2 along_false
  -- the same crossings for the actual edge records
  obtain ⟨c1', e1', σ2, ρ2, q1, q2, _, _⟩ := regen_ok qs (cross := cross) (edge := edge) hrange (by
    intro x hx y hy
    obtain ⟨i, hi, rfl⟩ := List.getElem_of_mem hx
    obtain ⟨k, hk, rfl⟩ := edges_mem hy
    have := hC.slot_edge_lt (slot_of_lt hi hk)
    omega)
  have hcc := regenCrossings_cross qs q1 a1
  subst hcc
  -- signs forgotten or unset already
  obtain ⟨c2, hu, hu2, hch⟩ : ∃ c2, (∀ x ∈ c2, x.sign = .unset) ∧ c2 = c1'.map unsetSign ∧
      chooseEdges c1' e1' = (Edges.regenEdges c2 >>= fun e => .ok (c2, e)) := by
    refine ⟨c1'.map unsetSign, by simp [unsetSign], rfl, ?_⟩
    unfold chooseEdges
    split
    · rename_i hall
      have : c1'.map unsetSign = c1' := by
        conv_rhs => rw [← List.map_id c1']
        apply List.map_congr_left
        intro x hx
        have hs := of_decide_eq_true (List.all_eq_true.mp hall x hx)
        obtain ⟨_, _, _, _, _⟩ := x
        simp only at hs
        subst hs
        rfl
      rw [this]
    · rename_i hall
      have hok : edgesOk c1' e1' = .ok false := by
        apply edgesOk_false h1.nonempty
        · intro c k x hx
          have := h1.consistent.slot_edge_lt hx
          rwa [h1.consistent.count] at this
        · rcases hwhy with hw | hw | ⟨e, r, hr, hw⟩
          · exfalso
            apply hall
            rw [List.all_eq_true]
            intro x hx
            obtain ⟨c, hcl, rfl⟩ := List.getElem_of_mem hx
            obtain ⟨d, hd, hdc⟩ := surj_of_inj a2.slt a2.sinj (by rw [← a2.len]; exact hcl)
            obtain ⟨x', g1, g2⟩ := a3 d _ (List.getElem?_eq_getElem hd)
            rw [hdc, List.getElem?_eq_getElem hcl] at g1
            rw [Option.some.inj g1, g2]
            simpa using hw _ (List.getElem_mem hd)
          · left
            rw [q2.elen, q2.len]
            exact hw
          · right
            have hm := hrange r (List.mem_of_getElem? hr)
            refine ⟨e, _, q2.edge e r hr, ?_⟩
            simp only
            rcases hw with ⟨hk, hw⟩ | ⟨hk, hw⟩
            · left
              rw [q2.slot hm.1 hk]
              exact hw
            · right
              rw [q2.slot hm.2 hk]
              exact hw
      rw [hok, ok_bind, if_neg (by simp)]
  have hR2 := unset_renamed h1.consistent
  rw [← hu2] at hR2
  have h2 := h1.renamed hR2 along_false
  obtain ⟨e2, rev, r1, r2, r3⟩ := edges_renamed h2
  have h3 := h2.renamed r2 r3
  have hs2 : SortedCross c2 := by
    unfold SortedCross at *
    rw [hu2, List.pairwise_map]
    exact a4
  have hl2 : e2.length = edge0.length := by rw [r2.elen, hR2.elen, a2.elen]
  have hn2 : c2.length = cross.length := by rw [hR2.len, a2.len]
  obtain ⟨cross', edge', comps, faces, τ, σ, ρ, b1, b2, b3, b4, b5, b6, b7⟩ := finish qs
    (maxedges := (Io.capsNew mv).edges) (maxcomps := (Io.capsNew mv).comps) (maxfaces := (Io.capsNew mv).faces)
    h3 hs2 (by rw [hl2]; exact hsmall) (by rw [hl2]; simp only [Io.capsNew]; omega)
    (by rw [hn2]; simp only [Io.capsNew]; omega) (by rw [hn2]; simp only [Io.capsNew]; omega)
  have t1 := a2.trans hR2 hC
  have t2 := t1.trans r2 hC
  have t3 := t2.trans b3 hC
  refine ⟨cross', edge', comps, faces, _, _, _, _, ?_, t3, ?_, h3.renamed b3 along_false, ?_, b5, b6, b7⟩
  · unfold regenerate
    rw [q1, ok_bind]
    simp only
    rw [hch, r1, ok_bind, ok_bind]
    simp only
    rw [b1, ok_bind]
    simp only
    rw [b2, ok_bind]
  · intro e f hf
    have f1 := a2.follows hC h.oriented along_false hf
    have f2 := hR2.follows h1.consistent h1.oriented along_false f1
    have := r3 _ _ f2
    simpa using this
  · intro x hx
    obtain ⟨c, hcl, rfl⟩ := List.getElem_of_mem hx
    obtain ⟨d, hd, hdc⟩ := surj_of_inj b3.slt b3.sinj (by rw [← b3.len]; exact hcl)
    obtain ⟨x', g1, g2⟩ := b4 d _ (List.getElem?_eq_getElem hd)
    rw [hdc, List.getElem?_eq_getElem hcl] at g1
    rw [Option.some.inj g1, g2]
    exact hu _ (List.getElem_mem hd)

/-- The hypotheses hold for a Hopf link. -/
theorem hopf2_plane : PlaneDiagram hopf2 hopf2Edge :=
  ⟨by decide, by decide, by decide, hopf2_connected, hopf2_planeFaces⟩

/-- The Hopf link with its crossings in the other order and rotated. -/
example : regenerate insQSort 5 3 4 [⟨2, 1, 0, 3, .pos⟩, ⟨2, 3, 0, 1, .pos⟩] [⟨1, 2, 0, 2⟩, ⟨0, 1, 1, 3⟩, ⟨0, 0, 1, 0⟩, ⟨1, 1, 0, 3⟩] =
    .ok ([⟨0, 2, 1, 3, .pos⟩, ⟨0, 3, 1, 2, .pos⟩], [⟨0, 0, 1, 0⟩, ⟨1, 2, 0, 2⟩, ⟨1, 3, 0, 1⟩, ⟨0, 3, 1, 1⟩],
      [⟨[0, 1], 65⟩, ⟨[2, 3], 66⟩],
      [⟨[0, 2], [.neg, .neg]⟩, ⟨[0, 3], [.pos, .neg]⟩, ⟨[1, 2], [.neg, .pos]⟩, ⟨[1, 3], [.pos, .pos]⟩]) := by
  decide +kernel

/-- Without edge records, signs are lost. -/
example : regenerate insQSort 5 3 4 hopf2 [] =
    .ok ([⟨0, 2, 1, 3, .unset⟩, ⟨0, 3, 1, 2, .unset⟩], [⟨0, 0, 1, 0⟩, ⟨1, 2, 0, 2⟩, ⟨0, 1, 1, 3⟩, ⟨1, 1, 0, 3⟩],
      [⟨[0, 1], 65⟩, ⟨[2, 3], 66⟩],
      [⟨[0, 2], [.neg, .pos]⟩, ⟨[0, 3], [.pos, .pos]⟩, ⟨[1, 2], [.neg, .neg]⟩, ⟨[1, 3], [.pos, .neg]⟩]) := by
  decide +kernel

end Plc
