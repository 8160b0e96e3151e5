import Verif.Proofs.Simplify
import Verif.Props.Query
import Verif.Props.BigonDel
import Verif.Props.Triangle
import Verif.Proofs.LinkKept

/-! # C71: `pd_simplify` -/

namespace Plc

open Plc.Core Plc.Cmp Plc.Places Plc.Faces Plc.Moves Plc.Planar Plc.Ok Plc.Simplify Plc.LinkKept Plc.Isotopy List

/-- **C71.** `pd_simplify` of a diagram with crossings comes back. What it returns is the diagram with loops taken off one after the
other until there are none: no edge is at two places of a crossing next to each other, no face has one edge, and `pd_ok` accepts the
result in its buffers. If one crossing with two loops is left at the end, the result is the unknot without crossings. -/
theorem C71_simplify (qs qs' : QSort) (pd : Io.Pd) (hN : Neat pd) :
    ∃ last, Unlooped pd last ∧ Neat last ∧
      ((∃ caps, simplify qs pd = .ok (.code caps last) ∧ pdOk qs' caps last = .ok true ∧ ¬ HasLoop last.cross ∧
        ∀ F ∈ last.face, F.edge.length ≠ 1) ∨
      (simplify qs pd = .ok (.unknot 0) ∧ last.cross.length = 1 ∧ HasLoop last.cross)) := by
  have hT := hN.tidy
  have hP := hT.plane
  have hcnt := hP.consistent.count
  have hk := goodComps_of_retag hT.goodComps
  have hcomps := comps_le hP hT.goodComps
  rw [retag_length] at hcomps
  have hf1 := hT.goodFaces.count
  have h0 := List.length_pos_iff.mpr hP.nonempty
  have hcopy : Query.copy pd = .ok (.code pd.cross.length pd) := by
    unfold Query.copy
    rw [C62_copy pd pd.cross.length hP.nonempty (by omega) (by omega) (by rw [hf1]; omega) hk.2.2.1
      (fun f hf => (hT.goodFaces.shape f hf).1), Nat.max_self]
  have hs : simplify qs pd = loop qs (pd.cross.length + 1) (Io.capsNew pd.cross.length) pd := by
    unfold simplify
    rw [hcopy, ok_bind]
  rw [hs]
  exact loop_ok qs qs' _ _ pd hN (hN.ok qs' (by simp only [Io.capsNew]; omega) (by simp only [Io.capsNew]; omega)
    (by simp only [Io.capsNew]; omega)) (by simp only [Io.capsNew]; omega) (Nat.lt_succ_self _)

/-- A diagram without crossings becomes the unknot without crossings, whatever else is in it. -/
theorem C71_no_crossings (qs : QSort) (pd : Io.Pd) (h : pd.cross = []) : simplify qs pd = .ok (.unknot 0) := by
  unfold simplify
  rw [C62_copy_no_crossings pd h, ok_bind]

theorem Unlooped.tags {pd last : Io.Pd} (h : Unlooped pd last) : (last.comp.map (·.tag)).Perm (pd.comp.map (·.tag)) := by
  induction h with
  | refl => exact .refl _
  | step _ _ _ a _ ih => exact a.trans ih

theorem Unlooped.le {pd last : Io.Pd} (h : Unlooped pd last) : last.cross.length ≤ pd.cross.length := by
  induction h with
  | refl => exact Nat.le_refl _
  | step _ _ L _ _ ih => have := L.len; omega

theorem Unlooped.signs {pd last : Io.Pd} (h : Unlooped pd last) :
    ∀ x' ∈ last.cross, ∃ x ∈ pd.cross, x.sign = x'.sign := by
  induction h with
  | refl => exact fun x' h => ⟨x', h, rfl⟩
  | step _ _ L _ _ ih =>
    intro x' hx'
    obtain ⟨d, hd⟩ := List.mem_iff_getElem?.mp hx'
    obtain ⟨x, x1, x2, -⟩ := L.cross d x' hd
    obtain ⟨y, y1, y2⟩ := ih x (List.mem_of_getElem? x1)
    exact ⟨y, y1, y2.trans x2.symm⟩

/-- A diagram with more than one component does not become the unknot, and its components keep their tags. -/
theorem C71_components (qs : QSort) (pd : Io.Pd) (hN : Neat pd) (h2 : 1 < pd.comp.length) :
    ∃ caps last, simplify qs pd = .ok (.code caps last) ∧ last.cross.length ≤ pd.cross.length ∧
      (last.comp.map (·.tag)).Perm (pd.comp.map (·.tag)) ∧ ∀ x' ∈ last.cross, ∃ x ∈ pd.cross, x.sign = x'.sign := by
  obtain ⟨last, u1, u2, ⟨caps, h, -⟩ | ⟨-, h1, -⟩⟩ := C71_simplify qs qs pd hN
  · exact ⟨caps, last, h, u1.le, u1.tags, u1.signs⟩
  · have hcomps := comps_le u2.tidy.plane u2.tidy.goodComps
    rw [retag_length] at hcomps
    have := u1.tags.length_eq
    simp only [List.length_map] at this
    omega

/-! ### Concrete cases -/

theorem BigonDel.twist_plane : PlaneDiagram twistPd.cross twistPd.edge := by
  have hC : Consistent twistPd.cross twistPd.edge := by decide
  refine ⟨hC, by decide, by decide, connected_of (by decide), planeFaces_of hC 30 (by decide) (by decide +kernel)
    [(1, .neg), (0, .neg), (2, .neg), (0, .pos), (3, .pos)] rfl (by decide) (by decide) (by decide +kernel) (by decide +kernel)⟩

theorem BigonDel.twist_neat : Neat twistPd := by
  obtain ⟨cross', edge', comps, faces, h1, h2, -⟩ := C51_regenerated_ok insQSort insQSort 3 twistPd.cross twistPd.edge twistPd.edge
    twist_plane (Or.inl ⟨rfl, _, List.mem_cons_self, by decide⟩) (by decide) (by decide)
  have h3 : Regenerate.regenerate insQSort (Io.capsNew 3).edges (Io.capsNew 3).comps (Io.capsNew 3).faces twistPd.cross twistPd.edge =
      .ok (twistPd.cross, twistPd.edge, twistPd.comp, twistPd.face) := by decide +kernel
  rw [h3] at h1
  cases h1
  exact Tidy.neat h2

/-- Two loops are taken off, and then the last crossing goes. -/
example : simplify insQSort twistPd = .ok (.unknot 0) ∧ ∃ last, Unlooped twistPd last ∧ last.cross.length = 1 := by
  have h : simplify insQSort twistPd = .ok (.unknot 0) := by decide +kernel
  obtain ⟨last, u1, u2, ⟨caps, q, -⟩ | ⟨-, q, -⟩⟩ := C71_simplify insQSort insQSort twistPd BigonDel.twist_neat
  · rw [h] at q
    cases q
  · exact ⟨h, last, u1, q⟩

/-- The loop is taken off the first circle; both circles are still there. -/
example : ∃ caps last, simplify insQSort loopedPd = .ok (.code caps last) ∧ last.cross.length ≤ 3 ∧
    (last.comp.map (·.tag)).Perm [65, 66] ∧ ∀ x' ∈ last.cross, ∃ x ∈ loopedPd.cross, x.sign = x'.sign :=
  C71_components insQSort loopedPd BigonDel.looped_neat (by decide)

/-- A trefoil has no loops. -/
example : simplify insQSort trefoilPd = .ok (.code (Io.capsNew 3) trefoilPd) := by decide +kernel

end Plc
