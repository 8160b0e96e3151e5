import Verif.Proofs.Bigon
import Verif.Proofs.BigonAdded
import Verif.Props.ConnectSum

/-! # C65: pushing two edges of a face across each other -/

namespace Plc

open Plc.Cmp Plc.Core Plc.Ok Plc.Moves Plc.Orbit
open Plc.Isotopy (retag retag_length retag_edges retag_get)

namespace Moves

/-- `pd_regenerate_crossings`, `_comps`, `_faces` and `_hash` on the records of a plane diagram whose edges have directions. -/
theorem rebuild_ok (qs : QSort) (mv uid : Nat) {cross : List Cross} {edge : List Edge} (hP : PlaneDiagram cross edge)
    (hmv : cross.length ≤ mv) (hs : 2 * edge.length < 2 ^ 31) :
    ∃ (c1 c2 : List Cross) (x1 x2 : List Edge) (comps : List Comp) (pd' : Io.Pd) (τ σ ρ : Nat → Nat),
      regenCrossings qs cross edge = .ok (c1, x1) ∧
      Comps.regenComps qs (Io.capsNew mv).edges (Io.capsNew mv).comps c1 x1 = .ok (c2, x2, comps) ∧
      withFaces qs (Io.capsNew mv).faces uid c2 x2 comps = .ok pd' ∧ pd'.uid = uid ∧
      Renamed cross edge pd'.cross pd'.edge τ σ ρ (fun _ => false) ∧ SameSigns cross pd'.cross σ ∧
      Tidy pd'.cross pd'.edge pd'.comp pd'.face ∧ Neat pd' := by
  have hC := hP.consistent
  have hO := hP.oriented
  have hcnt := hC.count
  obtain ⟨c1, x1, σ1, ρ1, b1, R1, S1, b4, -⟩ := regenCrossings_renamed qs hC (by omega)
  have hP1 := hP.renamed R1 Regenerate.along_false
  have hC1 := hP1.consistent
  have l1 := R1.len
  have l2 := R1.elen
  obtain ⟨c2, x2, comps, τ2, σ2, ρ2, d1, d2, d3, d4, d5, d6, hC2, hO2, d9, d10, d11, d12, d13, d14, d15, d16,
      d17⟩ := C21_regenerate_comps_partial qs (Io.capsNew mv).edges (Io.capsNew mv).comps c1 x1 hC1 hP1.oriented hP1.nonempty
    (by simp only [Io.capsNew]; omega) (by omega) b4
    (CompBound.strands_le hC1 hP1.oriented hP1.nonempty hP1.connected hP1.plane (by simp only [Io.capsNew]; omega))
  obtain ⟨R2, S2⟩ := renamed_of hC2 d10 d11 d12 d13 d14 d15 d16 d17
  have hP2 := hP1.renamed R2 Regenerate.along_false
  have hK2 : GoodComps c2 x2 (retag comps) := goodComps_retag (by rw [d2, d11]) d3 d4 d5
  obtain ⟨pd', e1, e2, e3, e4, e5, e6, -⟩ := withFaces_ok qs (maxfaces := (Io.capsNew mv).faces) (uid := uid) hP2 d9
    (regenComps_members d1) hK2 (by omega) (by simp only [Io.capsNew]; omega)
    (by rw [d6]; exact List.nodup_range') (by
      intro k hk hlt
      have : k.tag ∈ comps.map (·.tag) := List.mem_map_of_mem hk
      rw [d6, List.mem_range'_1] at this
      omega)
  have T := R1.trans R2 hC
  rw [← e3, ← e4] at T
  have S := SameSigns.trans S1 S2
  rw [← e3] at S
  exact ⟨c1, c2, x1, x2, comps, pd', _, _, _, b1, d1, e1, e6, T, S, e2.tidy_of (by rw [e5, d6]), e2⟩

end Moves

/-- **C65.** At two different places `i`, `j` of a face `F` of a plane diagram as `pd_regenerate` or a move leaves it,
`pd_R2_bigon_addition` always works. The result is the diagram with the two edges pushed across each other within that face
(`BigonAdded`, which says where each end of each edge is), up to the names of edges and crossings and the place at which a crossing
starts; old signs are kept and the two new crossings have none. It is again such a diagram, with two crossings, four edges and two
faces more and the same number of components, and `pd_ok` accepts it in the buffers it comes in. -/
theorem C65_add_bigon (qs qs' : QSort) (pd : Io.Pd) (hN : Neat pd) (hs : 2 * (pd.edge.length + 4) < 2 ^ 31) (f i j e1 e2 : Nat)
    (o1 o2 : Or) (F : Face) (hF : pd.face[f]? = some F) (he1 : F.edge[i]? = some e1) (ho1 : F.orient[i]? = some o1)
    (he2 : F.edge[j]? = some e2) (ho2 : F.orient[j]? = some o2) (hij : i ≠ j) :
    ∃ (pd' : Io.Pd) (cross : List Cross) (edge : List Edge) (τ σ ρ : Nat → Nat),
      bigonAddition qs pd f i j = .ok (.code (Io.capsNew (pd.cross.length + 2)) pd') ∧
      BigonAdded pd.cross pd.edge e1 e2 o1 o2 cross edge ∧
      Renamed cross edge pd'.cross pd'.edge τ σ ρ (fun _ => false) ∧ SameSigns cross pd'.cross σ ∧
      Tidy pd'.cross pd'.edge pd'.comp pd'.face ∧ Neat pd' ∧ pdOk qs' (Io.capsNew (pd.cross.length + 2)) pd' = .ok true ∧
      pd'.uid = pd.uid ∧ pd'.cross.length = pd.cross.length + 2 ∧ pd'.edge.length = pd.edge.length + 4 ∧
      pd'.face.length = pd.face.length + 2 ∧ pd'.comp.length = pd.comp.length := by
  have hT := hN.tidy
  have hP := hT.plane
  have hC := hP.consistent
  have hcnt := hC.count
  have hFm := List.mem_of_getElem? hF
  have side : ∀ {k e : Nat} {o : Or}, F.edge[k]? = some e → F.orient[k]? = some o → (e, o) ∈ sides F := by
    intro k e o q1 q2
    refine List.mem_iff_getElem?.mpr ⟨k, ?_⟩
    rw [sides, List.getElem?_zip_eq_some]
    exact ⟨q1, q2⟩
  have m1 := side he1 ho1
  have m2 := side he2 ho2
  have D1 := Shape.sides_mem hT.goodFaces hFm m1
  have D2 := Shape.sides_mem hT.goodFaces hFm m2
  have n1 := Faces.mem_D.mp D1
  have n2 := Faces.mem_D.mp D2
  have u1 : o1 ≠ .unset := by rintro rfl; simp at n1
  have u2 : o2 ≠ .unset := by rintro rfl; simp at n2
  have hne : e1 ≠ e2 := by
    rintro rfl
    have := Distinct.face_nodup hP hT.goodFaces hFm
    obtain ⟨q1, q2⟩ := List.getElem?_eq_some_iff.mp he1
    obtain ⟨q3, q4⟩ := List.getElem?_eq_some_iff.mp he2
    exact hij ((List.Nodup.getElem_inj_iff this).mp (q2.trans q4.symm))
  have hcyc : (e2, o2) ∈ cyc (Faces.nd pd.cross pd.edge) (e1, o1) := by
    have hI := Faces.injOn_nd hC
    have hl := List.length_pos_iff.mpr (List.ne_nil_of_mem m1)
    have q0 := List.getElem?_eq_getElem (l := sides F) (i := 0) hl
    generalize (sides F)[0] = s at q0
    have q1 := Shape.sides_mem hT.goodFaces hFm (List.mem_of_getElem? q0)
    rw [hI.mem_cyc D1]
    exact reach_trans (hI.reach_symm q1 ((hI.mem_cyc q1).mp (Distinct.sides_reach hP hT.goodFaces hFm q0 m1)))
      ((hI.mem_cyc q1).mp (Distinct.sides_reach hP hT.goodFaces hFm q0 m2))
  obtain ⟨cross, edge, r1, B⟩ := Bigon.raw_ok hC n1.1 n2.1 hne u1 u2
  have hP' := B.plane hP hne u1 u2 hcyc
  have len := B.len
  have elen := B.elen
  obtain ⟨c1, c2, x1, x2, comps, pd', τ, σ, ρ, a1, a2, a3, a4, a5, a6, a7, a8⟩ := rebuild_ok qs (pd.cross.length + 2) pd.uid hP'
    (by omega) (by omega)
  have hk := goodComps_of_retag hT.goodComps
  have hcomps := comps_le hP hT.goodComps
  rw [retag_length] at hcomps
  have hf1 := hT.goodFaces.count
  have l1 := a5.len
  have l2 := a5.elen
  refine ⟨pd', cross, edge, τ, σ, ρ, ?_, B, a5, a6, a7, a8, C51_ok_complete qs' _ pd' a7 (by omega), a4, by omega, by omega, ?_, ?_⟩
  · unfold bigonAddition
    simp only
    rw [C62_copy pd (pd.cross.length + 2) hP.nonempty (by omega) (by omega) (by rw [hf1]; omega) hk.2.2.1
      (fun f hf => (hT.goodFaces.shape f hf).1), ok_bind]
    simp only
    rw [rd_eq_ok.mpr hF, ok_bind, rd_eq_ok.mpr he1, ok_bind, rd_eq_ok.mpr ho1, ok_bind, rd_eq_ok.mpr he2, ok_bind, rd_eq_ok.mpr ho2, ok_bind,
      r1, ok_bind]
    simp only
    rw [Nat.max_eq_left (by omega), a1, ok_bind]
    simp only
    rw [a2, ok_bind]
    simp only
    rw [a3, ok_bind]
  · rw [hf1, a7.goodFaces.count]
    omega
  · obtain ⟨R, q1, q2⟩ := StrandCount.of_comps hC hP.oriented hT.goodComps
    have q3 := B.strands hC hP.oriented hne q1
    have q4 := StrandCount.renamed a5 hP'.consistent hP'.oriented Regenerate.along_false q3
    have q5 := StrandCount.eq_comps a7.plane.consistent a7.plane.oriented a7.goodComps q4
    rw [List.length_map, q2, retag_length] at q5
    exact q5

/-- A diagram without crossings: the edge has no ends, and the crossing table is written at `PD_UNSET_IDX`. -/
theorem C65_no_crossings (qs : QSort) (pd : Io.Pd) (h : pd.cross = []) (f i j : Nat) : bigonAddition qs pd f i j = .error .ub := by
  unfold bigonAddition
  simp only
  rw [show Query.copyNewsize pd (pd.cross.length + 2) = .ok .unknot by simp [Query.copyNewsize, h], ok_bind]

/-! ### Concrete cases -/

/-- The two sides of the first face of the Hopf link: four crossings, two components, six faces. -/
example (qs : QSort) : ∃ (pd : Io.Pd), bigonAddition qs isoHopf 0 0 1 = .ok (.code (Io.capsNew 4) pd) ∧
    PlaneDiagram pd.cross pd.edge ∧ pd.cross.length = 4 ∧ pd.comp.length = 2 ∧ pd.face.length = 6 := by
  obtain ⟨pd, cross, edge, τ, σ, ρ, a1, -, -, -, a2, -, -, -, a3, -, a4, a5⟩ := C65_add_bigon qs qs isoHopf isoHopf_neat (by decide)
    0 0 1 _ _ _ _ _ rfl rfl rfl rfl rfl (by decide)
  exact ⟨pd, a1, a2.plane, a3, a5, a4⟩

/-- The same place given twice: the program stops when it follows the components, having made two broken crossings. -/
theorem C65_same_place_dies : bigonAddition insQSort isoHopf 0 0 0 = .error .die := by decide +kernel

example (qs : QSort) : bigonAddition qs Io.unknotPd 0 0 0 = .error .ub := C65_no_crossings qs _ rfl 0 0 0

end Plc
