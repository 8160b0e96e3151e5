import Verif.Proofs.TriangleFlipped
import Verif.Props.Bigon

/-! # C66: moving a strand across a crossing -/

namespace Plc

open Plc.Cmp Plc.Core Plc.Ok Plc.Moves Plc.Orbit
open Plc.Isotopy (retag retag_length retag_edges retag_get)

namespace Triangle

open Plc.Places Plc.Faces

/-- The three sides of a face and its corners. -/
theorem tri_of_face {cross : List Cross} {edge : List Edge} (hC : Consistent cross edge) {faces : List Face}
    (hF : GoodFaces cross edge faces) {F : Face} (hf : F ∈ faces) (h3 : F.edge.length = 3)
    (hl : ∀ e ∈ F.edge, ∀ r, edge[e]? = some r → r.head ≠ r.tail) :
    ∃ (e : Fin 3 → Nat) (o : Fin 3 → Or) (X k : Fin 3 → Nat), F.edge = [e 0, e 1, e 2] ∧ Tri cross edge e o X k := by
  obtain ⟨fe, fo⟩ := F
  obtain ⟨s1, -⟩ := hF.shape _ hf
  have turn := hF.turn _ hf
  simp only at h3 s1 hl
  match fe, fo, h3, s1 with
  | [e0, e1, e2], [o0, o1, o2], _, _ =>
    have mem : ∀ s ∈ [(e0, o0), (e1, o1), (e2, o2)], s ∈ D edge := fun s hs => Shape.sides_mem hF hf (by simpa [sides] using hs)
    have m0 := mem (e0, o0) (by simp)
    have m1 := mem (e1, o1) (by simp)
    have m2 := mem (e2, o2) (by simp)
    have tn : ∀ {s t : Nat × Or}, Turns edge s t → begp edge t = ((endp edge s).1, ((endp edge s).2 + 3) % 4) := by
      rintro s t ⟨c, k, a, b⟩
      rw [(sideBegins_iff.mp b).2, (sideEnds_iff.mp a).2]
    obtain ⟨t, a1, a2⟩ := turn 0 (e0, o0) rfl
    obtain rfl : (e1, o1) = t := by simpa [sides] using a1
    obtain ⟨t, b1, b2⟩ := turn 1 (e1, o1) rfl
    obtain rfl : (e2, o2) = t := by simpa [sides] using b1
    obtain ⟨t, c1, c2⟩ := turn 2 (e2, o2) rfl
    obtain rfl : (e0, o0) = t := by simpa [sides] using c1
    have a3 := tn a2
    have b3 := tn b2
    have c3 := tn c2
    have lp : ∀ s ∈ [(e0, o0), (e1, o1), (e2, o2)], (begp edge s).1 ≠ (endp edge s).1 := by
      intro s hs
      have hm := mem_D.mp (mem s hs)
      have := hl s.1 (by simp at hs; rcases hs with rfl | rfl | rfl <;> simp) edge[s.1]! (by simp [hm.1])
      unfold begp endp
      rcases hm.2 with q | q
      · rw [if_pos q, if_pos q]
        exact fun q => this q.symm
      · rw [if_neg (by rw [q]; simp), if_neg (by rw [q]; simp)]
        exact this
    have l0 := lp (e0, o0) (by simp)
    have l1 := lp (e1, o1) (by simp)
    have l2 := lp (e2, o2) (by simp)
    have q0 := (mem_P.mp (endp_mem hC m0).1).2
    have q1 := (mem_P.mp (endp_mem hC m1).1).2
    have q2 := (mem_P.mp (endp_mem hC m2).1).2
    have X0 : (begp edge (e0, o0)).1 = (endp edge (e2, o2)).1 := by rw [c3]
    have X1 : (begp edge (e1, o1)).1 = (endp edge (e0, o0)).1 := by rw [a3]
    have X2 : (begp edge (e2, o2)).1 = (endp edge (e1, o1)).1 := by rw [b3]
    have all : ∀ {p : Fin 3 → Prop}, p 0 → p 1 → p 2 → ∀ j, p j := by
      intro p a b c j
      match j with
      | 0 => exact a
      | 1 => exact b
      | 2 => exact c
    refine ⟨![e0, e1, e2], ![o0, o1, o2], ![(endp edge (e2, o2)).1, (endp edge (e0, o0)).1, (endp edge (e1, o1)).1],
      ![(endp edge (e2, o2)).2, (endp edge (e0, o0)).2, (endp edge (e1, o1)).2], rfl, ⟨?_, ?_, ?_, ?_, ?_, ?_⟩⟩
    · exact all (mem_D.mp m0).1 (mem_D.mp m1).1 (mem_D.mp m2).1
    · exact all (mem_D.mp m0).2 (mem_D.mp m1).2 (mem_D.mp m2).2
    · exact all c3 a3 b3
    · refine all ?_ ?_ ?_
      · exact Prod.ext rfl (Nat.mod_eq_of_lt q0).symm
      · exact Prod.ext rfl (Nat.mod_eq_of_lt q1).symm
      · exact Prod.ext rfl (Nat.mod_eq_of_lt q2).symm
    · exact all q2 q0 q1
    · rw [X0] at l0
      rw [X1] at l1
      rw [X2] at l2
      refine all (all ?_ ?_ ?_) (all ?_ ?_ ?_) (all ?_ ?_ ?_) <;> intro q
      · rfl
      · exact absurd q l0
      · exact absurd q.symm l2
      · exact absurd q.symm l0
      · rfl
      · exact absurd q l1
      · exact absurd q l2
      · exact absurd q.symm l1
      · rfl

end Triangle

/-- **C66.** At a face with three edges of a plane diagram as `pd_regenerate` or a move leaves it, if no edge of the face is a loop
(so that the three corners are different crossings), `pd_R3_triangle_flip` always works. The result is the diagram with the triangle
turned over (`TriangleFlipped`, which says where each end of each edge is), up to the names of edges and crossings and the place at which
a crossing starts; all signs are kept. It is again such a diagram, with as many crossings, edges, faces and components as before, and
`pd_ok` accepts it in the buffers it comes in. -/
theorem C66_triangle_flip (qs qs' : QSort) (pd : Io.Pd) (hN : Neat pd) (hs : 2 * pd.edge.length < 2 ^ 31) (f : Nat) (F : Face)
    (hF : pd.face[f]? = some F) (h3 : F.edge.length = 3) (hl : ∀ e ∈ F.edge, ∀ r, pd.edge[e]? = some r → r.head ≠ r.tail) :
    ∃ (pd' : Io.Pd) (cross : List Cross) (edge : List Edge) (τ σ ρ : Nat → Nat),
      triangleFlip qs pd f = .ok (some (.code (Io.capsNew pd.cross.length) pd')) ∧
      TriangleFlipped pd.cross pd.edge F.edge cross edge ∧
      Renamed cross edge pd'.cross pd'.edge τ σ ρ (fun _ => false) ∧ SameSigns cross pd'.cross σ ∧
      Tidy pd'.cross pd'.edge pd'.comp pd'.face ∧ Neat pd' ∧ pdOk qs' (Io.capsNew pd.cross.length) pd' = .ok true ∧
      pd'.uid = pd.uid ∧ pd'.cross.length = pd.cross.length ∧ pd'.edge.length = pd.edge.length ∧
      pd'.face.length = pd.face.length ∧ pd'.comp.length = pd.comp.length := by
  have hT := hN.tidy
  have hP := hT.plane
  have hC := hP.consistent
  have hO := hP.oriented
  have hcnt := hC.count
  have hFm := List.mem_of_getElem? hF
  obtain ⟨e, o, X, k, hFe, t⟩ := Triangle.tri_of_face hC hT.goodFaces hFm h3 hl
  obtain ⟨cross, edge, r1, r2, B⟩ := Triangle.raw_ok hC hO t
  have hP' := B.plane_diagram hC hO t hP
  have len := B.len
  have elen := B.elen
  have h2 : 2 ≤ pd.cross.length := by
    have := t.inj 0 1
    have a := (Places.mem_P.mp (Faces.endp_mem hC (d := (e 0, o 0)) (Faces.mem_D.mpr ⟨t.lt 0, t.dir 0⟩)).1).1
    have b := (Places.mem_P.mp (Faces.endp_mem hC (d := (e 2, o 2)) (Faces.mem_D.mpr ⟨t.lt 2, t.dir 2⟩)).1).1
    rw [t.fin] at a b
    rcases Nat.lt_or_ge 1 pd.cross.length with q | q
    · exact q
    · have : X 0 = X 1 := by
        have a : X 1 < pd.cross.length := a
        have b : X 0 < pd.cross.length := b
        omega
      exact absurd (t.inj 0 1 this) (by decide)
  obtain ⟨c1, c2, x1, x2, comps, pd', τ, σ, ρ, a1, a2, a3, a4, a5, a6, a7, a8⟩ := rebuild_ok qs pd.cross.length pd.uid hP'
    (by omega) (by omega)
  have hk := goodComps_of_retag hT.goodComps
  have hcomps := comps_le hP hT.goodComps
  rw [retag_length] at hcomps
  have hf1 := hT.goodFaces.count
  have l1 := a5.len
  have l2 := a5.elen
  refine ⟨pd', cross, edge, τ, σ, ρ, ?_, by rw [hFe]; exact B, a5, a6, a7, a8, C51_ok_complete qs' _ pd' a7 (by omega), a4, by omega, by omega,
    ?_, ?_⟩
  · unfold triangleFlip Query.copy
    rw [C62_copy pd pd.cross.length hP.nonempty (by omega) (by omega) (by rw [hf1]; omega) hk.2.2.1
      (fun f hf => (hT.goodFaces.shape f hf).1), ok_bind, rd_eq_ok.mpr hF, ok_bind, if_neg (by simpa using h3)]
    simp only
    rw [hFe, r1, ok_bind, r2, ok_bind]
    simp only
    rw [Nat.max_eq_left (by omega), a1, ok_bind]
    simp only
    rw [a2, ok_bind]
    simp only
    rw [a3, ok_bind]
  · rw [hf1, a7.goodFaces.count]
    omega
  · obtain ⟨R, q1, q2⟩ := StrandCount.of_comps hC hO hT.goodComps
    have q3 := B.strands hC hO t q1
    have q4 := StrandCount.renamed a5 hP'.consistent hP'.oriented Regenerate.along_false q3
    have q5 := StrandCount.eq_comps a7.plane.consistent a7.plane.oriented a7.goodComps q4
    rw [List.length_map, q2, retag_length] at q5
    exact q5

/-- A face with another number of edges: the function returns the null pointer. (The copy it has made is lost.) -/
theorem C66_other_face (qs : QSort) (pd : Io.Pd) (hN : Neat pd) (f : Nat) (F : Face) (hF : pd.face[f]? = some F)
    (h3 : F.edge.length ≠ 3) : triangleFlip qs pd f = .ok none := by
  have hT := hN.tidy
  have hP := hT.plane
  have hcnt := hP.consistent.count
  have hk := goodComps_of_retag hT.goodComps
  have hcomps := comps_le hP hT.goodComps
  rw [retag_length] at hcomps
  have hf1 := hT.goodFaces.count
  unfold triangleFlip Query.copy
  have h0 := List.length_pos_iff.mpr hP.nonempty
  rw [C62_copy pd pd.cross.length hP.nonempty (by omega) (by omega) (by rw [hf1]; omega) hk.2.2.1
    (fun f hf => (hT.goodFaces.shape f hf).1), ok_bind, rd_eq_ok.mpr hF, ok_bind, if_pos h3]

/-! ### Concrete cases -/

/-- The trefoil as `pd_regenerate` leaves it. -/
def trefoilPd : Io.Pd := ⟨[], 0,
  [⟨0, 2, 5, 3, .pos⟩, ⟨0, 3, 1, 4, .pos⟩, ⟨1, 5, 2, 4, .pos⟩],
  [⟨1, 0, 0, 0⟩, ⟨2, 0, 1, 2⟩, ⟨0, 1, 2, 2⟩, ⟨1, 1, 0, 3⟩, ⟨2, 3, 1, 3⟩, ⟨0, 2, 2, 1⟩],
  [⟨[0, 1, 2, 3, 4, 5], 65⟩],
  [⟨[0, 4, 2], [.pos, .pos, .pos]⟩, ⟨[1, 3, 5], [.neg, .neg, .neg]⟩, ⟨[0, 3], [.neg, .pos]⟩, ⟨[1, 4], [.pos, .neg]⟩,
    ⟨[2, 5], [.neg, .pos]⟩]⟩

theorem Moves.trefoil_plane : PlaneDiagram trefoilPd.cross trefoilPd.edge := by
  have hC : Consistent trefoilPd.cross trefoilPd.edge := by decide
  refine ⟨hC, by decide, by decide, connected_of (by decide), planeFaces_of hC 6 (by decide) (by decide +kernel)
    [(0, .pos), (1, .neg), (0, .neg), (1, .pos), (2, .neg)] rfl (by decide) (by decide) (by decide +kernel) (by decide +kernel)⟩

theorem Moves.trefoil_neat : Neat trefoilPd := by
  obtain ⟨cross', edge', comps, faces, h1, h2, -⟩ := C51_regenerated_ok insQSort insQSort 3 trefoilPd.cross trefoilPd.edge trefoilPd.edge
    trefoil_plane (Or.inl ⟨rfl, _, List.mem_cons_self, by decide⟩) (by decide) (by decide)
  have h3 : Regenerate.regenerate insQSort (Io.capsNew 3).edges (Io.capsNew 3).comps (Io.capsNew 3).faces trefoilPd.cross trefoilPd.edge =
      .ok (trefoilPd.cross, trefoilPd.edge, trefoilPd.comp, trefoilPd.face) := by decide +kernel
  rw [h3] at h1
  cases h1
  exact Tidy.neat h2

example (qs : QSort) : ∃ (pd : Io.Pd), triangleFlip qs trefoilPd 0 = .ok (some (.code (Io.capsNew 3) pd)) ∧
    PlaneDiagram pd.cross pd.edge ∧ pd.cross.length = 3 ∧ pd.comp.length = 1 ∧ pd.face.length = 5 := by
  obtain ⟨pd, cross, edge, τ, σ, ρ, a1, -, -, -, a2, -, -, -, a3, -, a4, a5⟩ := C66_triangle_flip qs qs trefoilPd trefoil_neat (by decide)
    0 _ rfl rfl (by decide)
  exact ⟨pd, a1, a2.plane, a3, a5, a4⟩

example (qs : QSort) : triangleFlip qs trefoilPd 2 = .ok none := C66_other_face qs _ trefoil_neat 2 _ rfl (by decide)

/-- A diagram that `pd_ok` accepts: a circle with a loop on either side. Both faces with three edges have a loop among them; at one of them the program stops. -/
def curlsPd : Io.Pd := ⟨[], 0, [⟨0, 0, 1, 3, .unset⟩, ⟨1, 3, 2, 2, .pos⟩],
  [⟨0, 0, 0, 1⟩, ⟨1, 0, 0, 2⟩, ⟨1, 3, 1, 2⟩, ⟨0, 3, 1, 1⟩], [⟨[0, 1, 2, 3], 65⟩],
  [⟨[0, 3, 1], [.pos, .neg, .neg]⟩, ⟨[1, 2, 3], [.pos, .neg, .pos]⟩, ⟨[0], [.neg]⟩, ⟨[2], [.pos]⟩]⟩

theorem C66_loop_side_dies : pdOk insQSort (Io.capsNew 2) curlsPd = .ok true ∧ triangleFlip insQSort curlsPd 1 = .error .die := by
  decide +kernel

/-- Three loops taken off, one after the other. -/
def Moves.unloop : Nat → Moved → Res Moved
  | 0, m => .ok m
  | n + 1, .code caps pd => do
    let m ← loopDeletion insQSort caps.verts pd 0
    unloop n m
  | _, _ => .error .ub

/-- The signs are not looked at. The triangle of the trefoil cannot be turned over, because each of its strands runs over one of the
others and under the other one; the program turns it over all the same, and what comes out is the unknot with three loops. -/
theorem C66_trefoil_unknotted : (do
    match ← triangleFlip insQSort trefoilPd 0 with
    | none => .error .ub
    | some m => unloop 3 m) = .ok (.unknot 0) := by decide +kernel

end Plc
