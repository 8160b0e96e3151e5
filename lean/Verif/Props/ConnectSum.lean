import Verif.Proofs.ConnectSum
import Verif.Proofs.StrandCount
import Verif.Props.MovesFull
import Verif.Props.Io

/-! # C64: the connected sum of two diagrams -/

namespace Plc

open Plc.Cmp Plc.Core Plc.Ok Plc.Moves Plc.ConnectSum
open Plc.Isotopy (retag retag_length retag_edges retag_get)

/-- `pd_regenerate`, hash included, of a plane diagram, whether or not it has signs. -/
theorem Regenerate.regeneratePd_plane (qs : QSort) (mv : Nat) (pd : Io.Pd) (h : PlaneDiagram pd.cross pd.edge) (hmv : pd.cross.length ≤ mv)
    (hsmall : 2 * pd.edge.length < 2 ^ 31) :
    ∃ (pd' : Io.Pd) (τ σ ρ : Nat → Nat) (rev : Nat → Bool), Unpack.regeneratePd qs (Io.capsNew mv) pd = .ok pd' ∧ pd'.uid = pd.uid ∧
      Renamed pd.cross pd.edge pd'.cross pd'.edge τ σ ρ rev ∧ Renamed.Along pd.cross pd.edge rev ∧ SameSigns pd.cross pd'.cross σ ∧
      ((∃ x ∈ pd.cross, x.sign ≠ .unset) → ∀ e, rev e = false) ∧ Tidy pd'.cross pd'.edge pd'.comp pd'.face := by
  have key : ∃ cross' edge' comps faces τ σ ρ rev,
      Regenerate.regenerate qs (Io.capsNew mv).edges (Io.capsNew mv).comps (Io.capsNew mv).faces pd.cross pd.edge =
        .ok (cross', edge', comps, faces) ∧ Renamed pd.cross pd.edge cross' edge' τ σ ρ rev ∧ Renamed.Along pd.cross pd.edge rev ∧
      SameSigns pd.cross cross' σ ∧ ((∃ x ∈ pd.cross, x.sign ≠ .unset) → ∀ e, rev e = false) ∧ Tidy cross' edge' comps faces := by
    by_cases hs : ∃ x ∈ pd.cross, x.sign ≠ .unset
    · obtain ⟨cross', edge', comps, faces, τ, σ, ρ, a1, a2, a3, a4, a5, a6⟩ := C49_regenerate_keeps qs mv pd.cross pd.edge h hs hmv hsmall
      exact ⟨cross', edge', comps, faces, τ, σ, ρ, _, a1, a2, Regenerate.along_false, a3, fun _ _ => rfl,
        regenerate_tidy a1 (h.renamed a2 Regenerate.along_false) a4 a5 a6 (by rw [a2.elen]; exact hsmall)⟩
    · have hs' : ∀ x ∈ pd.cross, x.sign = .unset := by
        intro x hx
        by_contra hne
        exact hs ⟨x, hx, hne⟩
      obtain ⟨cross', edge', comps, faces, τ, σ, ρ, rev, a1, a2, a3, a4, a5, a6, a7, a8⟩ := C49_regenerate_rebuilds qs mv pd.cross pd.edge
        pd.edge h (by
          intro r hr
          obtain ⟨e, he⟩ := List.mem_iff_getElem?.mp hr
          exact ⟨(slot_lt (h.consistent.head e r he)).1, (slot_lt (h.consistent.tail e r he)).1⟩) (.inl hs') hmv hsmall
      refine ⟨cross', edge', comps, faces, τ, σ, ρ, rev, a1, a2, a3, ?_, fun q => absurd q hs,
        regenerate_tidy a1 a4 a6 a7 a8 (by rw [a2.elen]; exact hsmall)⟩
      intro c x hx
      obtain ⟨x', b1, -⟩ := a2.cross c x hx
      exact ⟨x', b1, by rw [a5 x' (List.mem_of_getElem? b1), hs' x (List.mem_of_getElem? hx)]⟩
  obtain ⟨cross', edge', comps, faces, τ, σ, ρ, rev, a1, a2, a3, a4, a5, a6⟩ := key
  obtain ⟨hash, b1, -⟩ := C50_hash_computed qs cross' edge' faces comps a6.goodFaces
  refine ⟨⟨hash, pd.uid, cross', edge', comps, faces⟩, τ, σ, ρ, rev, ?_, rfl, a2, a3, a4, a5, a6⟩
  unfold Unpack.regeneratePd
  rw [a1, ok_bind]
  simp only
  rw [b1, ok_bind]

/-- **C64.** The connected sum of two diagrams along an edge of each is the two diagrams next to each other, with the heads of the two
edges exchanged (so the first edge now runs into the second diagram and the second edge back into the first), up to the names of edges
and crossings and the place at which a crossing starts. Every sign is kept, the result is a plane diagram that `pd_ok` accepts, and it
has one component less and two faces less than the two diagrams together. If some crossing has a sign then all directions are kept;
if none has, whole strands may be turned around. -/
theorem C64_connect_sum (qs qs' : QSort) (capsA capsB : Io.Caps) (pdA pdB : Io.Pd) (hA : Neat pdA) (hB : Neat pdB)
    (fA : Io.Fits capsA pdA) (fB : Io.Fits capsB pdB) (a b : Nat) (ha : a < pdA.edge.length) (hb : b < pdB.edge.length)
    (hsmall : 2 * (pdA.edge.length + pdB.edge.length) < 2 ^ 31) :
    ∃ (pd : Io.Pd) (cross : List Cross) (edge : List Edge) (τ σ ρ : Nat → Nat) (rev : Nat → Bool),
      connectSum qs capsA pdA a capsB pdB b = .ok (Io.capsNew (pdA.cross.length + pdB.cross.length), pd) ∧
      HeadsSwapped (besideCross pdA.cross pdA.edge.length pdB.cross) (besideEdge pdA.edge pdA.cross.length pdB.edge)
        a (pdA.edge.length + b) cross edge ∧
      Renamed cross edge pd.cross pd.edge τ σ ρ rev ∧ Renamed.Along cross edge rev ∧ SameSigns cross pd.cross σ ∧
      ((∃ x ∈ pdA.cross ++ pdB.cross, x.sign ≠ .unset) → ∀ e, rev e = false) ∧
      Tidy pd.cross pd.edge pd.comp pd.face ∧ Neat pd ∧
      pdOk qs' (Io.capsNew (pdA.cross.length + pdB.cross.length)) pd = .ok true ∧ pd.uid = 0 ∧
      pd.cross.length = pdA.cross.length + pdB.cross.length ∧ pd.edge.length = pdA.edge.length + pdB.edge.length ∧
      pd.comp.length + 1 = pdA.comp.length + pdB.comp.length ∧ pd.face.length + 2 = pdA.face.length + pdB.face.length := by
  have pA := hA.tidy.plane
  have pB := hB.tidy.plane
  have cA := pA.consistent
  have cB := pB.consistent
  have nA := cA.count
  have nB := cB.count
  have hpos : 0 < pdA.cross.length := List.length_pos_of_ne_nil pA.nonempty
  have kA := (goodComps_of_retag hA.tidy.goodComps).1
  have kB := (goodComps_of_retag hB.tidy.goodComps).1
  have cU := Beside.consistent cA cB
  have oU := Beside.oriented pA.oriented pB.oriented
  have la : a < (besideEdge pdA.edge pdA.cross.length pdB.edge).length := by rw [Beside.edge_len]; omega
  have lb : pdA.edge.length + b < (besideEdge pdA.edge pdA.cross.length pdB.edge).length := by rw [Beside.edge_len]; omega
  obtain ⟨t, C0, E0, r1, r2, r3⟩ := raw_ok qs (caps := Io.capsNew (pdA.cross.length + pdB.cross.length)) cA cB (kA ▸ List.Perm.refl _)
    (kB ▸ List.Perm.refl _) ha hb (by simp only [Io.capsNew]; omega) (by simp only [Io.capsNew]; omega) (by unfold UNSET_IDX; omega)
  have c0 := r1.consistent cU
  have hne : t a ≠ t (pdA.edge.length + b) := by
    intro h
    have := r1.tinj _ _ la lb h
    omega
  obtain ⟨C1, E1, s1, s2⟩ := exchange_ok c0 (by rw [r1.elen]; exact r1.tlt _ la) (by rw [r1.elen]; exact r1.tlt _ lb) hne
  obtain ⟨cross, edge, -, h2⟩ := exchange_ok cU la lb (by omega)
  obtain ⟨m1, m2⟩ := swapped_renamed r1 cU la lb h2 s2
  have m3 := m2 r2
  have hP := Beside.sum_plane pA pB ha hb h2
  have hP1 := hP.renamed m1 Regenerate.along_false
  have hl1 : C1.length = pdA.cross.length + pdB.cross.length := by rw [m1.len, h2.len, Beside.cross_len]
  have hl2 : E1.length = pdA.edge.length + pdB.edge.length := by rw [m1.elen, h2.elen, Beside.edge_len]
  obtain ⟨pd, τ, σ, ρ, rev, g1, g2, g3, g4, g5, g6, g7⟩ := Regenerate.regeneratePd_plane qs (pdA.cross.length + pdB.cross.length)
    ⟨[' '], 0, C1, E1, [], []⟩ hP1 (by simp only [hl1]; omega) (by simp only [hl2]; exact hsmall)
  simp only at g1 g2 g3 g4 g5 g6 g7
  have T := m1.trans g3 hP.consistent
  have al : Renamed.Along cross edge (fun e => xor false (rev (t e))) := by
    intro e f hef
    have := g4 _ _ (m1.follows hP.consistent hP.oriented Regenerate.along_false hef)
    simp only [Bool.false_xor]
    exact this
  have hT := Tidy.neat g7
  have hlc : pd.cross.length = pdA.cross.length + pdB.cross.length := by rw [g3.len, hl1]
  have hle : pd.edge.length = pdA.edge.length + pdB.edge.length := by rw [g3.elen, hl2]
  refine ⟨pd, cross, edge, _, _, _, _, ?_, h2, T, al, SameSigns.trans m3 g5, ?_, g7, hT, C51_ok_complete qs' _ pd g7 (by omega), g2, hlc, hle, ?_, ?_⟩
  · unfold connectSum
    rw [hA.ok qs fA.2.1 fA.2.2.1 fA.2.2.2, ok_bind, assertC_ok rfl, ok_bind, hB.ok qs fB.2.1 fB.2.2.1 fB.2.2.2, ok_bind, assertC_ok rfl,
      ok_bind, assertC_ok (by simpa using ha), ok_bind, assertC_ok (by simpa using hb), ok_bind,
      assertC_ok (by rw [decide_eq_true_iff]; omega), ok_bind]
    simp only
    rw [r3, s1, ok_bind]
    simp only
    rw [g1, ok_bind, C51_ok_complete qs _ pd g7 (by omega), ok_bind, assertC_ok rfl, ok_bind]
  · rintro ⟨x, hx, hne⟩ e
    rw [Bool.false_xor]
    apply g6
    obtain ⟨c, hc⟩ : ∃ (c : Nat) (y : Cross), (besideCross pdA.cross pdA.edge.length pdB.cross)[c]? = some y ∧ y.sign = x.sign := by
      rcases List.mem_append.mp hx with h | h
      · obtain ⟨c, hc⟩ := List.mem_iff_getElem?.mp h
        exact ⟨c, x, by rw [Beside.cross_left (List.getElem?_eq_some_iff.mp hc).1]; exact hc, rfl⟩
      · obtain ⟨c, hc⟩ := List.mem_iff_getElem?.mp h
        exact ⟨pdA.cross.length + c, shiftCross _ x, by rw [Beside.cross_right, hc]; rfl, rfl⟩
    obtain ⟨y, hy, hs⟩ := hc
    obtain ⟨z, h3, h4, -⟩ := h2.slots c y hy
    obtain ⟨w, h5, h6⟩ := m3 c z h3
    exact ⟨w, List.mem_of_getElem? h5, by rw [h6, h4, hs]; exact hne⟩
  · obtain ⟨RA, q1, q2⟩ := StrandCount.of_comps cA pA.oriented hA.tidy.goodComps
    obtain ⟨RB, q3, q4⟩ := StrandCount.of_comps cB pB.oriented hB.tidy.goodComps
    have q5 := StrandCount.beside_reps cA cB pA.oriented pB.oriented q1 q3
    obtain ⟨R, q6, q7⟩ := StrandCount.swapped_merge h2 cU oU la lb (by
      intro h
      have := StrandCount.strands_left cA cB pA.oriented pB.oriented ha h
      omega) q5
    have q8 := StrandCount.renamed T hP.consistent hP.oriented al q6
    have q9 := StrandCount.eq_comps g7.plane.consistent g7.plane.oriented g7.goodComps q8
    rw [List.length_map] at q9
    rw [List.length_append, List.length_map, q2, q4, retag_length, retag_length] at q7
    omega
  · rw [g7.goodFaces.count, hA.tidy.goodFaces.count, hB.tidy.goodFaces.count, hlc]
    omega

/-- **C64, edges out of range.** The program stops. -/
theorem C64_bad_edge (qs : QSort) (capsA capsB : Io.Caps) (pdA pdB : Io.Pd) (hA : pdOk qs capsA pdA = .ok true)
    (hB : pdOk qs capsB pdB = .ok true) (a b : Nat) (h : pdA.edge.length ≤ a ∨ pdB.edge.length ≤ b) :
    connectSum qs capsA pdA a capsB pdB b = .error .die := by
  unfold connectSum
  rw [hA, ok_bind, assertC_ok rfl, ok_bind, hB, ok_bind, assertC_ok rfl, ok_bind]
  by_cases ha : a < pdA.edge.length
  · rw [assertC_ok (by simpa using ha), ok_bind]
    have hb : ¬ b < pdB.edge.length := by omega
    simp [assertC, hb, error_bind]
  · simp [assertC, ha, error_bind]

/-- **C64, the unknot without crossings.** `pd_ok` accepts it and its edge 0 is in range, but its head is `PD_UNSET_IDX`, and the table
of crossings is read at that number: undefined behaviour, for every second diagram. -/
theorem C64_unknot_first (qs : QSort) (capsA capsB : Io.Caps) (pdA pdB : Io.Pd) (hA : pdOk qs capsA pdA = .ok true) (hB : Neat pdB)
    (fB : Io.Fits capsB pdB) (b tag : Nat) (hb : b < pdB.edge.length) (h0 : pdA.cross = [])
    (h1 : pdA.edge = [⟨UNSET_IDX, UNSET_POS, UNSET_IDX, UNSET_POS⟩]) (h2 : pdA.comp = [⟨[0], tag⟩]) :
    connectSum qs capsA pdA 0 capsB pdB b = .error .ub := by
  have pB := hB.tidy.plane
  have cB := pB.consistent
  have nB := cB.count
  have small := hB.tidy.small
  have hpos : 0 < pdB.cross.length := List.length_pos_of_ne_nil pB.nonempty
  have kB : (pdB.comp.flatMap (·.edge)).Perm (List.range pdB.edge.length) := by rw [(goodComps_of_retag hB.tidy.goodComps).1]
  have l0 : pdA.cross.length = 0 := by rw [h0]; rfl
  have l1 : pdA.edge.length = 1 := by rw [h1]; rfl
  have kA : (pdA.comp.flatMap (·.edge)).Perm (List.range pdA.edge.length) := by rw [l1, h2]; exact List.Perm.refl _
  obtain ⟨jA, pA, KA, a1, a2, a3⟩ := compAndPos_get kA (e := 0) (by omega)
  obtain ⟨jB, pB, KB, b1, b2, b3⟩ := compAndPos_get kB hb
  have hpA := (List.getElem?_eq_some_iff.mp a3).1
  obtain ⟨ttA, t1, t2, t3, t4⟩ := tableA_ok KB.edge.length a2 kA hpA
  obtain ⟨ttB, u1, u2, u3⟩ := tableB_ok (pos := pB) (1 + pA) pdA.edge.length b2 kB
  have hperm := tables_perm (kA := KA.edge.length) (p := pA) (by omega) rfl (comp_le kA a2) (comp_le kB b2) t3 u3
  have hlt : ∀ e ∈ ttA ++ ttB, e < pdA.edge.length + pdB.edge.length := by
    intro e h
    exact List.mem_range.mp (hperm.mem_iff.mp h)
  obtain ⟨X2, y1, -⟩ := copyCrosses_ok (tt := ttB) (ct := List.range' pdA.cross.length pdB.cross.length) (src := pdB.cross)
    (buf := List.replicate (Io.capsNew (pdA.cross.length + pdB.cross.length)).verts zeroCross) (by
      intro x hx k
      obtain ⟨c, hc⟩ := List.mem_iff_getElem?.mp hx
      rw [u2]
      exact cB.slot_edge_lt (at_eq_slot hc)) (by simp) List.nodup_range' (by
      intro c hc
      rw [List.mem_range'_1] at hc
      rw [List.length_replicate]
      simp only [Io.capsNew]
      omega)
  have unset : ∀ tt : List Nat, (∀ e ∈ tt, e < pdA.edge.length + pdB.edge.length) →
      tt.all (fun e => decide (e ≠ UNSET_IDX)) = true := by
    intro tt h
    rw [List.all_eq_true]
    intro e he
    have := h e he
    rw [decide_eq_true_iff]
    unfold UNSET_IDX
    omega
  have x1 : copyCrosses ttA (List.range pdA.cross.length) pdA.cross 0
      (List.replicate (Io.capsNew (pdA.cross.length + pdB.cross.length)).verts zeroCross) =
      .ok (List.replicate (Io.capsNew (pdA.cross.length + pdB.cross.length)).verts zeroCross) := by rw [h0]; rfl
  have z1 : copyEdges ttA (List.range pdA.cross.length) pdA.edge 0
      (List.replicate (Io.capsNew (pdA.cross.length + pdB.cross.length)).edges zeroEdge) = .error .ub := by
    rw [h1, l0]
    unfold copyEdges
    rw [rd_lt (by omega), ok_bind]
    rfl
  unfold connectSum
  rw [hA, ok_bind, assertC_ok rfl, ok_bind, hB.ok qs fB.2.1 fB.2.2.1 fB.2.2.2, ok_bind, assertC_ok rfl,
    ok_bind, assertC_ok (by simp [l1]), ok_bind, assertC_ok (by simpa using hb), ok_bind,
    assertC_ok (by rw [decide_eq_true_iff]; omega), ok_bind]
  simp only
  unfold raw
  rw [a1, ok_bind]
  simp only
  rw [b1, ok_bind]
  simp only
  rw [rd_eq_ok.mpr a2, ok_bind, rd_eq_ok.mpr b2, ok_bind, t1, ok_bind, u1, ok_bind,
    assertC_ok (unset ttA (fun e h => hlt e (by simp [h]))), ok_bind, assertC_ok (unset ttB (fun e h => hlt e (by simp [h]))), ok_bind,
    assertC_ok (by rw [sort_range qs hperm]; simp), ok_bind, x1, ok_bind, y1, ok_bind, z1, error_bind, error_bind]

/-- The unknot second. -/
theorem C64_unknot_second (qs : QSort) (capsA capsB : Io.Caps) (pdA pdB : Io.Pd) (hA : Neat pdA) (fA : Io.Fits capsA pdA)
    (hB : pdOk qs capsB pdB = .ok true) (a tag : Nat) (ha : a < pdA.edge.length) (h0 : pdB.cross = [])
    (h1 : pdB.edge = [⟨UNSET_IDX, UNSET_POS, UNSET_IDX, UNSET_POS⟩]) (h2 : pdB.comp = [⟨[0], tag⟩]) :
    connectSum qs capsA pdA a capsB pdB 0 = .error .ub := by
  have cA := hA.tidy.plane.consistent
  have nA := cA.count
  have small := hA.tidy.small
  have hpos : 0 < pdA.cross.length := List.length_pos_of_ne_nil hA.tidy.plane.nonempty
  have kA : (pdA.comp.flatMap (·.edge)).Perm (List.range pdA.edge.length) := by rw [(goodComps_of_retag hA.tidy.goodComps).1]
  have l0 : pdB.cross.length = 0 := by rw [h0]; rfl
  have l1 : pdB.edge.length = 1 := by rw [h1]; rfl
  have kB : (pdB.comp.flatMap (·.edge)).Perm (List.range pdB.edge.length) := by rw [l1, h2]; exact List.Perm.refl _
  obtain ⟨jA, pA, KA, a1, a2, a3⟩ := compAndPos_get kA ha
  obtain ⟨jB, pB, KB, b1, b2, b3⟩ := compAndPos_get kB (e := 0) (by omega)
  have hpA := (List.getElem?_eq_some_iff.mp a3).1
  obtain ⟨ttA, t1, t2, t3, t4⟩ := tableA_ok KB.edge.length a2 kA hpA
  obtain ⟨ttB, u1, u2, u3⟩ := tableB_ok (pos := pB) (1 + pA) pdA.edge.length b2 kB
  have hperm := tables_perm (kA := KA.edge.length) (p := pA) (by omega) rfl (comp_le kA a2) (comp_le kB b2) t3 u3
  have hlt : ∀ e ∈ ttA ++ ttB, e < pdA.edge.length + pdB.edge.length := by
    intro e h
    exact List.mem_range.mp (hperm.mem_iff.mp h)
  have hnd : ttA.Nodup := (List.nodup_append.mp (hperm.nodup_iff.mpr List.nodup_range)).1
  obtain ⟨X1, x1, -⟩ := copyCrosses_ok (tt := ttA) (ct := List.range pdA.cross.length) (src := pdA.cross)
    (buf := List.replicate (Io.capsNew (pdA.cross.length + pdB.cross.length)).verts zeroCross) (by
      intro x hx k
      obtain ⟨c, hc⟩ := List.mem_iff_getElem?.mp hx
      rw [t2]
      exact cA.slot_edge_lt (at_eq_slot hc)) (by simp) List.nodup_range (by
      intro c hc
      rw [List.mem_range] at hc
      rw [List.length_replicate]
      simp only [Io.capsNew]
      omega)
  obtain ⟨Y1, z1, -⟩ := copyEdges_ok (tt := ttA) (ct := List.range pdA.cross.length) (src := pdA.edge)
    (buf := List.replicate (Io.capsNew (pdA.cross.length + pdB.cross.length)).edges zeroEdge) (by
      intro r hr
      obtain ⟨e, he⟩ := List.mem_iff_getElem?.mp hr
      rw [List.length_range]
      exact ⟨(slot_lt (cA.head e r he)).1, (slot_lt (cA.tail e r he)).1⟩) t2 hnd (by
      intro c hc
      rw [List.length_replicate]
      have := hlt c (by simp [hc])
      simp only [Io.capsNew]
      omega)
  have unset : ∀ tt : List Nat, (∀ e ∈ tt, e < pdA.edge.length + pdB.edge.length) →
      tt.all (fun e => decide (e ≠ UNSET_IDX)) = true := by
    intro tt h
    rw [List.all_eq_true]
    intro e he
    have := h e he
    rw [decide_eq_true_iff]
    unfold UNSET_IDX
    omega
  have y1 : copyCrosses ttB (List.range' pdA.cross.length pdB.cross.length) pdB.cross 0 X1 = .ok X1 := by rw [h0]; rfl
  have w1 : copyEdges ttB (List.range' pdA.cross.length pdB.cross.length) pdB.edge 0 Y1 = .error .ub := by
    rw [h1, l0]
    unfold copyEdges
    rw [rd_lt (by omega), ok_bind]
    rfl
  unfold connectSum
  rw [hA.ok qs fA.2.1 fA.2.2.1 fA.2.2.2, ok_bind, assertC_ok rfl, ok_bind, hB, ok_bind, assertC_ok rfl,
    ok_bind, assertC_ok (by simpa using ha), ok_bind, assertC_ok (by simp [l1]), ok_bind,
    assertC_ok (by rw [decide_eq_true_iff]; omega), ok_bind]
  simp only
  unfold raw
  rw [a1, ok_bind]
  simp only
  rw [b1, ok_bind]
  simp only
  rw [rd_eq_ok.mpr a2, ok_bind, rd_eq_ok.mpr b2, ok_bind, t1, ok_bind, u1, ok_bind,
    assertC_ok (unset ttA (fun e h => hlt e (by simp [h]))), ok_bind, assertC_ok (unset ttB (fun e h => hlt e (by simp [h]))), ok_bind,
    assertC_ok (by rw [sort_range qs hperm]; simp), ok_bind, x1, ok_bind, y1, ok_bind, z1, ok_bind, w1, error_bind, error_bind]

/-- Two unknots without crossings: `pd_code_new` is asked for no crossings at all, and the program stops. -/
theorem C64_unknot_both (qs : QSort) (capsA capsB : Io.Caps) (pdA pdB : Io.Pd) (hA : pdOk qs capsA pdA = .ok true)
    (hB : pdOk qs capsB pdB = .ok true) (a b : Nat) (h0 : pdA.cross = []) (h1 : pdB.cross = []) :
    connectSum qs capsA pdA a capsB pdB b = .error .die := by
  unfold connectSum
  rw [hA, ok_bind, assertC_ok rfl, ok_bind, hB, ok_bind, assertC_ok rfl, ok_bind]
  by_cases ha : a < pdA.edge.length
  · rw [assertC_ok (by simpa using ha), ok_bind]
    by_cases hb : b < pdB.edge.length
    · rw [assertC_ok (by simpa using hb), ok_bind]
      simp [assertC, h0, h1, error_bind]
    · simp [assertC, hb, error_bind]
  · simp [assertC, ha, error_bind]

/-! ### Concrete cases -/

section

/-- The Hopf link joined to a figure eight: three crossings, two components, five faces. -/
example (qs : QSort) : ∃ (pd : Io.Pd), connectSum qs (Io.capsNew 2) isoHopf 1 (Io.capsNew 1) eightPd 0 = .ok (Io.capsNew 3, pd) ∧
    PlaneDiagram pd.cross pd.edge ∧ pd.cross.length = 3 ∧ pd.comp.length = 2 ∧ pd.face.length = 5 := by
  obtain ⟨pd, cross, edge, τ, σ, ρ, rev, a1, -, -, -, -, -, a2, -, -, -, a3, -, a4, a5⟩ := C64_connect_sum qs qs (Io.capsNew 2) (Io.capsNew 1)
    isoHopf eightPd isoHopf_neat eight_neat (by unfold Io.Fits; decide) (by unfold Io.Fits; decide) 1 0 (by decide) (by decide) (by decide)
  have k1 : isoHopf.comp.length = 2 := rfl
  have k2 : eightPd.comp.length = 1 := rfl
  have k3 : isoHopf.face.length = 4 := rfl
  have k4 : eightPd.face.length = 3 := rfl
  exact ⟨pd, a1, a2.plane, a3, by omega, by omega⟩

example : pdOk insQSort (Io.capsNew 0) Io.unknotPd = .ok true := by decide +kernel

example : connectSum insQSort (Io.capsNew 0) Io.unknotPd 0 (Io.capsNew 1) eightPd 1 = .error .ub := by
  refine C64_unknot_first insQSort _ _ _ _ (by decide +kernel) eight_neat (by unfold Io.Fits; decide) 1 67 (by decide) rfl rfl rfl

example : connectSum insQSort (Io.capsNew 1) eightPd 1 (Io.capsNew 0) Io.unknotPd 0 = .error .ub := by
  refine C64_unknot_second insQSort _ _ _ _ eight_neat (by unfold Io.Fits; decide) (by decide +kernel) 1 67 (by decide) rfl rfl rfl

end

end Plc
