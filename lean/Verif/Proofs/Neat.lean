import Verif.Model.MovesFull
import Verif.Props.Ok
import Verif.Props.HashGen
import Verif.Proofs.Isotopy

/-! Diagrams in the state the moves leave them in: as after `pd_regenerate`, but with tags of their own. -/

namespace Plc

open Plc.Cmp Plc.Core Plc.Ok Plc.Moves
open Plc.Isotopy (retag retag_length retag_edges retag_get)

/-- A plane diagram with all records as `pd_regenerate` leaves them, except that tags need only be different and, if there is
more than one, from `A` on, where the smallest may lie before `A`. -/
structure Neat (pd : Io.Pd) : Prop where
  tidy : Tidy pd.cross pd.edge (retag pd.comp) pd.face
  tags : (pd.comp.map (·.tag)).Nodup
  letters : ∀ k ∈ pd.comp, k.tag < 65 → ∀ k' ∈ pd.comp, k.tag ≤ k'.tag

namespace Moves

theorem flatMap_edges (a b : List Comp) (h : a.map (·.edge) = b.map (·.edge)) : a.flatMap (·.edge) = b.flatMap (·.edge) := by
  rw [List.flatMap_def, List.flatMap_def, h]

theorem mem_retag {comps : List Comp} {k : Comp} (h : k ∈ retag comps) : ∃ k' ∈ comps, k'.edge = k.edge := by
  have : k.edge ∈ (retag comps).map (·.edge) := List.mem_map_of_mem h
  rw [retag_edges] at this
  obtain ⟨k', h1, h2⟩ := List.mem_map.mp this
  exact ⟨k', h1, h2⟩

theorem mem_of_retag {comps : List Comp} {k : Comp} (h : k ∈ comps) : ∃ k' ∈ retag comps, k'.edge = k.edge := by
  have : k.edge ∈ comps.map (·.edge) := List.mem_map_of_mem h
  rw [← retag_edges] at this
  obtain ⟨k', h1, h2⟩ := List.mem_map.mp this
  exact ⟨k', h1, h2⟩

/-- Components with tags of their own. -/
theorem goodComps_retag {cross : List Cross} {edge : List Edge} {comps : List Comp}
    (all : comps.flatMap (·.edge) = List.range edge.length)
    (longest : comps.Pairwise (fun a b => b.edge.length ≤ a.edge.length)) (nonempty : ∀ c ∈ comps, c.edge ≠ [])
    (follow : ∀ c ∈ comps, ∀ (j e : Nat), c.edge[j]? = some e →
      ∃ e', c.edge[(j + 1) % c.edge.length]? = some e' ∧ Follows cross edge e e') : GoodComps cross edge (retag comps) where
  all := by rw [flatMap_edges _ _ (retag_edges comps), all]
  longest := by
    have h1 : (comps.map (·.edge)).Pairwise (fun a b => b.length ≤ a.length) := List.pairwise_map.mpr longest
    rw [← retag_edges] at h1
    exact List.pairwise_map.mp h1
  nonempty := by
    intro c hc
    obtain ⟨k, h1, h2⟩ := mem_retag hc
    rw [← h2]
    exact nonempty k h1
  follow := by
    intro c hc
    obtain ⟨k, h1, h2⟩ := mem_retag hc
    rw [← h2]
    exact follow k h1
  tags := by
    apply List.ext_getElem?
    intro i
    rw [List.getElem?_map, retag_get, retag_length]
    by_cases h : i < comps.length
    · rw [List.getElem?_eq_getElem h, List.getElem?_range' h]
      simp
    · rw [List.getElem?_eq_none (by omega), List.getElem?_eq_none (by rw [List.length_range']; omega)]
      rfl

theorem goodComps_of_retag {cross : List Cross} {edge : List Edge} {comps : List Comp} (h : GoodComps cross edge (retag comps)) :
    comps.flatMap (·.edge) = List.range edge.length ∧ comps.Pairwise (fun a b => b.edge.length ≤ a.edge.length) ∧
    (∀ c ∈ comps, c.edge ≠ []) ∧ (∀ c ∈ comps, ∀ (j e : Nat), c.edge[j]? = some e →
      ∃ e', c.edge[(j + 1) % c.edge.length]? = some e' ∧ Follows cross edge e e') := by
  refine ⟨by rw [← flatMap_edges _ _ (retag_edges comps), h.all], ?_, ?_, ?_⟩
  · have h1 : ((retag comps).map (·.edge)).Pairwise (fun a b => b.length ≤ a.length) := List.pairwise_map.mpr h.longest
    rw [retag_edges] at h1
    exact List.pairwise_map.mp h1
  · intro c hc
    obtain ⟨k, h1, h2⟩ := mem_of_retag hc
    rw [← h2]
    exact h.nonempty k h1
  · intro c hc
    obtain ⟨k, h1, h2⟩ := mem_of_retag hc
    rw [← h2]
    exact h.follow k h1

theorem retag_eq {comps : List Comp} (h : comps.map (·.tag) = List.range' 65 comps.length) : retag comps = comps := by
  apply List.ext_getElem?
  intro i
  rw [retag_get]
  have := congrArg (fun l => l[i]?) h
  simp only [List.getElem?_map] at this
  cases hi : comps[i]? with
  | none => rfl
  | some k =>
    rw [hi] at this
    have hl := (List.getElem?_eq_some_iff.mp hi).1
    rw [List.getElem?_range' hl] at this
    simp only [Option.map_some, Option.some.injEq] at this
    rw [Option.map_some]
    have e : 65 + i = k.tag := by omega
    rw [e]

theorem _root_.Plc.Tidy.neat {pd : Io.Pd} (h : Tidy pd.cross pd.edge pd.comp pd.face) : Neat pd where
  tidy := by rw [retag_eq h.goodComps.tags]; exact h
  tags := by rw [h.goodComps.tags]; exact List.nodup_range'
  letters := by
    intro k hk hlt
    have : k.tag ∈ pd.comp.map (·.tag) := List.mem_map_of_mem hk
    rw [h.goodComps.tags, List.mem_range'_1] at this
    omega

theorem _root_.Plc.Neat.tidy_of {pd : Io.Pd} (h : Neat pd) (ht : pd.comp.map (·.tag) = List.range' 65 pd.comp.length) :
    Tidy pd.cross pd.edge pd.comp pd.face := by
  have := h.tidy
  rwa [retag_eq ht] at this

/-- `pd_ok` accepts such diagrams in buffers that are large enough. -/
theorem _root_.Plc.Neat.ok {pd : Io.Pd} (h : Neat pd) (qs : QSort) {caps : Io.Caps} (he : pd.edge.length ≤ caps.edges)
    (hc : pd.comp.length ≤ caps.comps) (hf : pd.face.length ≤ caps.faces) : pdOk qs caps pd = .ok true := by
  have hP := h.tidy.plane
  have hC := hP.consistent
  have hcnt := hC.count
  have hs := h.tidy.small
  obtain ⟨h1, h2⟩ := C23_checks_accept caps.edges pd.cross pd.edge hC hP.oriented hP.nonempty he (by omega)
    (h.tidy.canonical.strict.imp (fun q => lt_asymm q))
  unfold pdOk
  rw [bind_ite_ok, bind_ite_ok, bind_ite_ok]
  refine ⟨h1, h2, (facesOk_iff hP.nonempty ?_ (by omega) (fun f hf => (faces_small h.tidy.goodFaces hs f hf).2)).mpr
    ⟨hf, faceRecords_of h.tidy.goodFaces h.tidy.sorted⟩, (compsOk_iff hP.nonempty).mpr ⟨hc, ?_⟩⟩
  · intro r hr
    obtain ⟨e, he⟩ := List.mem_iff_getElem?.mp hr
    exact ⟨(slot_lt (hC.head e r he)).2, (slot_lt (hC.tail e r he)).2⟩
  · have hK := compRecords_of hC hP.oriented h.tidy.goodComps
    refine ⟨by rw [← flatMap_edges _ _ (retag_edges pd.comp), hK.all], ?_, h.tags, h.letters⟩
    intro k hk
    obtain ⟨k', a, b⟩ := mem_of_retag hk
    rw [← b]
    exact hK.follow k' a

/-- The last steps of a move. -/
theorem withFaces_ok (qs : QSort) {maxfaces uid : Nat} {cross : List Cross} {edge : List Edge} {comps : List Comp}
    (hP : PlaneDiagram cross edge) (hS : SortedCross cross) (hcan : ∀ x ∈ cross, ∃ y, x = canonorderCross y .pos)
    (hK : GoodComps cross edge (retag comps)) (hs : 2 * edge.length < 2 ^ 31) (hf : cross.length + 2 ≤ maxfaces)
    (ht : (comps.map (·.tag)).Nodup) (hl : ∀ k ∈ comps, k.tag < 65 → ∀ k' ∈ comps, k.tag ≤ k'.tag) :
    ∃ pd', withFaces qs maxfaces uid cross edge comps = .ok pd' ∧ Neat pd' ∧ pd'.cross = cross ∧ pd'.edge = edge ∧
      pd'.comp = comps ∧ pd'.uid = uid ∧ HashGen.regenHash qs cross.length edge.length pd'.face comps = .ok pd'.hash := by
  obtain ⟨faces, hfa⟩ := C22_faces_plane qs maxfaces cross edge hP.consistent hP.oriented hP.nonempty hs hf hP.connected hP.plane
  have hF : GoodFaces cross edge faces := by
    rcases C22_faces_partition qs maxfaces cross edge hP.consistent hP.nonempty hs with hx | hx
    · rw [hfa] at hx; cases hx
    · obtain ⟨fs, f0, f1, f2, f3, f4, f5, f6⟩ := hx
      rw [hfa] at f0
      cases f0
      exact ⟨f1, f2, f3, f4, f5, f6⟩
  obtain ⟨s, s1, -⟩ := C50_hash_computed qs cross edge faces comps hF
  refine ⟨⟨s, uid, cross, edge, comps, faces⟩, ?_, ⟨⟨hP, Distinct.canonical_of hP hS hcan, hK, hF, regenFaces_sorted hfa hF hs, hs⟩, ht, hl⟩,
    rfl, rfl, rfl, rfl, s1⟩
  unfold withFaces
  rw [hfa, ok_bind, s1, ok_bind]

end Moves
end Plc
