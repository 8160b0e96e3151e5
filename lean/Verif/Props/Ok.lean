import Verif.Proofs.Tidy
import Verif.Props.HashGen
import Verif.Proofs.Std
import Batteries.Lean.Except
import Mathlib.Tactic.IntervalCases

/-! # C51: what `pd_ok` accepts

`pd_ok` is what callers run on diagrams from elsewhere, and what `pd_iso_consistent` and others assert. It
returns true for everything `pd_regenerate` makes from a plane diagram, and what it accepts has edge,
component and face records that agree with the crossings. It does not notice missing faces. -/

namespace Plc

open Plc.Cmp Plc.Core Plc.Ok Plc.Regenerate

/-- **C51.** Accepted diagrams with at least one crossing: edges and crossings agree (as in C23), component
records number all edges consecutively along the strands and have different tags, face records go around
faces, begin with their smallest edge and are in order; nothing exceeds the buffers. -/
theorem C51_ok_sound (qs : QSort) (caps : Io.Caps) (pd : Io.Pd) (h0 : pd.cross ≠ [])
    (hmax : pd.edge.length ≤ caps.edges) (hsmall : pd.edge.length ≤ 2 ^ 31)
    (hlen : ∀ f ∈ pd.face, f.edge.length < 2 ^ 31) (h : pdOk qs caps pd = .ok true) :
    (pd.edge.length = 2 * pd.cross.length ∧
      (∀ e, e < pd.edge.length → (pd.cross.flatMap (fun c => [c.e0, c.e1, c.e2, c.e3])).count e = 2) ∧
      (∀ (e : Nat) (r : Edge), pd.edge[e]? = some r →
        slot pd.cross r.head r.headpos = some e ∧ slot pd.cross r.tail r.tailpos = some e) ∧
      Oriented pd.cross pd.edge) ∧
    (pd.comp.length ≤ caps.comps ∧ CompRecords pd.edge pd.comp) ∧
    (pd.face.length ≤ caps.faces ∧ FaceRecords pd.edge pd.face) := by
  unfold pdOk at h
  rw [bind_ite_ok, bind_ite_ok, bind_ite_ok] at h
  obtain ⟨h1, h2, h3, h4⟩ := h
  obtain ⟨a1, a2, a3, a4, -⟩ := C23_checks_sound_partial caps.edges pd.cross pd.edge h0 hmax h1 h2
  refine ⟨⟨a1, a2, a3, a4⟩, (compsOk_iff h0).mp h4, (facesOk_iff h0 ?_ hsmall hlen).mp h3⟩
  intro r hr
  obtain ⟨e, he⟩ := List.mem_iff_getElem?.mp hr
  obtain ⟨b1, b2⟩ := a3 e r he
  exact ⟨(slot_lt b1).2, (slot_lt b2).2⟩

theorem Ok.compRecords_of {cross : List Cross} {edge : List Edge} {comps : List Comp} (hC : Consistent cross edge)
    (hO : Oriented cross edge) (hK : GoodComps cross edge comps) : CompRecords edge comps where
  all := hK.all
  follow := by
    intro k hk j e he
    obtain ⟨n, h1, r, h2, h3⟩ := hK.follow k hk j e he
    obtain ⟨f, s, g1, g2, g3⟩ := hO.through_head e r h2
    have : f = n := by
      have := hC.tail f s g1
      rw [g2, g3, h3] at this
      exact (Option.some.inj this).symm
    subst this
    exact ⟨f, h1, r, s, h2, g1, g2, by rw [g3, Nat.mod_mod]⟩
  tags := by
    rw [hK.tags]
    exact List.nodup_range'
  letters := by
    intro k hk hlt
    have : k.tag ∈ comps.map (·.tag) := List.mem_map_of_mem hk
    rw [hK.tags, List.mem_range'_1] at this
    omega

theorem Ok.faceRecords_of {cross : List Cross} {edge : List Edge} {faces : List Face}
    (hF : GoodFaces cross edge faces) (hs : faces.Pairwise FaceBefore) : FaceRecords edge faces where
  nonempty := fun f hf => (hF.shape f hf).2
  turn := by
    intro f hf j e he
    have hl := (hF.shape f hf).1
    have hj := (List.getElem?_eq_some_iff.mp he).1
    have ho : f.orient[j]? = some (f.orient[j]'(by omega)) := List.getElem?_eq_getElem (by omega)
    obtain ⟨⟨n, o'⟩, h1, h2⟩ := hF.turn f hf j (e, f.orient[j]'(by omega)) (by
      rw [sides, List.getElem?_zip_eq_some]
      exact ⟨he, ho⟩)
    rw [sides, List.getElem?_zip_eq_some] at h1
    exact ⟨_, n, o', ho, h1.1, h1.2, h2⟩
  first := hF.first
  sorted := hs

/-- A plane diagram has at most `n/2 + 1` components. -/
theorem Ok.comps_le {cross : List Cross} {edge : List Edge} {comps : List Comp} (h : PlaneDiagram cross edge)
    (hK : GoodComps cross edge comps) : comps.length ≤ cross.length / 2 + 1 := by
  have hcy := Shape.comps_cycles hK
  have key := C21_components_fit cross edge h (comps.map (fun k => k.edge.headD 0)) (by
    intro e he
    obtain ⟨k, hk, rfl⟩ := List.mem_map.mp he
    have hne := hK.nonempty k hk
    refine Shape.comp_lt hK hk ?_
    cases hke : k.edge with
    | nil => exact absurd hke hne
    | cons a l => simp) (by
    rw [List.pairwise_map, List.pairwise_iff_getElem]
    intro i j hi hj hij hreach
    have stay : ∀ x y, Relation.ReflTransGen (Follows cross edge) x y → x ∈ comps[i].edge → y ∈ comps[i].edge := by
      intro x y hxy hx
      induction hxy with
      | refl => exact hx
      | @tail b c _ hbc ih =>
        obtain ⟨m, hm⟩ := List.mem_iff_getElem?.mp ih
        obtain ⟨n, h1, h2⟩ := hK.follow _ (List.getElem_mem hi) m b hm
        have : n = c := by
          obtain ⟨r, r1, r2⟩ := hbc
          obtain ⟨s, s1, s2⟩ := h2
          rw [r1, Option.some.injEq] at s1
          subst s1
          rw [r2] at s2
          exact (Option.some.inj s2).symm
        subst this
        exact List.mem_of_getElem? h1
    have first : ∀ k ∈ comps, k.edge.headD 0 ∈ k.edge := by
      intro k hk
      have hne := hK.nonempty k hk
      cases hke : k.edge with
      | nil => exact absurd hke hne
      | cons a l => simp
    have := Cycles.flat_unique hcy.nodup (i := i) (i' := j) (l := comps[i].edge) (l' := comps[j].edge)
      (by simp [hi]) (by simp [hj]) (stay _ _ hreach (first _ (List.getElem_mem hi))) (first _ (List.getElem_mem hj))
    omega)
  simpa using key

/-- **C51.** A plane diagram in the state `pd_regenerate` leaves it in, in buffers made by `pd_code_new`, is
accepted, whatever its hash and uid. -/
theorem C51_ok_complete (qs : QSort) (mv : Nat) (pd : Io.Pd) (h : Tidy pd.cross pd.edge pd.comp pd.face)
    (hmv : pd.cross.length ≤ mv) : pdOk qs (Io.capsNew mv) pd = .ok true := by
  have hP := h.plane
  have hC := hP.consistent
  have hc := hC.count
  have hs := h.small
  obtain ⟨h1, h2⟩ := C23_checks_accept (Io.capsNew mv).edges pd.cross pd.edge hC hP.oriented hP.nonempty
    (by simp only [Io.capsNew]; omega) (by omega) (h.canonical.strict.imp (fun q => lt_asymm q))
  unfold pdOk
  rw [bind_ite_ok, bind_ite_ok, bind_ite_ok]
  refine ⟨h1, h2, (facesOk_iff hP.nonempty ?_ (by omega) (fun f hf => (faces_small h.goodFaces hs f hf).2)).mpr
    ⟨?_, faceRecords_of h.goodFaces h.sorted⟩, (compsOk_iff hP.nonempty).mpr ⟨?_, compRecords_of hC hP.oriented h.goodComps⟩⟩
  · intro r hr
    obtain ⟨e, he⟩ := List.mem_iff_getElem?.mp hr
    exact ⟨(slot_lt (hC.head e r he)).2, (slot_lt (hC.tail e r he)).2⟩
  · rw [h.goodFaces.count]
    simp only [Io.capsNew]
    omega
  · have := comps_le hP h.goodComps
    simp only [Io.capsNew]
    omega

/-- **C51.** Whatever `pd_regenerate` makes from a plane diagram, or from its crossings alone, passes
`pd_ok`. -/
theorem C51_regenerated_ok (qs qs' : QSort) (mv : Nat) (cross : List Cross) (edge0 edge : List Edge)
    (h : PlaneDiagram cross edge0) (hr : Ready cross edge0 edge) (hmv : cross.length ≤ mv)
    (hsmall : 2 * edge0.length < 2 ^ 31) :
    ∃ cross' edge' comps faces,
      regenerate qs (Io.capsNew mv).edges (Io.capsNew mv).comps (Io.capsNew mv).faces cross edge =
        .ok (cross', edge', comps, faces) ∧ Tidy cross' edge' comps faces ∧
      ∀ hash uid, pdOk qs' (Io.capsNew mv) ⟨hash, uid, cross', edge', comps, faces⟩ = .ok true := by
  have key : ∃ cross' edge' comps faces,
      regenerate qs (Io.capsNew mv).edges (Io.capsNew mv).comps (Io.capsNew mv).faces cross edge =
        .ok (cross', edge', comps, faces) ∧ Tidy cross' edge' comps faces ∧ cross'.length = cross.length := by
    rcases hr with ⟨rfl, hs⟩ | ⟨h1, h2⟩
    · obtain ⟨cross', edge', comps, faces, τ, σ, ρ, a1, a2, -, a4, a5, a6⟩ := C49_regenerate_keeps qs mv cross edge h hs hmv hsmall
      exact ⟨cross', edge', comps, faces, a1, regenerate_tidy a1 (h.renamed a2 along_false) a4 a5 a6
        (by rw [a2.elen]; exact hsmall), a2.len⟩
    · obtain ⟨cross', edge', comps, faces, τ, σ, ρ, rev, a1, a2, -, a4, -, a5, a6, a7⟩ :=
        C49_regenerate_rebuilds qs mv cross edge0 edge h h1 h2 hmv hsmall
      exact ⟨cross', edge', comps, faces, a1, regenerate_tidy a1 a4 a5 a6 a7 (by rw [a2.elen]; exact hsmall), a2.len⟩
  obtain ⟨cross', edge', comps, faces, a1, a2, a3⟩ := key
  exact ⟨cross', edge', comps, faces, a1, a2, fun hash uid => C51_ok_complete qs' mv ⟨hash, uid, cross', edge', comps, faces⟩ a2
    (by simp only; rw [a3]; exact hmv)⟩

/-- A Hopf link as `pd_regenerate` leaves it. -/
def okHopf : Io.Pd where
  hash := []
  uid := 0
  cross := [⟨0, 2, 1, 3, .pos⟩, ⟨0, 3, 1, 2, .pos⟩]
  edge := [⟨0, 0, 1, 0⟩, ⟨1, 2, 0, 2⟩, ⟨1, 3, 0, 1⟩, ⟨0, 3, 1, 1⟩]
  comp := [⟨[0, 1], 65⟩, ⟨[2, 3], 66⟩]
  face := [⟨[0, 2], [.neg, .neg]⟩, ⟨[0, 3], [.pos, .neg]⟩, ⟨[1, 2], [.neg, .pos]⟩, ⟨[1, 3], [.pos, .pos]⟩]

example : pdOk insQSort (Io.capsNew 2) okHopf = .ok true := by decide +kernel

example : ∃ cross' edge' comps faces,
    regenerate insQSort (Io.capsNew 2).edges (Io.capsNew 2).comps (Io.capsNew 2).faces hopf2 hopf2Edge =
      .ok (cross', edge', comps, faces) ∧ Tidy cross' edge' comps faces ∧
    ∀ hash uid, pdOk insQSort (Io.capsNew 2) ⟨hash, uid, cross', edge', comps, faces⟩ = .ok true :=
  C51_regenerated_ok insQSort insQSort 2 hopf2 hopf2Edge hopf2Edge hopf2_plane
    (Or.inl ⟨rfl, _, List.mem_cons_self, by decide⟩) (by decide) (by decide)

/-- A wrong face, swapped faces, a wrong component, and equal tags are noticed. -/
example : pdOk insQSort (Io.capsNew 2) { okHopf with face := [⟨[0, 2], [.pos, .neg]⟩] } = .ok false ∧
    pdOk insQSort (Io.capsNew 2) { okHopf with face := okHopf.face.reverse } = .ok false ∧
    pdOk insQSort (Io.capsNew 2) { okHopf with comp := [⟨[0, 1, 2, 3], 65⟩] } = .ok false ∧
    pdOk insQSort (Io.capsNew 2) { okHopf with comp := [⟨[0, 1], 66⟩, ⟨[2, 3], 66⟩] } = .ok false := by
  decide +kernel

theorem okHopf_comps : GoodComps okHopf.cross okHopf.edge okHopf.comp where
  all := by decide
  longest := by decide
  nonempty := by decide
  tags := by decide
  follow := by
    have step : ∀ e e', e < 4 → e' < 4 → (e / 2 = e' / 2 ∧ e ≠ e') → Follows okHopf.cross okHopf.edge e e' := by
      intro e e' h1 h2 h
      refine ⟨okHopf.edge[e]'h1, List.getElem?_eq_getElem h1, ?_⟩
      interval_cases e <;> interval_cases e' <;> first | exact absurd h (by decide) | simp [okHopf, slot, Cross.at]
    intro k hk j e he
    have hl := (List.getElem?_eq_some_iff.mp he).1
    simp only [okHopf, List.mem_cons, List.not_mem_nil, or_false] at hk
    rcases hk with rfl | rfl
    · simp only [List.length_cons, List.length_nil] at hl
      interval_cases j
      · simp at he; subst he; exact ⟨1, rfl, step _ _ (by decide) (by decide) (by decide)⟩
      · simp at he; subst he; exact ⟨0, rfl, step _ _ (by decide) (by decide) (by decide)⟩
    · simp only [List.length_cons, List.length_nil] at hl
      interval_cases j
      · simp at he; subst he; exact ⟨3, rfl, step _ _ (by decide) (by decide) (by decide)⟩
      · simp at he; subst he; exact ⟨2, rfl, step _ _ (by decide) (by decide) (by decide)⟩

/-- Face records need not list all sides: none at all are accepted, and so are a face listed twice and a
face gone around twice. -/
theorem C51_missing_faces_accepted (qs : QSort) (fs : List Face)
    (hfs : fs ∈ ([[], [⟨[0, 2], [.neg, .neg]⟩, ⟨[0, 2], [.neg, .neg]⟩],
      [⟨[0, 2, 0, 2], [.neg, .neg, .neg, .neg]⟩]] : List (List Face))) :
    pdOk qs (Io.capsNew 2) { okHopf with face := fs } = .ok true := by
  have h1 : crossOk (Io.capsNew 2).edges okHopf.cross okHopf.edge = .ok true := by decide +kernel
  have h2 : edgesOk okHopf.cross okHopf.edge = .ok true := by decide +kernel
  have h3 : compsOk qs (Io.capsNew 2).comps okHopf.cross okHopf.edge okHopf.comp = .ok true :=
    (compsOk_iff (by decide)).mpr ⟨by decide, compRecords_of (cross := okHopf.cross) (by decide) (by decide) okHopf_comps⟩
  have h4 : ∀ fs ∈ ([[], [⟨[0, 2], [.neg, .neg]⟩, ⟨[0, 2], [.neg, .neg]⟩],
      [⟨[0, 2, 0, 2], [.neg, .neg, .neg, .neg]⟩]] : List (List Face)),
      facesOk (Io.capsNew 2).faces okHopf.cross okHopf.edge fs = .ok true := by decide +kernel
  unfold pdOk
  rw [bind_ite_ok, bind_ite_ok, bind_ite_ok]
  exact ⟨h1, h2, h4 fs hfs, h3⟩

/-- The comment (pdcode.c 2329-2331) promises tags from `A` on without gaps. Gaps and a smallest tag
before `A` are accepted; with one component any tag is. -/
theorem C51_tags_unchecked : pdOk insQSort (Io.capsNew 2) { okHopf with comp := [⟨[0, 1], 32⟩, ⟨[2, 3], 90⟩] } = .ok true := by
  decide +kernel

/-- A face without edges makes it compute `1 % 0`. -/
theorem C51_empty_face_ub (qs : QSort) : pdOk qs (Io.capsNew 2) { okHopf with face := [⟨[], []⟩] } = .error .ub := by
  have h1 : crossOk (Io.capsNew 2).edges okHopf.cross okHopf.edge = .ok true := by decide +kernel
  have h2 : edgesOk okHopf.cross okHopf.edge = .ok true := by decide +kernel
  have h3 : facesOk (Io.capsNew 2).faces okHopf.cross okHopf.edge [⟨[], []⟩] = .error .ub := by decide +kernel
  unfold pdOk
  simp only
  rw [h1, ok_bind, if_pos rfl, h2, ok_bind, if_pos rfl, h3, error_bind]

end Plc
