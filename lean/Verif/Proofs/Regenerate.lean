import Verif.Model.Regenerate
import Verif.Spec.PlaneDiagram
import Verif.Proofs.CompBound
import Verif.Proofs.Moves
import Verif.Props.Edges
import Verif.Props.Planar

/-! Rebuilding a diagram. -/

namespace Plc.Regenerate

open Plc.Core Plc.Cmp Plc.Places Plc.Strands Plc.Planar Plc.Moves Plc.Comps Plc.CompBound

variable {cross : List Cross} {edge : List Edge}

/-- On a connected plane diagram no edge faces itself across a crossing. -/
theorem not_facing (h : PlaneDiagram cross edge) {c k e : Nat} (h1 : slot cross c k = some e)
    (h2 : slot cross c ((k + 2) % 4) = some e) : False := by
  have hC := h.consistent
  have hO := h.oriented
  obtain ⟨hc, hk⟩ := slot_lt h1
  have helt := hC.slot_edge_lt h1
  obtain ⟨comps, _, hK, hnon⟩ := exists_comps hC hO (es := []) (by simp) (by simp)
  -- the two ends of `e`
  have pl : ∀ c' k', slot cross c' k' = some e → c' = c ∧ (k' = k ∨ k' = (k + 2) % 4) := by
    intro c' k' h3
    have a := slot_lt h3
    have e1 := eslot_of_slot (p := (c, k)) h1
    have e2 := eslot_of_slot (p := (c, (k + 2) % 4)) h2
    have e3 := eslot_of_slot (p := (c', k')) h3
    have m1 : (c, k) ∈ P cross := mem_P.mpr ⟨hc, hk⟩
    have m2 : (c, (k + 2) % 4) ∈ P cross := mem_P.mpr ⟨hc, Nat.mod_lt _ (by decide)⟩
    have m3 : (c', k') ∈ P cross := mem_P.mpr a
    have k1 := same_edge hC m1 m2 (e1.trans e2.symm)
    have k2 := same_edge hC m1 m3 (e1.trans e3.symm)
    rcases k1 with k1 | k1
    · rw [Prod.mk.injEq] at k1; omega
    · rcases k2 with k2 | k2
      · rw [Prod.mk.injEq] at k2; omega
      · rw [← k1, Prod.mk.injEq] at k2; omega
  -- so it is a component of its own
  obtain ⟨i, _, A, _, hA, heA⟩ := compAndPos_ok hK helt
  have hf1 := slot_of_lt hc (show (k + 1) % 4 < 4 from Nat.mod_lt _ (by decide))
  generalize cross[c].at ((k + 1) % 4) = f at hf1
  obtain ⟨j, _, B, _, hB, hfB⟩ := compAndPos_ok hK (hC.slot_edge_lt hf1)
  -- edges of the strand through `e` are all `e`
  have hfe : f ≠ e := by
    intro he
    rw [he] at hf1
    have := pl _ _ hf1
    omega
  have hI := injOn_nx hC hO
  have nxe : nx cross edge e = e := by
    have hg := List.getElem?_eq_getElem helt
    have hh := hC.head e _ hg
    have p := pl _ _ hh
    have hfol : Follows cross edge e e := by
      refine ⟨_, hg, ?_⟩
      rw [p.1]
      rcases p.2 with q | q <;> rw [q]
      · exact h2
      · rw [show ((k + 2) % 4 + 2) % 4 = k by omega]; exact h1
    exact ((follows_iff hC e e).mp hfol).2
  -- remove `e` from its component: still a list of components
  have hmA := List.mem_of_getElem? hA
  have hcl : ∀ x, x < edge.length → x ≠ e → nx cross edge x ≠ e := by
    intro x hx hne he
    rw [← nxe] at he
    exact hne (hI.inj x (Finset.mem_range.mpr hx) e (Finset.mem_range.mpr helt) he)
  let A1 : Comp := ⟨[e], 0⟩
  let rest : List Comp := comps.map (fun K => ⟨K.edge.filter (fun x => decide (x ≠ e)), 0⟩)
  have hK2 : CompsOf cross edge (A1 :: rest) := by
    refine ⟨?_, ?_⟩
    · have e1 : (A1 :: rest).flatMap (·.edge) = e :: (comps.flatMap (·.edge)).filter (fun x => decide (x ≠ e)) := by
        rw [List.flatMap_cons, List.filter_flatMap, List.flatMap_map]
        rfl
      rw [e1]
      have hn : (comps.flatMap (·.edge)).Nodup := hK.all.nodup_iff.mpr List.nodup_range
      rw [List.perm_ext_iff_of_nodup (by
        rw [List.nodup_cons]
        exact ⟨by simp, hn.filter _⟩) List.nodup_range]
      intro a
      have := hK.all.mem_iff (a := a)
      rw [List.mem_cons, List.mem_filter, this, List.mem_range]
      simp only [decide_eq_true_eq]
      constructor
      · rintro (rfl | h)
        · exact helt
        · exact h.1
      · intro ha
        by_cases hae : a = e
        · exact Or.inl hae
        · exact Or.inr ⟨ha, hae⟩
    · intro K hKm x x' hx hf
      rw [follows_iff hC] at hf
      rw [List.mem_cons] at hKm
      rcases hKm with rfl | hKm
      · have : x = e := by simpa [A1] using hx
        rw [this, nxe] at hf
        simp [A1, ← hf.2]
      · rw [List.mem_map] at hKm
        obtain ⟨K0, hK0, rfl⟩ := hKm
        simp only [List.mem_filter, decide_eq_true_eq] at hx ⊢
        refine ⟨hK.closed K0 hK0 x x' hx.1 ((follows_iff hC x x').mpr hf), ?_⟩
        rw [← hf.2]
        exact hcl x hf.1 hx.2
  have hB2 : (A1 :: rest)[j + 1]? = some ⟨B.edge.filter (fun x => decide (x ≠ e)), 0⟩ := by
    simp [rest, hB]
  have hev := even_meet hC hO h.connected h.plane hK2 (c1 := 0) (c2 := j + 1) (A := A1) rfl hB2 (by omega)
  have hone : meetCount cross A1 ⟨B.edge.filter (fun x => decide (x ≠ e)), 0⟩ = 1 := by
    unfold meetCount
    have hiff : ∀ d, d < cross.length →
        (Meets cross A1 ⟨B.edge.filter (fun x => decide (x ≠ e)), 0⟩ d ↔ d = c) := by
      intro d hd
      have onA : ∀ q, OnComp cross A1 d q ↔ slot cross d q = some e := by
        intro q
        unfold OnComp
        simp [A1]
      constructor
      · rintro (⟨a, _⟩ | ⟨a, _⟩)
        · exact (pl _ _ ((onA _).mp a)).1
        · exact (pl _ _ ((onA _).mp a)).1
      · rintro rfl
        have onB : OnComp cross ⟨B.edge.filter (fun x => decide (x ≠ e)), 0⟩ d ((k + 1) % 4) :=
          ⟨f, by simp [hfB, hfe], hf1⟩
        have hf3 := slot_of_lt hc (show ((k + 1) % 4 + 2) % 4 < 4 from Nat.mod_lt _ (by decide))
        have hg := (opp_comp hC hO hK2 (List.mem_of_getElem? hB2) hf1 hf3).mp (by simp [hfB, hfe])
        have onB3 : OnComp cross ⟨B.edge.filter (fun x => decide (x ≠ e)), 0⟩ d (((k + 1) % 4 + 2) % 4) :=
          ⟨_, hg, hf3⟩
        have a1 := (onA k).mpr h1
        have a2 := (onA _).mpr h2
        unfold Meets
        match k, hk with
        | 0, _ => exact Or.inl ⟨a1, onB⟩
        | 1, _ => exact Or.inr ⟨a1, onB3⟩
        | 2, _ => exact Or.inl ⟨a2, onB3⟩
        | 3, _ => exact Or.inr ⟨a2, onB⟩
    rw [List.countP_congr (q := fun d => decide (d = c)) (by
      intro d hd
      rw [List.mem_range] at hd
      simp only [decide_eq_true_eq]
      exact hiff d hd)]
    have hcc : (List.range cross.length).count c = 1 :=
      List.count_eq_one_of_mem List.nodup_range (List.mem_range.mpr hc)
    rw [List.count] at hcc
    rw [← hcc]
    apply List.countP_congr
    intro d _
    simp
  rw [hone] at hev
  omega

theorem _root_.Plc.PlaneDiagram.renamed {cross' : List Cross} {edge' : List Edge} {τ σ ρ : Nat → Nat} {rev : Nat → Bool}
    (h : PlaneDiagram cross edge) (hR : Renamed cross edge cross' edge' τ σ ρ rev)
    (hA : Renamed.Along cross edge rev) : PlaneDiagram cross' edge' where
  consistent := hR.consistent h.consistent
  oriented := hR.oriented h.consistent h.oriented hA
  nonempty := by
    have := List.length_pos_iff.mpr h.nonempty
    rw [← hR.len] at this
    exact List.length_pos_iff.mp this
  connected := hR.connected h.connected
  plane := hR.plane h.consistent h.plane

theorem along_false : Renamed.Along cross edge (fun _ => false) := fun _ _ _ => rfl

/-- The last two steps. -/
theorem finish (qs : QSort) {maxedges maxcomps maxfaces : Nat} (h : PlaneDiagram cross edge)
    (hs : SortedCross cross) (hsmall : 2 * edge.length < 2 ^ 31) (he : edge.length ≤ maxedges)
    (hc : cross.length + 1 ≤ 2 * maxcomps) (hf : cross.length + 2 ≤ maxfaces) :
    ∃ cross' edge' comps faces τ σ ρ, Comps.regenComps qs maxedges maxcomps cross edge = .ok (cross', edge', comps) ∧
      Faces.regenFaces qs maxfaces cross' edge' = .ok faces ∧
      Renamed cross edge cross' edge' τ σ ρ (fun _ => false) ∧ SameSigns cross cross' σ ∧
      SortedCross cross' ∧ GoodComps cross' edge' comps ∧ GoodFaces cross' edge' faces := by
  obtain ⟨cross', edge', comps, τ, σ, ρ, h1, c1, c2, c3, c4, c5, g1, g2, g3, g4, g5, r1, r2, r3, r4, r5, r6⟩ :=
    C21_regenerate_comps_partial qs maxedges maxcomps cross edge h.consistent h.oriented h.nonempty he
      (by omega) hs (strands_le h.consistent h.oriented h.nonempty h.connected h.plane (by omega))
  obtain ⟨hR, hS⟩ := renamed_of g1 g4 g5 r1 r2 r3 r4 r5 r6
  have h' := h.renamed hR along_false
  obtain ⟨faces, hfa⟩ := C22_faces_plane qs maxfaces cross' edge' g1 g2 h'.nonempty (by rw [g5]; exact hsmall)
    (by rw [g4]; exact hf) h'.connected h'.plane
  refine ⟨cross', edge', comps, faces, τ, σ, _, h1, hfa, hR, hS, g3, ⟨by rw [g5]; exact c1, c2, c3, c4, c5⟩, ?_⟩
  rcases C22_faces_partition qs maxfaces cross' edge' g1 h'.nonempty (by rw [g5]; exact hsmall) with hx | hx
  · rw [hfa] at hx; cases hx
  · obtain ⟨fs, f0, f1, f2, f3, f4, f5, f6⟩ := hx
    rw [hfa] at f0
    cases f0
    exact ⟨f1, f2, f3, f4, f5, f6⟩

/-- Forgetting signs changes nothing else. -/
theorem unset_renamed (h : Consistent cross edge) :
    Renamed cross edge (cross.map unsetSign) edge id id (fun _ => 0) (fun _ => false) where
  len := by simp
  elen := rfl
  slt := fun _ h => h
  sinj := fun _ _ _ _ h => h
  tlt := fun _ h => h
  tinj := fun _ _ _ _ h => h
  rho := fun _ => by decide
  cross := fun c x hx => ⟨unsetSign x, by simp [hx], fun k => by
    rw [Nat.add_zero]; rfl⟩
  edge := fun e r hr => by
    have a := (slot_lt (h.head e r hr)).2
    have b := (slot_lt (h.tail e r hr)).2
    rw [id, hr]
    unfold moveEdge
    simp [Nat.mod_eq_of_lt a, Nat.mod_eq_of_lt b]

/-- Rebuilding the edge records of a plane diagram gives the same edges up to direction. -/
theorem edges_renamed (h : PlaneDiagram cross edge) :
    ∃ edge' rev, Edges.regenEdges cross = .ok edge' ∧
      Renamed cross edge cross edge' id id (fun _ => 0) rev ∧ Renamed.Along cross edge rev := by
  have hC := h.consistent
  have hF : ∀ c ∈ cross, c.e0 ≠ c.e2 ∧ c.e1 ≠ c.e3 := by
    intro x hx
    obtain ⟨c, hc, rfl⟩ := List.getElem_of_mem hx
    constructor
    · intro he
      have s0 := slot_of_lt hc (show 0 < 4 by decide)
      have s2 := slot_of_lt hc (show 2 < 4 by decide)
      rw [show cross[c].at 2 = cross[c].e2 from rfl, ← he] at s2
      exact not_facing h s0 s2
    · intro he
      have s0 := slot_of_lt hc (show 1 < 4 by decide)
      have s2 := slot_of_lt hc (show 3 < 4 by decide)
      rw [show cross[c].at 3 = cross[c].e3 from rfl, ← he] at s2
      exact not_facing h s0 s2
  obtain ⟨edge', h1, hO', hends⟩ := C19_regenerate_edges_ends h.nonempty hC hF
  have hC' : Consistent cross edge' := by
    obtain ⟨e2, g1, g2, _⟩ := C19_regenerate_edges_partial h.nonempty
      (fun e he => Core.count_two hC (by rw [hC.count]; exact he)) hF
    rw [h1] at g1
    cases g1
    exact g2
  have hl : edge'.length = edge.length := by rw [hC.count, hC'.count]
  let rev : Nat → Bool := fun e => decide (edge[e]? ≠ edge'[e]?)
  have hrec : ∀ (e : Nat) (r r' : Edge), edge[e]? = some r → edge'[e]? = some r' →
      r' = r ∨ r' = ⟨r.tail, r.tailpos, r.head, r.headpos⟩ := by
    intro e r r' hr hr'
    have hh := hends e r r' hr hr'
    have n1 := hC.ends_ne e r hr
    have n2 := hC'.ends_ne e r' hr'
    have m1 : (r'.head, r'.headpos) ∈ ({(r.head, r.headpos), (r.tail, r.tailpos)} : Finset (Nat × Nat)) := by
      rw [hh]; simp
    have m2 : (r'.tail, r'.tailpos) ∈ ({(r.head, r.headpos), (r.tail, r.tailpos)} : Finset (Nat × Nat)) := by
      rw [hh]; simp
    simp only [Finset.mem_insert, Finset.mem_singleton, Prod.mk.injEq] at m1 m2
    obtain ⟨a, b, c, d⟩ := r
    obtain ⟨a', b', c', d'⟩ := r'
    simp only [Edge.mk.injEq, Ne, Prod.mk.injEq] at *
    rcases m1 with ⟨rfl, rfl⟩ | ⟨rfl, rfl⟩ <;> rcases m2 with ⟨rfl, rfl⟩ | ⟨rfl, rfl⟩ <;> simp_all
  have hR : Renamed cross edge cross edge' id id (fun _ => 0) rev := {
    len := rfl
    elen := hl
    slt := fun _ h => h
    sinj := fun _ _ _ _ h => h
    tlt := fun _ h => h
    tinj := fun _ _ _ _ h => h
    rho := fun _ => by decide
    cross := fun c x hx => ⟨x, hx, fun k => by rw [Nat.add_zero]; rfl⟩
    edge := by
      intro e r hr
      have hlt := (List.getElem?_eq_some_iff.mp hr).1
      have hr' := List.getElem?_eq_getElem (l := edge') (i := e) (by omega)
      have a := (slot_lt (hC.head e r hr)).2
      have b := (slot_lt (hC.tail e r hr)).2
      have e1 : (r.headpos + 4 - 0) % 4 = r.headpos := by omega
      have e2 : (r.tailpos + 4 - 0) % 4 = r.tailpos := by omega
      rw [id, hr']
      congr 1
      unfold moveEdge
      simp only [rev, hr, hr', id, e1, e2]
      rcases hrec e r _ hr hr' with h3 | h3
      · simp [h3]
      · rw [h3]
        have : (some r : Option Edge) ≠ some ⟨r.tail, r.tailpos, r.head, r.headpos⟩ := by
          intro h4
          have := hC.ends_ne e r hr
          have h5 := congrArg Edge.head (Option.some.inj h4)
          have h6 := congrArg Edge.headpos (Option.some.inj h4)
          exact this (by rw [Prod.mk.injEq]; exact ⟨h5, h6⟩)
        simp [this] }
  refine ⟨edge', rev, h1, hR, ?_⟩
  -- both lists are oriented, so direction is kept along strands
  intro e f hf
  obtain ⟨r, hr, hs⟩ := hf
  obtain ⟨f', rf, g1, g2, g3⟩ := h.oriented.through_head e r hr
  have hff : f' = f := by
    have := hC.tail f' rf g1
    rw [g2, g3, hs] at this
    exact (Option.some.inj this).symm
  subst hff
  have q1 := hR.edge e r hr
  have q2 := hR.edge f' rf g1
  simp only [id] at q1 q2
  have a := (slot_lt (hC.head e r hr)).2
  have b := (slot_lt (hC.tail e r hr)).2
  have a' := (slot_lt (hC.head f' rf g1)).2
  have b' := (slot_lt (hC.tail f' rf g1)).2
  have arith : ∀ k, k < 4 → (k + 4 - 0) % 4 = k := by omega
  -- the place `(r.head, (r.headpos+2)%4)` is entered or left
  by_contra hne
  cases he : rev e <;> cases hf2 : rev f' <;> simp only [he, hf2, ne_eq, not_true_eq_false] at hne
  · rw [he] at q1; rw [hf2] at q2
    simp only [moveEdge, id, arith _ a, arith _ b, arith _ a', arith _ b', Bool.false_eq_true, if_false, if_true] at q1 q2
    obtain ⟨x, rx, x1, x2, x3⟩ := hO'.through_head e _ q1
    have t1 := hC'.tail x rx x1
    have t2 := hC'.head f' _ q2
    simp only [x2, x3, g2, g3] at t1 t2
    rw [hs] at t1
    cases Option.some.inj t1
    rw [x1] at q2
    have := hC'.ends_ne f' _ x1
    rw [Option.some.inj q2] at this x2 x3
    simp only at x2 x3 this
    exact this (by rw [x2, x3, g2, g3])
  · rw [he] at q1; rw [hf2] at q2
    simp only [moveEdge, id, arith _ a, arith _ b, arith _ a', arith _ b', Bool.false_eq_true, if_false, if_true] at q1 q2
    obtain ⟨x, rx, x1, x2, x3⟩ := hO'.through_tail e _ q1
    have t1 := hC'.head x rx x1
    simp only [x2, x3] at t1
    rw [hs] at t1
    cases Option.some.inj t1
    rw [x1] at q2
    have := hC'.ends_ne f' _ x1
    rw [Option.some.inj q2] at this x2 x3
    simp only at x2 x3 this
    exact this (by rw [x2, x3, g2, g3])

/-- What happens to the crossings does not depend on the edge records. -/
theorem regenCrossings_cross (qs : QSort) {edge0 e1 e2 : List Edge} {c1 c2 : List Cross}
    (h1 : regenCrossings qs cross edge = .ok (c1, e1)) (h2 : regenCrossings qs cross edge0 = .ok (c2, e2)) :
    c1 = c2 := by
  unfold regenCrossings at h1 h2
  simp only [bind_ok_iff] at h1 h2
  obtain ⟨a1, _, b1, hb1, d1, _, f1, hf1, h1⟩ := h1
  obtain ⟨a2, _, b2, hb2, d2, _, f2, hf2, h2⟩ := h2
  rw [hf1] at hf2
  cases hf2
  cases h1
  cases h2
  rfl

theorem edgesOkFrom_total : ∀ (rs : List Edge) (e : Nat) (h0 : cross ≠ [])
    (_ : ∀ c k, c < cross.length → k < 4 → ∀ x, slot cross c k = some x → x < edge.length),
    ∃ b, edgesOkFrom cross edge rs e = .ok b := by
  intro rs
  induction rs with
  | nil => intro e _ _; exact ⟨true, rfl⟩
  | cons r rs ih =>
    intro e h0 hx
    have hn : 0 < cross.length := List.length_pos_iff.mpr h0
    have : ∃ b, edgeOk cross edge e r = .ok b := by
      unfold edgeOk
      by_cases h1 : cross.length ≠ 0 ∧ (r.head ≥ cross.length ∨ r.tail ≥ cross.length)
      · rw [if_pos h1]; exact ⟨_, rfl⟩
      rw [if_neg h1, if_neg (by omega)]
      by_cases h2 : cross.length ≠ 0 ∧ (r.headpos ≥ 4 ∨ r.tailpos ≥ 4)
      · rw [if_pos h2]; exact ⟨_, rfl⟩
      rw [if_neg h2, if_neg (by omega), if_pos hn, rd_lt (show r.head < _ by omega), ok_bind,
        rd_lt (show r.tail < _ by omega), ok_bind, Cross.rdPos_lt (show r.headpos < 4 by omega), ok_bind]
      split
      · exact ⟨_, rfl⟩
      rw [Cross.rdPos_lt (show r.tailpos < 4 by omega), ok_bind]
      split
      · exact ⟨_, rfl⟩
      simp only
      rw [Cross.rdPos_lt (Nat.mod_lt _ (by decide)), ok_bind, rd_lt (hx r.head _ (by omega)
        (Nat.mod_lt (r.headpos + 2) (by decide)) _ (slot_of_lt (by omega) (Nat.mod_lt _ (by decide)))), ok_bind]
      split
      · exact ⟨_, rfl⟩
      rw [Cross.rdPos_lt (Nat.mod_lt _ (by decide)), ok_bind, rd_lt (hx r.tail _ (by omega)
        (Nat.mod_lt (r.tailpos + 2) (by decide)) _ (slot_of_lt (by omega) (Nat.mod_lt _ (by decide)))), ok_bind]
      split
      · exact ⟨_, rfl⟩
      · exact ⟨_, rfl⟩
    obtain ⟨b, hb⟩ := this
    unfold edgesOkFrom
    rw [hb, ok_bind]
    split
    · exact ih (e + 1) h0 hx
    · exact ⟨_, rfl⟩

/-- The edge records are rejected, without reading outside anything. -/
theorem edgesOk_false (h0 : cross ≠ []) (hx : ∀ c k x, slot cross c k = some x → x < 2 * cross.length)
    (hbad : edge.length ≠ 2 * cross.length ∨ ∃ e r, edge[e]? = some r ∧
      (slot cross r.head r.headpos ≠ some e ∨ slot cross r.tail r.tailpos ≠ some e)) :
    edgesOk cross edge = .ok false := by
  have hn : 0 < cross.length := List.length_pos_iff.mpr h0
  by_cases hl : edge.length = 2 * cross.length
  · have htot : ∃ b, edgesOk cross edge = .ok b := by
      unfold edgesOk
      rw [if_neg (by omega)]
      exact edgesOkFrom_total edge 0 h0 (fun c k _ _ x h => by rw [hl]; exact hx c k x h)
    obtain ⟨b, hb⟩ := htot
    cases b with
    | false => exact hb
    | true =>
      exfalso
      have := (edgesOk_iff h0).mp hb
      rcases hbad with hbad | ⟨e, r, hr, hbad⟩
      · exact hbad hl
      · have g := this.2 e r hr
        rcases hbad with hbad | hbad
        · exact hbad g.1
        · exact hbad g.2.1
  · unfold edgesOk
    rw [if_pos (by omega)]

end Plc.Regenerate
