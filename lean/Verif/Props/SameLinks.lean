import Verif.Proofs.LinkTriangle
import Verif.Props.Simplify
import Verif.Props.BigonDel

/-! # C72: linking numbers under Reidemeister moves -/

namespace Plc

open Plc.Core Plc.Cmp Plc.Places Plc.Faces Plc.Moves Plc.Comps Plc.Planar Plc.BigonDel Plc.Isotopy Plc.Ok Plc.Triangle Plc.LinkKept List

/-- **C72, loops.** Taking off a loop keeps the linking number of any two components. -/
theorem C72_loop_deletion (qs : QSort) (pd : Io.Pd) (hN : Neat pd) (hs : Signed pd) (mv : Nat) (hmv : pd.cross.length ≤ mv) (cr : Nat)
    (caps : Io.Caps) (pd' : Io.Pd) (h : loopDeletion qs mv pd cr = .ok (.code caps pd')) (hcr : cr < pd.cross.length) :
    Signed pd' ∧ SameLinks pd pd' := by
  have hx := List.getElem?_eq_getElem hcr
  by_cases hl : ∃ k, (pd.cross[cr]).at k = (pd.cross[cr]).at (k + 1)
  · obtain ⟨k, hk⟩ := hl
    by_cases ho : (pd.cross[cr]).at (k + 2) = (pd.cross[cr]).at (k + 3)
    · rw [(C63_remove_figure_eight qs pd hN mv cr k _ hx hk ho).2] at h
      cases h
    · obtain ⟨caps', q, e0, e2, τ, σ, ρ, r1, r2, -, -, -, -, -, -, L, -, t2⟩ :=
        C63_remove_loop qs qs pd hN mv hmv cr k _ hx hk ho
      rw [h] at r1
      cases r1
      exact loop_links hN r2 hs L t2
  · push Not at hl
    rw [C63_remove_no_loop qs pd mv cr _ hx hl] at h
    cases h

/-- Two components are still together in one of the diagrams. -/
def Together (outs : List BigonDel.Out) (t u : Nat) : Prop :=
  ∃ caps pd', BigonDel.Out.code caps pd' ∈ outs ∧ t ∈ pd'.comp.map (·.tag) ∧ u ∈ pd'.comp.map (·.tag)

/-- **C72, two strands.** Pulling two strands off each other keeps the linking number of any two components that stay in one diagram;
components that are not in one diagram afterwards had linking number zero. -/
theorem C72_bigon_elimination (qs : QSort) (caps : Io.Caps) (pd : Io.Pd) (hN : Neat pd) (hs : Signed pd)
    (hok : pdOk qs caps pd = .ok true) (c d : Nat) (hc : c < pd.cross.length) (hd : d < pd.cross.length) (hcd : c ≠ d)
    (hex : ∃ s, Strands2 pd.cross pd.edge c d s) :
    ∃ outs, bigonElimination qs caps pd c d = .ok outs ∧
      (∀ caps' pd', .code caps' pd' ∈ outs → Signed pd' ∧ SameLinks pd pd') ∧
      ∀ (i j : Nat) (A B : Comp), pd.comp[i]? = some A → pd.comp[j]? = some B → A.tag ≠ B.tag → ¬ Together outs A.tag B.tag →
        Strands.linkingNumber pd.cross pd.edge pd.comp i j = .ok 0 := by
  have hC := hN.tidy.plane.consistent
  obtain ⟨s, S, h1, h2, h3⟩ := C70_pulled_off qs caps pd hN hok c d hc hd hcd hex
  have L := S.lens.at hC hN.tidy.plane.oriented
  have hO : Over pd.cross pd.edge s := S.over _ _ (List.getElem?_eq_getElem hc) (List.getElem?_eq_getElem hd)
    (.inl (hs _ (List.getElem_mem hc)))
  by_cases hV : pd.cross.length = 2
  · obtain ⟨ts, t1, t2⟩ := h1 hV
    refine ⟨_, t1, fun caps' pd' hm => ?_, fun i j A B hi hj hne _ => apart_zero hN hs L hO hi hj hne ?_⟩
    · obtain ⟨t, -, h⟩ := List.mem_map.mp hm
      cases h
    · intro b hb n0 n1
      have l0 : s.c0 < pd.cross.length := by rw [← L.ha0]; exact (mem_P.mp (hd_mem hC L.la0).1).1
      have l1 : s.c1 < pd.cross.length := by rw [← L.ha1]; exact (mem_P.mp (hd_mem hC L.la1).1).1
      have := L.ne
      omega
  · by_cases hex : ∃ lab, Apart pd.cross pd.edge c d lab ∧ lab s.a0 ∧ ¬ lab s.b0
    · obtain ⟨lab, hl, q1, q2⟩ := hex
      obtain ⟨oA, oB, w1, w2, w3, -⟩ := h3 hV lab hl q1 q2
      have pA : ∀ caps' pd', oA = .code caps' pd' → _ := fun caps' pd' h =>
        piece_links (caps := caps') (pd' := pd') hN hs L.na0 L.na1 L.la0 L.la1 (h ▸ w2)
      have pB : ∀ caps' pd', oB = .code caps' pd' → _ := fun caps' pd' h =>
        piece_links (caps := caps') (pd' := pd') hN hs L.nb0 L.nb1 L.lb0 L.lb1 (h ▸ w3)
      refine ⟨_, w1, fun caps' pd' hm => ?_, fun i j A B hi hj hne hno => apart_zero hN hs L hO hi hj hne ?_⟩
      · simp only [List.mem_cons, List.not_mem_nil, or_false] at hm
        rcases hm with h | h
        · exact ⟨(pA _ _ h.symm).1, (pA _ _ h.symm).2.1⟩
        · exact ⟨(pB _ _ h.symm).1, (pB _ _ h.symm).2.1⟩
      · intro b hb n0 n1 hmeet
        have mA := List.mem_of_getElem? hi
        have mB := List.mem_of_getElem? hj
        have hx := List.getElem?_eq_getElem hb
        obtain ⟨k, k1, k2⟩ := (meets_iff hN mA mB hx).mp hmeet
        obtain ⟨e, e1, e2, e3⟩ := incoming hN mA hx k1
        obtain ⟨u, u1, u2, u3⟩ := incoming hN mB hx k2
        have hbc : b ≠ c ∧ b ≠ d := by
          rcases S.at_ with ⟨v0, v1⟩ | ⟨v0, v1⟩
          · rw [← v0, ← v1]; exact ⟨n0, n1⟩
          · rw [← v0, ← v1]; exact ⟨n1, n0⟩
        have same : lab e ↔ lab u := hl.meet e u pd.edge[e]! pd.edge[u]! (by simp [e1]) (by simp [u1])
          (show (Places.hd pd.edge[e]!).1 = (Places.hd pd.edge[u]!).1 by rw [e3, u3])
          (show (Places.hd pd.edge[e]!).1 ≠ c by rw [e3]; exact hbc.1) (show (Places.hd pd.edge[e]!).1 ≠ d by rw [e3]; exact hbc.2)
        -- two components on one side
        have both : ∀ {L : Nat → Prop} {x0 x1 x2 : Nat} {o : Out}, Piece pd L x0 x1 x2 o → o ∈ [oA, oB] →
            nx pd.cross pd.edge x0 = x1 → nx pd.cross pd.edge x1 = x2 → x0 < pd.edge.length → x1 < pd.edge.length →
            (∀ e ∈ A.edge, L e) → (∀ e ∈ B.edge, L e) → False := by
          intro L x0 x1 x2 o hp ho g1 g2 g3 g4 hA hB
          cases o with
          | code caps' pd' =>
            have := (piece_links hN hs g1 g2 g3 g4 hp).2.2
            exact hno ⟨caps', pd', ho, (this A mA).mpr hA, (this B mB).mpr hB⟩
          | unknot tag =>
            rcases hp with ⟨-, p2, -⟩ | ⟨-, _, _, _, _, _, _, _, p, -⟩
            · have only : ∀ {K : Comp}, K ∈ pd.comp → (∀ e ∈ K.edge, L e) → ∀ {e}, e ∈ K.edge → x0 ∈ K.edge := by
                intro K mK hK e he
                rcases (p2 e (comp_lt hN mK he)).mp (hK e he) with q | q
                · rw [← q]; exact he
                · rw [q, ← g1] at he
                  exact (nx_mem hN mK g3).mp he
              exact not_both hN mA mB hne (only mA hA e2) (only mB hB u2)
            · cases p
        rcases one_side hN mA hl with sA | sA <;> rcases one_side hN mB hl with sB | sB
        · exact both w2 (by simp) L.na0 L.na1 L.la0 L.la1 sA sB
        · exact sB u u2 (same.mp (sA e e2))
        · exact sA e e2 (same.mpr (sB u u2))
        · exact both w3 (by simp) L.nb0 L.nb1 L.lb0 L.lb1 sA sB
    · obtain ⟨caps', pd', w1, w2⟩ := h2 hV hex
      have hl := pulled_links hN hs L hO w2
      refine ⟨_, w1, fun caps'' pd'' hm => ?_, fun i j A B hi hj hne hno => (hno ?_).elim⟩
      · simp only [List.mem_cons, List.not_mem_nil, or_false] at hm
        cases hm
        exact hl
      · obtain ⟨-, -, -, -, -, -, -, -, -, -, -, ht, -⟩ := w2
        exact ⟨caps', pd', List.mem_cons_self, ht.mem_iff.mpr (List.mem_map_of_mem (List.mem_of_getElem? hi)),
          ht.mem_iff.mpr (List.mem_map_of_mem (List.mem_of_getElem? hj))⟩

/-- **C72, triangles.** When a triangle is turned over the strands are the same edge by edge, and components have the linking numbers
they had; `m` says where in the list of components each of them is now. -/
theorem C72_triangle_flip (qs : QSort) (pd : Io.Pd) (hN : Neat pd) (hsg : Signed pd) (hs : 2 * pd.edge.length < 2 ^ 31) (f : Nat) (F : Face)
    (hF : pd.face[f]? = some F) (h3 : F.edge.length = 3) (hl : ∀ e ∈ F.edge, ∀ r, pd.edge[e]? = some r → r.head ≠ r.tail) :
    ∃ (pd' : Io.Pd) (τ m : Nat → Nat), triangleFlip qs pd f = .ok (some (.code (Io.capsNew pd.cross.length) pd')) ∧ Signed pd' ∧
      pd'.comp.length = pd.comp.length ∧
      (∀ i, i < pd.comp.length → m i < pd.comp.length) ∧ (∀ i j, i < pd.comp.length → j < pd.comp.length → m i = m j → i = j) ∧
      (∀ (i : Nat) (A A' : Comp), pd.comp[i]? = some A → pd'.comp[m i]? = some A' →
        ∀ e, e < pd.edge.length → (τ e ∈ A'.edge ↔ e ∈ A.edge)) ∧
      (∀ e e', Follows pd.cross pd.edge e e' → Follows pd'.cross pd'.edge (τ e) (τ e')) ∧
      ∀ i j, i < pd.comp.length → j < pd.comp.length → i ≠ j →
        Strands.linkingNumber pd'.cross pd'.edge pd'.comp (m i) (m j) = Strands.linkingNumber pd.cross pd.edge pd.comp i j := by
  have hT := hN.tidy
  have hP := hT.plane
  have hC := hP.consistent
  have hO := hP.oriented
  obtain ⟨e, o, X, k, hFe, t⟩ := Triangle.tri_of_face hC hT.goodFaces (List.mem_of_getElem? hF) h3 hl
  obtain ⟨pd', cross, edge, τ, σ, ρ, r1, B, R, hS, -, hN', -, -, l1, l2, -, l3⟩ := C66_triangle_flip qs qs pd hN hs f F hF h3 hl
  rw [hFe] at B
  have hO2 := B.oriented hC hO t
  have fol : ∀ e e', Follows pd.cross pd.edge e e' → Follows pd'.cross pd'.edge (τ e) (τ e') := by
    intro a b hab
    obtain ⟨a1, a2⟩ := (follows_iff hC _ _).mp hab
    have : Follows cross edge a b := (follows_iff B.consistent _ _).mpr ⟨by rw [B.elen]; exact a1, by rw [B.nx_eq hC hO t a1, a2]⟩
    have := R.follows B.consistent hO2 Regenerate.along_false this
    simpa using this
  have hnx : ∀ e, e < pd.edge.length → nx pd'.cross pd'.edge (τ e) = τ (nx pd.cross pd.edge e) := fun a ha =>
    ((follows_iff hN'.tidy.plane.consistent _ _).mp (fol _ _ ((follows_iff hC _ _).mpr ⟨ha, rfl⟩))).2
  have tlt : ∀ e, e < pd.edge.length → τ e < pd.edge.length := fun a ha => by
    have := R.tlt a (by rw [B.elen]; exact ha)
    rwa [B.elen] at this
  have tinj : ∀ e f, e < pd.edge.length → f < pd.edge.length → τ e = τ f → e = f := fun a b ha hb =>
    R.tinj a b (by rw [B.elen]; exact ha) (by rw [B.elen]; exact hb)
  have hm : ∀ i : Nat, ∃ j : Nat, i < pd.comp.length → ∃ A A' : Comp, pd.comp[i]? = some A ∧ pd'.comp[j]? = some A' ∧
      ∀ e, e < pd.edge.length → (τ e ∈ A'.edge ↔ e ∈ A.edge) := by
    intro i
    by_cases hi : i < pd.comp.length
    · obtain ⟨j, A', j1, j2⟩ := comp_match hN hN' l2 tlt tinj hnx (List.getElem_mem hi)
      exact ⟨j, fun _ => ⟨_, A', List.getElem?_eq_getElem hi, j1, j2⟩⟩
    · exact ⟨0, fun h => absurd h hi⟩
  choose m hm using hm
  have minj : ∀ i j, i < pd.comp.length → j < pd.comp.length → m i = m j → i = j := by
    intro i j hi hj hij
    obtain ⟨A, A', a1, a2, a3⟩ := hm i hi
    obtain ⟨K, K', b1, b2, b3⟩ := hm j hj
    rw [hij, b2] at a2
    cases a2
    obtain ⟨-, -, k3, -⟩ := goodComps_of_retag hT.goodComps
    obtain ⟨x, hx⟩ := List.exists_mem_of_ne_nil _ (k3 A (List.mem_of_getElem? a1))
    have hxl := comp_lt hN (List.mem_of_getElem? a1) hx
    exact comp_unique hT.goodComps a1 b1 hx ((b3 x hxl).mp ((a3 x hxl).mpr hx))
  have hs' : Signed pd' := by
    intro x' hx'
    obtain ⟨d, hd⟩ := List.mem_iff_getElem?.mp hx'
    have hdl := (List.getElem?_eq_some_iff.mp hd).1
    obtain ⟨c, c1, c2⟩ := surj_of_inj R.slt R.sinj (y := d) (by have := R.len; omega)
    have c3 : c < pd.cross.length := by have := B.len; omega
    obtain ⟨y, y1, y2⟩ := B.signs c _ (List.getElem?_eq_getElem c3)
    obtain ⟨z, z1, z2⟩ := hS c y y1
    rw [c2, hd] at z1
    cases z1
    rw [z2, y2]
    exact hsg _ (List.getElem_mem c3)
  refine ⟨pd', τ, m, r1, hs', l3, ?_, minj, ?_, fol, ?_⟩
  · intro i hi
    obtain ⟨_, _, -, a2, -⟩ := hm i hi
    rw [← l3]
    exact (List.getElem?_eq_some_iff.mp a2).1
  · intro i A A' h1 h2
    obtain ⟨K, K', a1, a2, a3⟩ := hm i (List.getElem?_eq_some_iff.mp h1).1
    rw [h1] at a1
    rw [h2] at a2
    cases a1
    cases a2
    exact a3
  · intro i j hi hj hij
    obtain ⟨A, A', a1, a2, a3⟩ := hm i hi
    obtain ⟨K, K', b1, b2, b3⟩ := hm j hj
    have mA := List.mem_of_getElem? a1
    have mB := List.mem_of_getElem? b1
    have mA' := List.mem_of_getElem? a2
    have mB' := List.mem_of_getElem? b2
    have hne : A.tag ≠ K.tag := fun q => hij (by
      have e := tag_inj hN mA mB q
      subst e
      obtain ⟨-, -, k3, -⟩ := goodComps_of_retag hT.goodComps
      obtain ⟨x, hx⟩ := List.exists_mem_of_ne_nil _ (k3 A mA)
      exact comp_unique hT.goodComps a1 b1 hx hx)
    have hne' : A'.tag ≠ K'.tag := fun q => hij (minj i j hi hj (by
      have e := tag_inj hN' mA' mB' q
      subst e
      obtain ⟨-, -, k3, -⟩ := goodComps_of_retag hN'.tidy.goodComps
      obtain ⟨x, hx⟩ := List.exists_mem_of_ne_nil _ (k3 A' mA')
      exact comp_unique hN'.tidy.goodComps a2 b2 hx hx))
    refine linking_eq hN hN' hsg hs' a1 b1 a2 b2 hne hne' ?_
    symm
    have len := B.len
    have rlen := R.len
    refine signSum_kept (σ := σ) (X := []) (fun c hc => ⟨by have := R.slt c (by omega); omega, by simp⟩)
      (fun c d hc hd => R.sinj c d (by omega) (by omega)) ?_ ?_ (by simp)
    · intro d hd _
      obtain ⟨c, c1, c2⟩ := surj_of_inj R.slt R.sinj (y := d) (by omega)
      exact ⟨c, by omega, c2⟩
    · intro c hc
      obtain ⟨y, y1, y2⟩ := B.signs c _ (List.getElem?_eq_getElem hc)
      obtain ⟨z, z1, z2⟩ := hS c y y1
      obtain ⟨z', w1, w2⟩ := R.cross c y y1
      rw [z1] at w1
      cases w1
      symm
      have place : ∀ {S S' : Comp}, S ∈ pd.comp → (∀ e, e < pd.edge.length → (τ e ∈ S'.edge ↔ e ∈ S.edge)) →
          ∀ k, z.at k ∈ S'.edge ↔ (pd.cross[c]).at (k + ρ c) ∈ S.edge := by
        intro S S' mS hSS k
        rw [w2 k, hSS _ ?_, flip_comp hN mS t B (List.getElem?_eq_getElem hc) y1]
        have hp : (c, (k + ρ c) % 4) ∈ P cross := mem_P.mpr ⟨by omega, Nat.mod_lt _ (by decide)⟩
        have hq := place_at hp (x := y) y1
        simp only at hq
        rw [at_lt, hq, ← B.elen]
        exact eslot_lt B.consistent hp
      exact term_eq hN hN' mA mB mA' mB' (List.getElem?_eq_getElem hc) z1 (by rw [z2, y2]) (place mA a3) (place mB b3)

/-- **C72, `pd_simplify`.** Linking numbers are kept. -/
theorem C72_simplify (qs : QSort) (pd : Io.Pd) (hN : Neat pd) (hs : Signed pd) (caps : Io.Caps) (pd' : Io.Pd)
    (h : Simplify.simplify qs pd = .ok (.code caps pd')) : Signed pd' ∧ SameLinks pd pd' := by
  obtain ⟨last, u, -, ⟨caps', q, -⟩ | ⟨q, -⟩⟩ := C71_simplify qs qs pd hN
  swap
  · rw [h] at q
    cases q
  rw [h] at q
  cases q
  have key : ∀ last, Unlooped pd last → Neat last ∧ Signed last ∧ SameLinks pd last ∧
      (last.comp.map (·.tag)).Perm (pd.comp.map (·.tag)) := by
    intro last u
    induction u with
    | refl =>
      refine ⟨hN, hs, ?_, .refl _⟩
      intro i j i' j' A B A' B' hi hj hi' hj' tA tB hne
      have e1 := tag_inj hN (List.mem_of_getElem? hi) (List.mem_of_getElem? hi') tA
      have e2 := tag_inj hN (List.mem_of_getElem? hj) (List.mem_of_getElem? hj') tB
      subst e1 e2
      obtain ⟨-, -, k3, -⟩ := goodComps_of_retag hN.tidy.goodComps
      obtain ⟨x, hx⟩ := List.exists_mem_of_ne_nil _ (k3 A (List.mem_of_getElem? hi))
      obtain ⟨y, hy⟩ := List.exists_mem_of_ne_nil _ (k3 B (List.mem_of_getElem? hj))
      rw [comp_unique hN.tidy.goodComps hi hi' hx hx, comp_unique hN.tidy.goodComps hj hj' hy hy]
    | @step q q' c e0 e1 e2 τ σ ρ _ n L a b ih =>
      obtain ⟨i1, i2, i3, i4⟩ := ih
      obtain ⟨s1, s2⟩ := loop_links i1 n i2 L b
      refine ⟨n, s1, ?_, a.trans i4⟩
      intro i j i' j' A B A' B' hi hj hi' hj' tA tB hne
      have mid : ∀ {K : Comp}, K ∈ pd.comp → ∃ (l : Nat) (K' : Comp), q.comp[l]? = some K' ∧ K.tag = K'.tag := by
        intro K hK
        obtain ⟨K', h1, h2⟩ := List.mem_map.mp (i4.mem_iff.mpr (List.mem_map_of_mem hK))
        obtain ⟨l, hl⟩ := List.mem_iff_getElem?.mp h1
        exact ⟨l, K', hl, h2.symm⟩
      obtain ⟨l, K, l1, l2⟩ := mid (List.mem_of_getElem? hi)
      obtain ⟨r, M, r1, r2⟩ := mid (List.mem_of_getElem? hj)
      rw [s2 l r i' j' K M A' B' l1 r1 hi' hj' (l2.symm.trans tA) (r2.symm.trans tB) (by rw [← l2, ← r2]; exact hne)]
      exact i3 i j l r A B K M hi hj l1 r1 l2 r2 hne
  exact ⟨(key _ u).2.1, (key _ u).2.2.1⟩

/-- The loop which `pd_R1_loop_addition` adds has no sign: after that `pd_linking_number` stops the program for all components. -/
theorem C72_loop_addition_stops (qs : QSort) (pd : Io.Pd) (hN : Neat pd) (hs : 2 * (pd.edge.length + 2) < 2 ^ 31) (f i e : Nat) (eo : Or)
    (F : Face) (hF : pd.face[f]? = some F) (he : F.edge[i]? = some e) (ho : F.orient[i]? = some eo) :
    ∃ caps pd', loopAddition qs pd f i = .ok (.code caps pd') ∧
      ∀ j k, Strands.linkingNumber pd'.cross pd'.edge pd'.comp j k = .error .die := by
  obtain ⟨pd', c, e1, e2, τ, σ, ρ, h1, -, -, -, -, -, -, -, -, ⟨x, x1, x2⟩, -⟩ := C63_add_loop qs qs pd hN hs f i e eo F hF he ho
  refine ⟨_, pd', h1, fun j k => ?_⟩
  have : pd'.cross.all (fun c => decide (c.sign ≠ .unset)) = false := by
    rw [List.all_eq_false]
    exact ⟨x, List.mem_of_getElem? x1, by simp [x2]⟩
  unfold Strands.linkingNumber
  rw [this]
  by_cases hj : j < pd'.comp.length
  · by_cases hk : k < pd'.comp.length
    · simp [assertC, hj, hk]
    · simp [assertC, hj, hk]
  · simp [assertC, hj]

/-! ### Concrete cases -/

/-- Two linked circles, the first one with a loop. -/
def linkedPd : Io.Pd := ⟨[], 0, [⟨0, 0, 1, 3, .pos⟩, ⟨1, 4, 2, 5, .pos⟩, ⟨2, 4, 3, 5, .pos⟩], loopedPd.edge, loopedPd.comp, loopedPd.face⟩

theorem BigonDel.linked_plane : PlaneDiagram linkedPd.cross linkedPd.edge := by
  have hC : Consistent linkedPd.cross linkedPd.edge := by decide
  refine ⟨hC, by decide, by decide, connected_of (by decide), planeFaces_of hC 12 (by decide) (by decide +kernel)
    [(0, .pos), (1, .pos), (2, .neg), (2, .pos), (0, .neg)] rfl (by decide) (by decide) (by decide +kernel) (by decide +kernel)⟩

theorem BigonDel.linked_neat : Neat linkedPd := by
  obtain ⟨cross', edge', comps, faces, h1, h2, -⟩ := C51_regenerated_ok insQSort insQSort 3 linkedPd.cross linkedPd.edge linkedPd.edge
    linked_plane (Or.inl ⟨rfl, _, List.mem_cons_self, by decide⟩) (by decide) (by decide)
  have h3 : Regenerate.regenerate insQSort (Io.capsNew 3).edges (Io.capsNew 3).comps (Io.capsNew 3).faces linkedPd.cross linkedPd.edge =
      .ok (linkedPd.cross, linkedPd.edge, linkedPd.comp, linkedPd.face) := by decide +kernel
  rw [h3] at h1
  cases h1
  exact Tidy.neat h2

/-- The circles stay linked when the loop is taken off. -/
example : ∃ caps pd', Simplify.simplify insQSort linkedPd = .ok (.code caps pd') ∧ ∀ (i j : Nat) (A B : Comp), pd'.comp[i]? = some A →
    pd'.comp[j]? = some B → A.tag = 65 → B.tag = 66 → Strands.linkingNumber pd'.cross pd'.edge pd'.comp i j = .ok 1 := by
  obtain ⟨caps, pd', h, -⟩ := C71_components insQSort linkedPd BigonDel.linked_neat (by decide)
  refine ⟨caps, pd', h, fun i j A B hi hj hA hB => ?_⟩
  rw [(C72_simplify insQSort linkedPd BigonDel.linked_neat (by unfold Signed; decide) caps pd' h).2 0 1 i j _ _ A B rfl rfl hi hj hA.symm hB.symm
    (by decide)]
  decide +kernel

/-- Two strands twisted three times one way and once the other way. -/
def fourPd : Io.Pd := ⟨[], 0,
  [⟨0, 4, 1, 5, .pos⟩, ⟨0, 7, 3, 4, .neg⟩, ⟨1, 6, 2, 5, .pos⟩, ⟨2, 6, 3, 7, .pos⟩],
  [⟨0, 0, 1, 0⟩, ⟨2, 0, 0, 2⟩, ⟨3, 0, 2, 2⟩, ⟨1, 2, 3, 2⟩, ⟨0, 1, 1, 3⟩, ⟨2, 3, 0, 3⟩, ⟨3, 1, 2, 1⟩, ⟨1, 1, 3, 3⟩],
  [⟨[0, 1, 2, 3], 65⟩, ⟨[4, 5, 6, 7], 66⟩],
  [⟨[0, 5, 2, 7], [.pos, .pos, .pos, .pos]⟩, ⟨[1, 4, 3, 6], [.neg, .neg, .neg, .neg]⟩, ⟨[0, 4], [.neg, .pos]⟩, ⟨[1, 5], [.pos, .neg]⟩,
    ⟨[2, 6], [.neg, .pos]⟩, ⟨[3, 7], [.pos, .neg]⟩]⟩

theorem BigonDel.four_plane : PlaneDiagram fourPd.cross fourPd.edge := by
  have hC : Consistent fourPd.cross fourPd.edge := by decide
  refine ⟨hC, by decide, by decide, connected_of (by decide), planeFaces_of hC 4 (by decide) (by decide +kernel)
    [(0, .pos), (1, .neg), (0, .neg), (1, .pos), (2, .neg), (3, .pos)] rfl (by decide) (by decide) (by decide +kernel) (by decide +kernel)⟩

theorem BigonDel.four_neat : Neat fourPd := by
  obtain ⟨cross', edge', comps, faces, h1, h2, -⟩ := C51_regenerated_ok insQSort insQSort 4 fourPd.cross fourPd.edge fourPd.edge
    four_plane (Or.inl ⟨rfl, _, List.mem_cons_self, by decide⟩) (by decide) (by decide)
  have h3 : Regenerate.regenerate insQSort (Io.capsNew 4).edges (Io.capsNew 4).comps (Io.capsNew 4).faces fourPd.cross fourPd.edge =
      .ok (fourPd.cross, fourPd.edge, fourPd.comp, fourPd.face) := by decide +kernel
  rw [h3] at h1
  cases h1
  exact Tidy.neat h2

example : ∃ caps pd', loopAddition insQSort fourPd 0 0 = .ok (.code caps pd') ∧
    ∀ j k, Strands.linkingNumber pd'.cross pd'.edge pd'.comp j k = .error .die :=
  C72_loop_addition_stops insQSort fourPd BigonDel.four_neat (by decide) 0 0 0 .pos _ rfl rfl rfl

/-- One twist each way is undone; the linking number is still 1. -/
example : ∃ outs, bigonElimination insQSort (Io.capsNew 4) fourPd 0 1 = .ok outs ∧
    ∀ caps pd', .code caps pd' ∈ outs → ∀ (i j : Nat) (A B : Comp), pd'.comp[i]? = some A → pd'.comp[j]? = some B →
      A.tag = 65 → B.tag = 66 → Strands.linkingNumber pd'.cross pd'.edge pd'.comp i j = .ok 1 := by
  obtain ⟨outs, h1, h2, -⟩ := C72_bigon_elimination insQSort (Io.capsNew 4) fourPd BigonDel.four_neat (by unfold Signed; decide)
    (by decide +kernel) 0 1 (by decide) (by decide) (by decide)
    (BigonDel.strands_of BigonDel.four_plane (by decide) (by decide) (by decide) (by decide +kernel))
  refine ⟨outs, h1, fun caps pd' hm i j A B hi hj hA hB => ?_⟩
  rw [(h2 caps pd' hm).2 0 1 i j _ _ A B rfl rfl hi hj hA.symm hB.symm (by decide)]
  decide +kernel

/-- Three strands with a full twist. -/
def fullTwistPd : Io.Pd := ⟨[], 0,
  [⟨0, 4, 1, 5, .pos⟩, ⟨0, 7, 3, 4, .pos⟩, ⟨1, 8, 2, 9, .pos⟩, ⟨2, 8, 3, 11, .pos⟩, ⟨5, 9, 6, 10, .pos⟩, ⟨6, 11, 7, 10, .pos⟩],
  [⟨0, 0, 1, 0⟩, ⟨2, 0, 0, 2⟩, ⟨3, 0, 2, 2⟩, ⟨1, 2, 3, 2⟩, ⟨0, 1, 1, 3⟩, ⟨4, 0, 0, 3⟩, ⟨5, 0, 4, 2⟩, ⟨1, 1, 5, 2⟩, ⟨2, 1, 3, 1⟩,
    ⟨4, 1, 2, 3⟩, ⟨5, 3, 4, 3⟩, ⟨3, 3, 5, 1⟩],
  [⟨[0, 1, 2, 3], 65⟩, ⟨[4, 5, 6, 7], 66⟩, ⟨[8, 9, 10, 11], 67⟩],
  [⟨[0, 5, 10, 7], [.pos, .pos, .pos, .pos]⟩, ⟨[1, 4, 3, 8], [.neg, .neg, .neg, .pos]⟩, ⟨[2, 11, 6, 9], [.pos, .neg, .neg, .neg]⟩,
    ⟨[1, 9, 5], [.pos, .pos, .neg]⟩, ⟨[3, 7, 11], [.pos, .neg, .pos]⟩, ⟨[0, 4], [.neg, .pos]⟩, ⟨[2, 8], [.neg, .neg]⟩,
    ⟨[6, 10], [.pos, .neg]⟩]⟩

theorem Triangle.full_plane : PlaneDiagram fullTwistPd.cross fullTwistPd.edge := by
  have hC : Consistent fullTwistPd.cross fullTwistPd.edge := by decide
  refine ⟨hC, by decide, by decide, connected_of (by decide), planeFaces_of hC 12 (by decide) (by decide +kernel)
    [(0, .pos), (1, .neg), (2, .pos), (1, .pos), (3, .pos), (0, .neg), (2, .neg), (6, .pos)] rfl (by decide) (by decide) (by decide +kernel)
    (by decide +kernel)⟩

theorem Triangle.full_neat : Neat fullTwistPd := by
  obtain ⟨cross', edge', comps, faces, h1, h2, -⟩ := C51_regenerated_ok insQSort insQSort 6 fullTwistPd.cross fullTwistPd.edge
    fullTwistPd.edge full_plane (Or.inl ⟨rfl, _, List.mem_cons_self, by decide⟩) (by decide) (by decide)
  have h3 : Regenerate.regenerate insQSort (Io.capsNew 6).edges (Io.capsNew 6).comps (Io.capsNew 6).faces fullTwistPd.cross
      fullTwistPd.edge = .ok (fullTwistPd.cross, fullTwistPd.edge, fullTwistPd.comp, fullTwistPd.face) := by decide +kernel
  rw [h3] at h1
  cases h1
  exact Tidy.neat h2

/-- Any two of the three strands are still linked once when one of the triangles is turned over. -/
example (qs : QSort) : ∃ (pd' : Io.Pd) (m : Nat → Nat), triangleFlip qs fullTwistPd 3 = .ok (some (.code (Io.capsNew 6) pd')) ∧
    ∀ i j, i < 3 → j < 3 → i ≠ j → Strands.linkingNumber pd'.cross pd'.edge pd'.comp (m i) (m j) = .ok 1 := by
  obtain ⟨pd', τ, m, h1, -, -, -, -, -, -, h2⟩ := C72_triangle_flip qs fullTwistPd Triangle.full_neat (by unfold Signed; decide) (by decide)
    3 _ rfl rfl (by decide)
  refine ⟨pd', m, h1, fun i j hi hj hij => ?_⟩
  rw [h2 i j hi hj hij]
  have all : ∀ i, i < 3 → ∀ j, j < 3 → i ≠ j →
      Strands.linkingNumber fullTwistPd.cross fullTwistPd.edge fullTwistPd.comp i j = .ok 1 := by decide +kernel
  exact all i hi j hj hij

end Plc
