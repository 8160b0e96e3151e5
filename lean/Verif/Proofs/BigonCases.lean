import Verif.Proofs.BigonJoin

/-! Which of the cases of the bigon move applies. -/

namespace Plc

open Plc.Core Plc.Cmp Plc.Places Plc.Faces Plc.Buffers Plc.Moves Plc.Comps Plc.Planar Plc.BigonDel Plc.Isotopy Plc.Ok List

theorem prev_ex {cross : List Cross} {edge : List Edge} (hC : Consistent cross edge) (hO : Oriented cross edge) {e : Nat}
    (he : e < edge.length) : ∃ p, p < edge.length ∧ nx cross edge p = e := by
  have hI := injOn_nx hC hO
  have := Finset.surjOn_of_injOn_of_card_le (s := Finset.range edge.length) (t := Finset.range edge.length) (nx cross edge)
    (fun x hx => hI.maps x hx) (fun x hx y hy q => hI.inj x hx y hy q) (Nat.le_refl _)
  obtain ⟨p, h1, h2⟩ := this (Finset.mem_coe.mpr (Finset.mem_range.mpr he))
  exact ⟨p, Finset.mem_range.mp (Finset.mem_coe.mp h1), h2⟩

theorem or_turn (p q r t : Prop) : (p ∨ q ∨ r ∨ t) ↔ (q ∨ r ∨ t ∨ p) := by tauto

/-- One closed strand which meets itself twice and nothing else: there are just these two crossings, and one component. -/
theorem LensAt.alone {pd : Io.Pd} (hN : Neat pd) {s : Site} (L : LensAt pd.cross pd.edge s) (h1 : s.b0 = s.a2) (h2 : s.b2 = s.a0) :
    pd.cross.length = 2 ∧ pd.comp.length = 1 := by
  have hT := hN.tidy
  have hP := hT.plane
  have hC := hP.consistent
  have hO := hP.oriented
  have hc0 : s.c0 < pd.cross.length := by rw [← L.ha0]; exact (mem_P.mp (hd_mem hC L.la0).1).1
  have hc1 : s.c1 < pd.cross.length := by rw [← L.ha1]; exact (mem_P.mp (hd_mem hC L.la1).1).1
  have hall : ∀ c, c < pd.cross.length → c = s.c0 ∨ c = s.c1 := by
    intro c hc
    refine (connected_prop hP.connected (g := fun c => c = s.c0 ∨ c = s.c1) ?_ hc hc0).mpr (.inl rfl)
    intro r hr
    obtain ⟨e, he⟩ := List.mem_iff_getElem?.mp hr
    obtain ⟨g1, g2⟩ := getBang he
    have i1 := L.head_iff hC hO g2
    have i2 := L.tail_iff hC hO g2
    rw [g1] at i1 i2
    simp only [hd, tl] at i1 i2
    rw [i1, i2, h1, h2]
    exact or_turn _ _ _ _
  have hV : pd.cross.length = 2 := by
    have e1 : Finset.range pd.cross.length = {s.c0, s.c1} := by
      ext c
      rw [Finset.mem_range, Finset.mem_insert, Finset.mem_singleton]
      refine ⟨hall c, ?_⟩
      rintro (rfl | rfl)
      · exact hc0
      · exact hc1
    have := congrArg Finset.card e1
    rw [Finset.card_range, Finset.card_pair L.ne] at this
    exact this
  refine ⟨hV, ?_⟩
  obtain ⟨k1, -, k3, -⟩ := goodComps_of_retag hT.goodComps
  have hin : ∀ c ∈ pd.comp, s.a0 ∈ c.edge := by
    intro c hc
    obtain ⟨e, he⟩ := List.exists_mem_of_ne_nil _ (k3 c hc)
    have hl : e < pd.edge.length := by
      have : e ∈ pd.comp.flatMap (·.edge) := List.mem_flatMap.mpr ⟨c, hc, he⟩
      rw [k1] at this
      exact List.mem_range.mp this
    have m0 := mem_comp_nx hC hO hT.goodComps hc L.la0
    have m1 := mem_comp_nx hC hO hT.goodComps hc L.la1
    have m2 := mem_comp_nx hC hO hT.goodComps hc L.lb0
    rw [L.na0] at m0
    rw [L.na1] at m1
    rw [L.nb0, h1] at m2
    have hh := hall _ (mem_P.mp (hd_mem hC hl).1).1
    rcases (L.head_iff hC hO hl).mp hh with rfl | rfl | rfl | rfl
    · exact he
    · exact m0.mp he
    · rw [h1] at he
      exact m0.mp (m1.mp he)
    · exact m0.mp (m1.mp (m2.mp he))
  have hle : pd.comp.length ≤ 1 := by
    by_contra hgt
    have q0 : pd.comp[0]? = some (pd.comp[0]'(by omega)) := List.getElem?_eq_getElem _
    have q1 : pd.comp[1]? = some (pd.comp[1]'(by omega)) := List.getElem?_eq_getElem _
    have := comp_unique hT.goodComps q0 q1 (hin _ (List.mem_of_getElem? q0)) (hin _ (List.mem_of_getElem? q1))
    omega
  have hpos : pd.comp ≠ [] := by
    intro hnil
    rw [hnil] at k1
    have := L.la0
    simp only [List.flatMap_nil] at k1
    have := congrArg List.length k1
    simp at this
    omega
  have := List.length_pos_iff.mpr hpos
  omega

/-- The faces `F1` and `F2` say whether anything separates the strands. -/
theorem outer_cases {pd : Io.Pd} (hN : Neat pd) {s : Site} (hL : Lens pd.cross pd.edge s) :
    ∃ f1 f2, outerFaces pd.cross pd.edge pd.face s = .ok (f1, f2) ∧
      (f1 ≠ f2 → ¬ (pd.cross.length = 2 ∧ pd.comp.length = 1) → s.a0 ≠ s.a2 ∧ s.b0 ≠ s.b2 ∧ ¬ (s.b0 = s.a2 ∧ s.b2 = s.a0) ∧
        ∀ lab, Separates pd.cross pd.edge s.c0 s.c1 lab → lab s.a0 → lab s.b0) ∧
      (f1 = f2 → ∃ lab, Separates pd.cross pd.edge s.c0 s.c1 lab ∧ lab s.a0 ∧ ¬ lab s.b0) := by
  have hT := hN.tidy
  have hP := hT.plane
  have hC := hP.consistent
  have hO := hP.oriented
  have L := hL.at hC hO
  obtain ⟨F, hF1, hF2, hF3⟩ := face_numbers hP hT.goodFaces
  obtain ⟨o, ho, h1, h2⟩ := LensAt.outer hP L hF1 hF2 hF3
  have m0 : ((s.a0, o) : Dart) ∈ D pd.edge := mem_D.mpr ⟨L.la0, ho⟩
  have m2 : ((s.a2, o) : Dart) ∈ D pd.edge := mem_D.mpr ⟨L.la2, ho⟩
  have hiff := hF3 _ m0 _ m2
  refine ⟨_, _, h1, ?_, ?_⟩
  · intro hne hns
    have hb : s.b0 ≠ s.b2 := by
      intro hbb
      rcases h2 with ⟨o', -, hB⟩ | ⟨-, hB⟩
      · refine hne (hiff.mpr (fun f hf => ?_))
        obtain ⟨q1, q2, q3⟩ := hB f hf
        rw [hbb, CharTwo.add_self_eq_zero] at q3
        have := congrArg (· + f (s.a2, o)) q3
        simp only [zero_add, add_assoc, CharTwo.add_self_eq_zero, add_zero] at this
        exact this
      · have := hB (fun e => e ≠ s.b0 ∧ e ≠ s.b1) ?_ ⟨Ne.symm L.b0a0, Ne.symm L.b1a0⟩
        · exact this.1 rfl
        · intro e he
          have hI := injOn_nx hC hO
          have mr : ∀ {e : Nat}, e < pd.edge.length → e ∈ Finset.range pd.edge.length := fun h => Finset.mem_range.mpr h
          have i1 : nx pd.cross pd.edge e = s.b1 ↔ e = s.b0 := by
            rw [← L.nb0]
            exact ⟨fun q => hI.inj _ (mr he) _ (mr L.lb0) q, fun q => by rw [q]⟩
          have i2 : nx pd.cross pd.edge e = s.b0 ↔ e = s.b1 := by
            rw [hbb, ← L.nb1]
            exact ⟨fun q => hI.inj _ (mr he) _ (mr L.lb1) q, fun q => by rw [q]⟩
          simp only [ne_eq, i1, i2]
          exact and_comm
    refine ⟨?_, hb, ?_, ?_⟩
    · intro q
      rw [q] at hne
      exact hne rfl
    · rintro ⟨q1, q2⟩
      exact hns (L.alone hN q1 q2)
    · intro lab S ha
      rcases h2 with hB | ⟨-, hB⟩
      · by_contra hn
        exact hne (hiff.mpr (fun f hf => LensAt.separated_same hP L S ha hn ho hB hf))
      · exact hB lab S.along ha
  · intro heq
    rcases h2 with hB | ⟨hB, -⟩
    · exact LensAt.separated hP L hB (hiff.mp heq)
    · exact absurd heq hB

end Plc
