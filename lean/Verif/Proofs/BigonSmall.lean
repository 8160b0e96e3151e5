import Verif.Proofs.BigonSplit
import Verif.Proofs.BigonSite

/-! The bigon move: two crossings, and signs. -/

namespace Plc

open Plc.Core Plc.Cmp Plc.Places Plc.Faces Plc.Orbit Plc.Buffers Plc.Moves Plc.Comps Plc.Planar Plc.BigonDel Plc.Isotopy Plc.Ok List

theorem apart_iff {cross : List Cross} {edge : List Edge} (hC : Consistent cross edge) {c0 c1 : Nat} {lab : Nat → Prop} :
    Apart cross edge c0 c1 lab ↔ Separates cross edge c0 c1 lab := by
  constructor
  · rintro ⟨h1, h2⟩
    refine ⟨fun e he => (h1 e _ ((follows_iff hC _ _).mpr ⟨he, rfl⟩)).symm, ?_⟩
    intro e x he hx h n0 n1
    exact h2 e x _ _ (bang he) (bang hx) h n0 n1
  · rintro ⟨h1, h2⟩
    constructor
    · intro e e' hf
      obtain ⟨q1, q2⟩ := (follows_iff hC _ _).mp hf
      rw [← q2, h1 e q1]
    · intro e x r q hr hq h n0 n1
      obtain ⟨g1, g2⟩ := getBang hr
      obtain ⟨g3, g4⟩ := getBang hq
      refine h2 e x g2 g4 ?_ ?_ ?_
      · rw [g1, g3]; exact h
      · rw [g1]; exact n0
      · rw [g1]; exact n1

theorem perm_two {α : Type} {l : List α} (h : l.length = 2) {i j : Nat} (hij : i ≠ j) {x y : α} (hi : l[i]? = some x)
    (hj : l[j]? = some y) : [x, y].Perm l := by
  match l, h with
  | [a, b], _ =>
    have h1 := (List.getElem?_eq_some_iff.mp hi).1
    have h2 := (List.getElem?_eq_some_iff.mp hj).1
    simp only [List.length_cons, List.length_nil] at h1 h2
    have : (i = 0 ∧ j = 1) ∨ (i = 1 ∧ j = 0) := by omega
    rcases this with ⟨rfl, rfl⟩ | ⟨rfl, rfl⟩
    · simp only [List.getElem?_cons_zero, List.getElem?_cons_succ, Option.some.injEq] at hi hj
      rw [hi, hj]
    · simp only [List.getElem?_cons_zero, List.getElem?_cons_succ, Option.some.injEq] at hi hj
      rw [hi, hj]
      exact List.Perm.swap _ _ _

theorem small_ok {pd : Io.Pd} (hN : Neat pd) {s : Site} (L : LensAt pd.cross pd.edge s) (hV : pd.cross.length = 2) :
    (pd.comp.length = 2 ∨ pd.comp.length = 1) ∧
    ∃ ts : List Nat, small pd s = .ok (ts.map .unknot) ∧ ts.Perm (pd.comp.map (·.tag)) := by
  have hT := hN.tidy
  have hP := hT.plane
  have hC := hP.consistent
  have hO := hP.oriented
  have hK := hT.goodComps
  have hc0 : s.c0 < pd.cross.length := by rw [← L.ha0]; exact (mem_P.mp (hd_mem hC L.la0).1).1
  have hc1 : s.c1 < pd.cross.length := by rw [← L.ha1]; exact (mem_P.mp (hd_mem hC L.la1).1).1
  have hall : ∀ e, e < pd.edge.length → e = s.a0 ∨ e = s.a1 ∨ e = s.b0 ∨ e = s.b1 := by
    intro e he
    refine (L.head_iff hC hO he).mp ?_
    have := (mem_P.mp (hd_mem hC he).1).1
    have := L.ne
    omega
  have hI := injOn_nx hC hO
  have mr : ∀ {e : Nat}, e < pd.edge.length → e ∈ Finset.range pd.edge.length := fun h => Finset.mem_range.mpr h
  obtain ⟨k1, -, k3, -⟩ := goodComps_of_retag hK
  rcases hall _ L.la2 with ha | ha | ha | ha
  · -- two circles
    have hb : s.b2 = s.b0 := by
      rcases hall _ L.lb2 with q | q | q | q
      · have : nx pd.cross pd.edge s.b1 = nx pd.cross pd.edge s.a1 := by rw [L.nb1, L.na1, q, ha]
        exact absurd (hI.inj _ (mr L.lb1) _ (mr L.la1) this) L.b1a1
      · exact absurd q L.b2a1
      · exact q
      · exact absurd q.symm L.b1b2
    obtain ⟨kA, pA, cA, a1, a2, a3⟩ := comp_of hN L.la0
    obtain ⟨kB, pB, cB, b1, b2, b3⟩ := comp_of hN L.lb0
    have hne : kA ≠ kB := by
      rintro rfl
      rw [a2] at b2
      cases b2
      have := (lab_const hC hK (lab := fun e => e = s.a0 ∨ e = s.a1) (fun e he => by
        have i1 : nx pd.cross pd.edge e = s.a1 ↔ e = s.a0 := by
          rw [← L.na0]
          exact ⟨fun q => hI.inj _ (mr he) _ (mr L.la0) q, fun q => by rw [q]⟩
        have i2 : nx pd.cross pd.edge e = s.a0 ↔ e = s.a1 := by
          rw [← ha, ← L.na1]
          exact ⟨fun q => hI.inj _ (mr he) _ (mr L.la1) q, fun q => by rw [q]⟩
        rw [i1, i2]
        exact or_comm) (List.mem_of_getElem? a2) a3 b3).mp (.inl rfl)
      rcases this with q | q
      · exact L.b0a0 q
      · exact L.b0a1 q
    have lA : kA < pd.comp.length := (List.getElem?_eq_some_iff.mp a2).1
    have lB : kB < pd.comp.length := (List.getElem?_eq_some_iff.mp b2).1
    have m0 : ∀ {c : Comp}, c ∈ pd.comp → s.a1 ∈ c.edge → s.a0 ∈ c.edge := fun hc h => by
      rw [← L.na0] at h; exact (mem_comp_nx hC hO hK hc L.la0).mp h
    have m1 : ∀ {c : Comp}, c ∈ pd.comp → s.b1 ∈ c.edge → s.b0 ∈ c.edge := fun hc h => by
      rw [← L.nb0] at h; exact (mem_comp_nx hC hO hK hc L.lb0).mp h
    have htwo : ∀ i, i < pd.comp.length → i = kA ∨ i = kB := by
      intro i hi
      have hg := List.getElem?_eq_getElem hi
      have hm := List.mem_of_getElem? hg
      obtain ⟨e, he⟩ := List.exists_mem_of_ne_nil _ (k3 _ hm)
      rcases hall e (comp_lt hN hm he) with q | q | q | q
      · rw [q] at he; exact .inl (comp_unique hK hg a2 he a3)
      · rw [q] at he; exact .inl (comp_unique hK hg a2 (m0 hm he) a3)
      · rw [q] at he; exact .inr (comp_unique hK hg b2 he b3)
      · rw [q] at he; exact .inr (comp_unique hK hg b2 (m1 hm he) b3)
    have hlen : pd.comp.length = 2 := by
      by_contra hn
      have l3 : 2 < pd.comp.length := by omega
      have q0 := htwo 0 (by omega)
      have q1 := htwo 1 (by omega)
      have q2 := htwo 2 l3
      omega
    refine ⟨.inl hlen, ?_⟩
    obtain ⟨i, u, hi, hu, hiu, hic, huc, so, su, -⟩ := strands_nx hC hO hc0
    -- the component of an edge that comes in
    have hcomp : ∀ x, x < pd.edge.length → ∃ (j p : Nat) (c : Comp), Strands.compAndPos pd.edge.length pd.comp x = .ok (j, p) ∧
        pd.comp[j]? = some c ∧ ((x = s.a0 ∨ x = s.a1) → j = kA) ∧ ((x = s.b0 ∨ x = s.b1) → j = kB) := by
      intro x hx
      obtain ⟨j, p, c, j1, j2, j3⟩ := comp_of hN hx
      have hm := List.mem_of_getElem? j2
      refine ⟨j, p, c, j1, j2, ?_, ?_⟩
      · rintro (q | q)
        · rw [q] at j3; exact comp_unique hK j2 a2 j3 a3
        · rw [q] at j3; exact comp_unique hK j2 a2 (m0 hm j3) a3
      · rintro (q | q)
        · rw [q] at j3; exact comp_unique hK j2 b2 j3 b3
        · rw [q] at j3; exact comp_unique hK j2 b2 (m1 hm j3) b3
    obtain ⟨jo, po, co, o1, o2, o3, o4⟩ := hcomp i hi
    obtain ⟨ju, pu, cu, u1, u2, u3, u4⟩ := hcomp u hu
    have hone : ∀ x, x < pd.edge.length → (hd pd.edge[x]!).1 = s.c0 → x = s.a0 ∨ ((x = s.b0 ∨ x = s.b1) ∧
        ∀ y, y < pd.edge.length → (hd pd.edge[y]!).1 = s.c0 → y ≠ x → y = s.a0) := by
      intro x hx hxc
      rcases L.in_c0 hC hO hx hxc with q | ⟨q, r⟩ | ⟨q, r⟩
      · exact .inl q
      · refine .inr ⟨.inl q, fun y hy hyc hyx => ?_⟩
        rcases third_in hC hO L.la0 hx hy (by rw [q]; exact Ne.symm L.b0a0) (L.ha0.trans hxc.symm) (hyc.trans hxc.symm) with w | w
        · exact w
        · exact absurd w hyx
      · refine .inr ⟨.inr q, fun y hy hyc hyx => ?_⟩
        rcases third_in hC hO L.la0 hx hy (by rw [q]; exact Ne.symm L.b1a0) (L.ha0.trans hxc.symm) (hyc.trans hxc.symm) with w | w
        · exact w
        · exact absurd w hyx
    have hju : jo ≠ ju := by
      rcases hone i hi hic with q | ⟨q, r⟩
      · rcases hone u hu huc with q' | ⟨q', -⟩
        · exact absurd (q.trans q'.symm) hiu
        · rw [o3 (.inl q), u4 q']; exact hne
      · rw [o4 q, u3 (.inl (r u hu huc (Ne.symm hiu)))]
        exact Ne.symm hne
    refine ⟨[co.tag, cu.tag], ?_, ?_⟩
    · unfold small
      rw [if_pos hlen, so, ok_bind]
      simp only
      rw [su, ok_bind]
      simp only
      rw [o1, ok_bind]
      simp only
      rw [u1, ok_bind]
      simp only
      rw [rd_ok o2, ok_bind, rd_ok u2, ok_bind]
      rfl
    · exact (perm_two hlen hju o2 u2).map _
  · exact absurd ha.symm L.a1a2
  · -- one circle
    have hb : s.b2 = s.a0 := by
      rcases hall _ L.lb2 with q | q | q | q
      · exact q
      · exact absurd q L.b2a1
      · have : nx pd.cross pd.edge s.b1 = nx pd.cross pd.edge s.a1 := by rw [L.nb1, L.na1, q, ha]
        exact absurd (hI.inj _ (mr L.lb1) _ (mr L.la1) this) L.b1a1
      · exact absurd q.symm L.b1b2
    have hlen := (L.alone hN ha.symm hb).2
    refine ⟨.inr hlen, ?_⟩
    match hcs : pd.comp, hlen with
    | [c], _ =>
      refine ⟨[c.tag], ?_, List.Perm.refl _⟩
      unfold small
      rw [hcs]
      rfl
  · exact absurd ha.symm L.b1a2

/-- Sides with the same value for all functions on faces are in the same face. -/
theorem in_face {cross : List Cross} {edge : List Edge} (hC : Consistent cross edge) {faces : List Face}
    (hF : GoodFaces cross edge faces) {G : Face} (hG : G ∈ faces) {d d' : Dart} (hd : d ∈ sides G) (hD : d ∈ D edge) (hd' : d' ∈ D edge)
    (hall : ∀ f, FaceFn cross edge f → f d' = f d) : d' ∈ sides G := by
  have hI := injOn_nd hC
  obtain ⟨s, s1, s2, -⟩ := Ok.face_cyc hC hF hG
  rw [s2] at hd ⊢
  exact (hI.mem_cyc s1).mpr (reach_trans ((hI.mem_cyc s1).mp hd) ((hI.mem_cyc hD).mp (same_face hC hD hd' hall)))

/-- The sign at a crossing says from which side the strand below comes. -/
theorem over_side {cross : List Cross} {edge : List Edge} (hC : Consistent cross edge) (hO : Oriented cross edge) {x u c : Nat}
    (hx : PassesOver cross edge x c) (hu : u < edge.length) (hne : x ≠ u) (huc : (hd edge[u]!).1 = c) {k : Cross}
    (hk : cross[c]? = some k) : (k.sign = .neg → Rt edge u x) ∧ (k.sign ≠ .neg → Rt edge x u) := by
  obtain ⟨x1, x2, w, k', w1, w2, w3⟩ := over_turn hx
  rw [hk] at w2
  cases w2
  have hwc : (hd edge[w]!).1 = c := by rw [w3]; exact x2
  have px := (hd_mem hC x1).1
  have hw : w = u := by
    rcases third_in hC hO hu x1 w1 (Ne.symm hne) (huc.trans x2.symm) (hwc.trans x2.symm) with q | q
    · exact q
    · rw [q] at w3
      exact (turn_ne px _ (by split <;> decide) w3.symm).elim
  rw [hw] at w3
  constructor
  · intro hs
    rw [if_pos hs] at w3
    unfold Rt
    rw [w3]
    have := (mem_P.mp px).2
    unfold turn
    rw [Prod.ext_iff]
    simp only [true_and]
    omega
  · intro hs
    rw [if_neg hs] at w3
    exact w3

end Plc
