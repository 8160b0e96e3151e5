import Verif.Proofs.Corners
import Verif.Spec.Lens
import Verif.Proofs.RegenTidy
import Verif.Props.Query

/-! The faces around two strands between the same two crossings. -/

namespace Plc

open Plc.Core Plc.Cmp Plc.Places Plc.Orbit Plc.Faces Plc.Comps Plc.Planar Plc.BigonDel

variable {cross : List Cross} {edge : List Edge}

/-- The numbers of the faces. -/
theorem face_numbers (h : PlaneDiagram cross edge) {faces : List Face} (hF : GoodFaces cross edge faces) :
    ∃ F : Dart → Nat, (∀ e, e < edge.length → sideFaces faces e = .ok (F (e, .pos), F (e, .neg))) ∧
      (∀ e, e < edge.length → F (e, .pos) ≠ F (e, .neg)) ∧
      ∀ d ∈ D edge, ∀ d' ∈ D edge, F d = F d' ↔ ∀ f, FaceFn cross edge f → f d' = f d := by
  have hC := h.consistent
  have hI := injOn_nd hC
  have hex : ∀ d : Dart, ∃ f, d ∈ D edge → ∃ j, SideAt faces d.1 d.2 f j := by
    intro d
    by_cases hd : d ∈ D edge
    · obtain ⟨h1, h2⟩ := mem_D.mp hd
      obtain ⟨f, j, hj⟩ := Query.side_exists hF h1 h2
      exact ⟨f, fun _ => ⟨j, hj⟩⟩
    · exact ⟨0, fun h' => absurd h' hd⟩
  choose F hFs using hex
  have mp : ∀ e, e < edge.length → ((e, .pos) : Dart) ∈ D edge := fun e he => mem_D.mpr ⟨he, .inl rfl⟩
  have mn : ∀ e, e < edge.length → ((e, .neg) : Dart) ∈ D edge := fun e he => mem_D.mpr ⟨he, .inr rfl⟩
  have hside : ∀ {d : Dart} {f j : Nat}, SideAt faces d.1 d.2 f j → ∃ G, faces[f]? = some G ∧ d ∈ sides G := by
    rintro ⟨e, o⟩ f j ⟨G, g1, g2, g3⟩
    refine ⟨G, g1, List.mem_of_getElem? (i := j) ?_⟩
    rw [sides, List.getElem?_zip_eq_some]
    exact ⟨g2, g3⟩
  refine ⟨F, ?_, ?_, ?_⟩
  · intro e he
    obtain ⟨f, i, g, j, q1, q2, q3, q4, -⟩ := C62_faces_of_edge cross edge faces h hF e he
    obtain ⟨k, hk⟩ := hFs _ (mp e he)
    obtain ⟨l, hl⟩ := hFs _ (mn e he)
    unfold sideFaces
    rw [q1, ok_bind, ((q3 _ _).mp hk).1, ((q4 _ _).mp hl).1]
  · intro e he
    obtain ⟨f, i, g, j, q1, q2, q3, q4, -⟩ := C62_faces_of_edge cross edge faces h hF e he
    obtain ⟨k, hk⟩ := hFs _ (mp e he)
    obtain ⟨l, hl⟩ := hFs _ (mn e he)
    rw [((q3 _ _).mp hk).1, ((q4 _ _).mp hl).1]
    exact q2
  · intro d hd d' hd'
    obtain ⟨j, hj⟩ := hFs d hd
    obtain ⟨j', hj'⟩ := hFs d' hd'
    obtain ⟨G, g1, g2⟩ := hside hj
    obtain ⟨G', g1', g2'⟩ := hside hj'
    obtain ⟨s, s1, s2, -⟩ := Ok.face_cyc hC hF (List.mem_of_getElem? g1)
    rw [s2] at g2
    constructor
    · intro he f hf
      rw [← he, g1] at g1'
      cases g1'
      rw [s2] at g2'
      rw [hf.cyc hC s1 g2, hf.cyc hC s1 g2']
    · intro hall
      have hc := same_face hC hd hd' hall
      have : d' ∈ sides G := by
        rw [s2]
        exact (hI.mem_cyc s1).mpr (reach_trans ((hI.mem_cyc s1).mp g2) ((hI.mem_cyc hd).mp hc))
      obtain ⟨i, hi⟩ := List.mem_iff_getElem?.mp this
      rw [sides, List.getElem?_zip_eq_some] at hi
      exact (Query.side_unique hF ⟨G, g1, hi.1, hi.2⟩ hj').1

/-- What a description of two strands says, with the edge after an edge as a function. -/
structure LensAt (cross : List Cross) (edge : List Edge) (s : Site) : Prop where
  la0 : s.a0 < edge.length
  la1 : s.a1 < edge.length
  la2 : s.a2 < edge.length
  lb0 : s.b0 < edge.length
  lb1 : s.b1 < edge.length
  lb2 : s.b2 < edge.length
  na0 : nx cross edge s.a0 = s.a1
  na1 : nx cross edge s.a1 = s.a2
  nb0 : nx cross edge s.b0 = s.b1
  nb1 : nx cross edge s.b1 = s.b2
  ha0 : (hd edge[s.a0]!).1 = s.c0
  ha1 : (hd edge[s.a1]!).1 = s.c1
  hb : ((hd edge[s.b0]!).1 = s.c0 ∧ (hd edge[s.b1]!).1 = s.c1) ∨ ((hd edge[s.b0]!).1 = s.c1 ∧ (hd edge[s.b1]!).1 = s.c0)
  ta1 : (tl edge[s.a1]!).1 = s.c0
  ta2 : (tl edge[s.a2]!).1 = s.c1
  tb1 : (tl edge[s.b1]!).1 = (hd edge[s.b0]!).1
  tb2 : (tl edge[s.b2]!).1 = (hd edge[s.b1]!).1
  ne : s.c0 ≠ s.c1
  b0a0 : s.b0 ≠ s.a0
  b1a0 : s.b1 ≠ s.a0
  b0a1 : s.b0 ≠ s.a1
  b1a1 : s.b1 ≠ s.a1
  a0a1 : s.a0 ≠ s.a1
  b0b1 : s.b0 ≠ s.b1
  a1a2 : s.a1 ≠ s.a2
  b1b2 : s.b1 ≠ s.b2
  b1a2 : s.b1 ≠ s.a2
  b2a1 : s.b2 ≠ s.a1
  b2a2 : s.b2 ≠ s.a2

theorem Lens.at {s : Site} (L : Lens cross edge s) (hC : Consistent cross edge) (hO : Oriented cross edge) : LensAt cross edge s := by
  obtain ⟨l0, n0⟩ := (follows_iff hC _ _).mp L.a01
  obtain ⟨l1, n1⟩ := (follows_iff hC _ _).mp L.a12
  obtain ⟨m0, k0⟩ := (follows_iff hC _ _).mp L.b01
  obtain ⟨m1, k1⟩ := (follows_iff hC _ _).mp L.b12
  obtain ⟨a0, a1, b0, b1, g0, g1, g2, g3, h0, h1, hb⟩ := L.heads
  have e0 : (hd edge[s.a0]!).1 = s.c0 := by rw [(getBang g0).1]; exact h0
  have e1 : (hd edge[s.a1]!).1 = s.c1 := by rw [(getBang g1).1]; exact h1
  have e2 : (hd edge[s.b0]!).1 = b0.head := by rw [(getBang g2).1]; rfl
  have e3 : (hd edge[s.b1]!).1 = b1.head := by rw [(getBang g3).1]; rfl
  have ta1 := tl_nx hC hO l0
  have ta2 := tl_nx hC hO l1
  have tb1 := tl_nx hC hO m0
  have tb2 := tl_nx hC hO m1
  rw [n0] at ta1
  rw [n1] at ta2
  rw [k0] at tb1
  rw [k1] at tb2
  have hb' : ((hd edge[s.b0]!).1 = s.c0 ∧ (hd edge[s.b1]!).1 = s.c1) ∨ ((hd edge[s.b0]!).1 = s.c1 ∧ (hd edge[s.b1]!).1 = s.c0) := by
    rw [e2, e3]; exact hb
  have a0a1 : s.a0 ≠ s.a1 := fun q => L.ne (by rw [← e0, ← e1, q])
  have b0b1 : s.b0 ≠ s.b1 := by
    intro q
    have := L.ne
    rcases hb' with ⟨x, y⟩ | ⟨x, y⟩ <;> rw [q] at x <;> rw [x] at y <;> simp_all
  have inj := fun {a b : Nat} (ha : a < edge.length) (hb : b < edge.length) => nx_inj hC hO ha hb
  exact
    { la0 := l0, la1 := l1, lb0 := m0, lb1 := m1
      la2 := by rw [← n1]; exact (nx_spec hC hO l1).1
      lb2 := by rw [← k1]; exact (nx_spec hC hO m1).1
      na0 := n0, na1 := n1, nb0 := k0, nb1 := k1, ha0 := e0, ha1 := e1, hb := hb'
      ta1 := ta1.trans e0, ta2 := ta2.trans e1, tb1 := tb1, tb2 := tb2, ne := L.ne
      b0a0 := L.na0.1, b1a0 := L.na0.2, b0a1 := L.na1.1, b1a1 := L.na1.2
      a0a1 := a0a1, b0b1 := b0b1
      a1a2 := fun q => a0a1 (inj l0 l1 (by rw [n0, n1, ← q]))
      b1b2 := fun q => b0b1 (inj m0 m1 (by rw [k0, k1, ← q]))
      b1a2 := fun q => L.na1.1 (inj m0 l1 (by rw [k0, n1, q]))
      b2a1 := fun q => L.na0.2 (inj m1 l0 (by rw [k1, n0, q]))
      b2a2 := fun q => L.na1.2 (inj m1 l1 (by rw [k1, n1, q])) }

namespace LensAt

variable {s : Site} (L : LensAt cross edge s) (hC : Consistent cross edge) (hO : Oriented cross edge)

include L hC hO

/-- The edges which come in at the two crossings. -/
theorem in_c0 {e : Nat} (he : e < edge.length) (h : (hd edge[e]!).1 = s.c0) :
    e = s.a0 ∨ (e = s.b0 ∧ (hd edge[s.b0]!).1 = s.c0) ∨ (e = s.b1 ∧ (hd edge[s.b1]!).1 = s.c0) := by
  rcases L.hb with ⟨x, y⟩ | ⟨x, y⟩
  · rcases third_in hC hO L.la0 L.lb0 he (Ne.symm L.b0a0) (L.ha0.trans x.symm) (h.trans x.symm) with q | q
    · exact .inl q
    · exact .inr (.inl ⟨q, x⟩)
  · rcases third_in hC hO L.la0 L.lb1 he (Ne.symm L.b1a0) (L.ha0.trans y.symm) (h.trans y.symm) with q | q
    · exact .inl q
    · exact .inr (.inr ⟨q, y⟩)

theorem in_c1 {e : Nat} (he : e < edge.length) (h : (hd edge[e]!).1 = s.c1) :
    e = s.a1 ∨ (e = s.b0 ∧ (hd edge[s.b0]!).1 = s.c1) ∨ (e = s.b1 ∧ (hd edge[s.b1]!).1 = s.c1) := by
  rcases L.hb with ⟨x, y⟩ | ⟨x, y⟩
  · rcases third_in hC hO L.la1 L.lb1 he (Ne.symm L.b1a1) (L.ha1.trans y.symm) (h.trans y.symm) with q | q
    · exact .inl q
    · exact .inr (.inr ⟨q, y⟩)
  · rcases third_in hC hO L.la1 L.lb0 he (Ne.symm L.b0a1) (L.ha1.trans x.symm) (h.trans x.symm) with q | q
    · exact .inl q
    · exact .inr (.inl ⟨q, x⟩)

/-- The edges which begin there. -/
theorem out_of {e : Nat} (he : e < edge.length) (h : (tl edge[e]!).1 = s.c0 ∨ (tl edge[e]!).1 = s.c1) :
    e = s.a1 ∨ e = s.a2 ∨ e = s.b1 ∨ e = s.b2 := by
  have hI := injOn_nx hC hO
  have : ∃ p, p < edge.length ∧ nx cross edge p = e := by
    have := Finset.surjOn_of_injOn_of_card_le (s := Finset.range edge.length) (t := Finset.range edge.length) (nx cross edge)
      (fun x hx => hI.maps x hx) (fun x hx y hy q => hI.inj x hx y hy q) (Nat.le_refl _)
    obtain ⟨p, h1, h2⟩ := this (Finset.mem_coe.mpr (Finset.mem_range.mpr he))
    exact ⟨p, Finset.mem_range.mp (Finset.mem_coe.mp h1), h2⟩
  obtain ⟨p, hp, rfl⟩ := this
  rw [tl_nx hC hO hp] at h
  rcases h with h | h
  · rcases L.in_c0 hC hO hp h with rfl | ⟨rfl, -⟩ | ⟨rfl, -⟩
    · exact .inl L.na0
    · exact .inr (.inr (.inl L.nb0))
    · exact .inr (.inr (.inr L.nb1))
  · rcases L.in_c1 hC hO hp h with rfl | ⟨rfl, -⟩ | ⟨rfl, -⟩
    · exact .inr (.inl L.na1)
    · exact .inr (.inr (.inl L.nb0))
    · exact .inr (.inr (.inr L.nb1))

omit hC hO in
theorem bin : ((hd edge[s.b0]!).1 = s.c0 ∨ (hd edge[s.b0]!).1 = s.c1) ∧ ((hd edge[s.b1]!).1 = s.c0 ∨ (hd edge[s.b1]!).1 = s.c1) := by
  rcases L.hb with ⟨x, y⟩ | ⟨x, y⟩
  · exact ⟨.inl x, .inr y⟩
  · exact ⟨.inr x, .inl y⟩

end LensAt

/-- The other side. -/
def opp (o : Or) : Or := if o = .pos then .neg else .pos

/-- There is a bigon between the two strands: nothing lies between them on one side of each. -/
def TrueBigon (cross : List Cross) (edge : List Edge) (s : Site) (o : Or) : Prop :=
  ∃ o', (o' = .pos ∨ o' = .neg) ∧ ∀ f, FaceFn cross edge f → f (s.a0, opp o) = f (s.a2, opp o) ∧ f (s.b0, opp o') = f (s.b2, opp o') ∧
    f (s.b0, o') + f (s.b2, o') = f (s.a0, o) + f (s.a2, o)

/-- Evaluating `outerFaces`. -/
theorem outer_eval {s : Site} (L : LensAt cross edge s) (hC : Consistent cross edge) {faces : List Face} {F : Dart → Nat}
    (hF : ∀ e, e < edge.length → sideFaces faces e = .ok (F (e, .pos), F (e, .neg))) {b : Bool}
    (h : ((F (s.a1, .pos) = F (s.b1, .neg) ∨ F (s.b1, .pos) = F (s.a1, .neg)) ∧
        b = decide (eslot cross (turn 1 (hd edge[s.a0]!)) = s.b0)) ∨
      (¬ (F (s.a1, .pos) = F (s.b1, .neg) ∨ F (s.b1, .pos) = F (s.a1, .neg)) ∧
        (F (s.a1, .pos) = F (s.b1, .pos) ∨ F (s.a1, .neg) = F (s.b1, .neg)) ∧
        b = decide (eslot cross (turn 1 (hd edge[s.a0]!)) = s.b2))) :
    outerFaces cross edge faces s =
      .ok (F (s.a0, if b then .neg else .pos), F (s.a2, if b then .neg else .pos)) := by
  have hp := turn_mem 1 (hd_mem hC L.la0).1
  have hlt := (mem_P.mp hp).1
  have hx : (turn 1 (hd edge[s.a0]!)).1 = s.c0 := L.ha0
  rw [hx] at hlt
  have hpos : cross[s.c0].rdPos ((edge[s.a0]!.headpos + 1) % 4) = .ok (eslot cross (turn 1 (hd edge[s.a0]!))) := by
    have h1 := slot_eslot hp
    rw [hx] at h1
    have h2 : (turn 1 (hd edge[s.a0]!)).2 = (edge[s.a0]!.headpos + 1) % 4 := rfl
    rw [h2, slot_of_lt hlt (Nat.mod_lt _ (by decide)), Option.some.injEq] at h1
    rw [Cross.rdPos_lt (Nat.mod_lt _ (by decide)), h1]
  unfold outerFaces
  rw [hF _ L.la1, ok_bind]
  simp only
  rw [hF _ L.lb1, ok_bind]
  simp only
  rw [rd_lt hlt, ok_bind, rd_ok (bang L.la0), ok_bind, hpos, ok_bind]
  rcases h with ⟨h1, rfl⟩ | ⟨h1, h2, rfl⟩
  · rw [if_pos h1, ok_bind, hF _ L.la0, ok_bind]
    simp only
    rw [hF _ L.la2, ok_bind]
    generalize decide (eslot cross (turn 1 (hd edge[s.a0]!)) = s.b0) = b
    cases b <;> rfl
  · rw [if_neg h1, if_pos h2, ok_bind, hF _ L.la0, ok_bind]
    simp only
    rw [hF _ L.la2, ok_bind]
    generalize decide (eslot cross (turn 1 (hd edge[s.a0]!)) = s.b2) = b
    cases b <;> rfl

namespace LensAt

/-- The edge to the right of `a0` at its head. -/
theorem right_in (hC : Consistent cross edge) {x u : Nat} (hu : u < edge.length) (h : Rt edge x u) :
    eslot cross (turn 1 (hd edge[x]!)) = u := by
  unfold Rt at h
  rw [← h]
  exact (hd_mem hC hu).2

theorem right_out (hC : Consistent cross edge) (hO : Oriented cross edge) {x u : Nat} (hu : u < edge.length)
    (h : Rt edge u x) : eslot cross (turn 1 (hd edge[x]!)) = nx cross edge u := by
  unfold Rt at h
  obtain ⟨h1, h2⟩ := nx_spec hC hO hu
  have : turn 1 (hd edge[x]!) = tl edge[nx cross edge u]! := by
    rw [h2, h]
    unfold turn
    simp only [Prod.mk.injEq, true_and]
    omega
  rw [this]
  exact (tl_mem hC h1).2

/-- The set of faces on one side of the two middle edges. -/
theorem lens_set {s : Site} (h : PlaneDiagram cross edge) (L : LensAt cross edge s) : ∃ f, FaceFn cross edge f ∧
    f (s.a1, .pos) ≠ f (s.a1, .neg) ∧ f (s.b1, .pos) ≠ f (s.b1, .neg) ∧
    (∀ e, e < edge.length → e ≠ s.a1 → e ≠ s.b1 → f (e, .pos) = f (e, .neg)) ∧
    ∀ e, e < edge.length → (hd edge[e]!).1 ≠ s.c0 → (hd edge[e]!).1 ≠ s.c1 → f (nx cross edge e, .pos) = f (e, .pos) := by
  have hC := h.consistent
  have hO := h.oriented
  have hcyc : ((hd edge[s.a1]!).1 = (hd edge[s.b1]!).1 ∧ (tl edge[s.a1]!).1 = (tl edge[s.b1]!).1) ∨
      ((hd edge[s.a1]!).1 = (tl edge[s.b1]!).1 ∧ (tl edge[s.a1]!).1 = (hd edge[s.b1]!).1) := by
    rw [L.ha1, L.ta1, L.tb1]
    rcases L.hb with ⟨x, y⟩ | ⟨x, y⟩
    · exact .inl ⟨y.symm, x.symm⟩
    · exact .inr ⟨x.symm, y.symm⟩
  obtain ⟨f, f1, f2⟩ := h.exact _ (cycle_two (cross := cross) L.la1 L.lb1 (Ne.symm L.b1a1) hcyc)
  have one : ∀ e, e < edge.length → (e = s.a1 ∨ e = s.b1) → f (e, .pos) ≠ f (e, .neg) := by
    intro e he hor hq
    have := f2 e he
    rw [if_pos hor, hq, CharTwo.add_self_eq_zero] at this
    exact one_ne_zero this
  refine ⟨f, f1, one _ L.la1 (.inl rfl), one _ L.lb1 (.inr rfl), ?_, ?_⟩
  · intro e he n1 n2
    have := f2 e he
    rw [if_neg (by push Not; exact ⟨n1, n2⟩)] at this
    exact CharTwo.add_eq_zero.mp this.symm
  · intro e he n1 n2
    apply col_away hC hO f1 f2 he
    intro x _ hx
    have : x = s.a1 ∨ x = s.b1 := by
      by_contra hn
      exact hx (if_neg hn)
    rcases this with rfl | rfl
    · rw [L.ha1, L.ta1]
      exact ⟨Ne.symm n2, Ne.symm n1⟩
    · rw [L.tb1]
      rcases L.hb with ⟨x, y⟩ | ⟨x, y⟩ <;> rw [x, y]
      · exact ⟨Ne.symm n2, Ne.symm n1⟩
      · exact ⟨Ne.symm n1, Ne.symm n2⟩

/-- Strands in the same direction which cross the same way at both crossings: there is no such thing in the plane. -/
theorem agree_false {s : Site} (h : PlaneDiagram cross edge) (L : LensAt cross edge s)
    (hb : (hd edge[s.b0]!).1 = s.c0 ∧ (hd edge[s.b1]!).1 = s.c1)
    (hr : (Rt edge s.a0 s.b0 ∧ Rt edge s.a1 s.b1) ∨ (Rt edge s.b0 s.a0 ∧ Rt edge s.b1 s.a1)) : False := by
  have hC := h.consistent
  have hO := h.oriented
  obtain ⟨f, f1, za, zb, z0, hcol⟩ := lens_set h L
  have za0 := z0 _ L.la0 L.a0a1 (Ne.symm L.b1a0)
  have zb0 := z0 _ L.lb0 L.b0a1 L.b0b1
  have za2 := z0 _ L.la2 (Ne.symm L.a1a2) (Ne.symm L.b1a2)
  have zb2 := z0 _ L.lb2 L.b2a1 (Ne.symm L.b1b2)
  have key : f (s.b0, .pos) = f (s.a0, .pos) ∧ f (s.a2, .pos) ≠ f (s.a0, .pos) := by
    rcases hr with ⟨r0, r1⟩ | ⟨r0, r1⟩
    · obtain ⟨q1, q2, q3, q4⟩ := right_of hC hO L.la0 L.lb0 r0 f1
      obtain ⟨w1, w2, w3, w4⟩ := right_of hC hO L.la1 L.lb1 r1 f1
      rw [L.na0, L.nb0] at *
      rw [L.na1, L.nb1] at *
      refine ⟨by rw [za0, q1], ?_⟩
      rw [za2, w4, q2]
      exact Ne.symm zb
    · obtain ⟨q1, q2, q3, q4⟩ := right_of hC hO L.lb0 L.la0 r0 f1
      obtain ⟨w1, w2, w3, w4⟩ := right_of hC hO L.lb1 L.la1 r1 f1
      rw [L.na0, L.nb0] at *
      rw [L.na1, L.nb1] at *
      refine ⟨by rw [zb0, q1], ?_⟩
      rw [← w2, za0, ← q4]
      exact zb
  have hcl : ∀ e, e < edge.length → (f (e, .pos) ≠ f (s.a0, .pos) ∧ e ≠ s.a1 ∧ e ≠ s.b1) →
      (f (nx cross edge e, .pos) ≠ f (s.a0, .pos) ∧ nx cross edge e ≠ s.a1 ∧ nx cross edge e ≠ s.b1) := by
    rintro e he ⟨h1, h2, h3⟩
    have n0 : e ≠ s.a0 := by rintro rfl; exact h1 rfl
    have n1 : e ≠ s.b0 := by rintro rfl; exact h1 key.1
    refine ⟨?_, fun q => n0 (nx_inj hC hO he L.la0 (q.trans L.na0.symm)), fun q => n1 (nx_inj hC hO he L.lb0 (q.trans L.nb0.symm))⟩
    rw [hcol e he]
    · exact h1
    · intro q
      rcases L.in_c0 hC hO he q with q | ⟨q, -⟩ | ⟨q, -⟩
      · exact n0 q
      · exact n1 q
      · exact h3 q
    · intro q
      rcases L.in_c1 hC hO he q with q | ⟨q, -⟩ | ⟨q, -⟩
      · exact h2 q
      · exact n1 q
      · exact h3 q
  have := closed_back hC hO hcl L.la1 (by rw [L.na1]; exact ⟨key.2, Ne.symm L.a1a2, Ne.symm L.b1a2⟩)
  exact this.2.1 rfl

/-- Strands in opposite directions which cross the same way at both crossings belong to the same component. -/
theorem same_comp {s : Site} (h : PlaneDiagram cross edge) (L : LensAt cross edge s)
    (hb : (hd edge[s.b0]!).1 = s.c1 ∧ (hd edge[s.b1]!).1 = s.c0)
    (hr : (Rt edge s.a0 s.b1 ∧ Rt edge s.a1 s.b0) ∨ (Rt edge s.b1 s.a0 ∧ Rt edge s.b0 s.a1)) {lab : Nat → Prop}
    (hlab : ∀ e, e < edge.length → (lab (nx cross edge e) ↔ lab e)) (h0 : lab s.a0) : lab s.b0 := by
  have hC := h.consistent
  have hO := h.oriented
  by_contra hnl
  obtain ⟨f, f1, za, zb, z0, hcol⟩ := lens_set h L
  have za0 := z0 _ L.la0 L.a0a1 (Ne.symm L.b1a0)
  have zb0 := z0 _ L.lb0 L.b0a1 L.b0b1
  have za2 := z0 _ L.la2 (Ne.symm L.a1a2) (Ne.symm L.b1a2)
  have zb2 := z0 _ L.lb2 L.b2a1 (Ne.symm L.b1b2)
  have hnl1 : ¬ lab s.b1 := by rw [← L.nb0, hlab _ L.lb0]; exact hnl
  have hl1 : lab s.a1 := by rw [← L.na0, hlab _ L.la0]; exact h0
  have hl2 : lab s.a2 := by rw [← L.na1, hlab _ L.la1]; exact hl1
  have key : f (s.a2, .pos) ≠ f (s.a0, .pos) := by
    rcases hr with ⟨r0, r1⟩ | ⟨r0, r1⟩
    · obtain ⟨q1, q2, q3, q4⟩ := right_of hC hO L.la0 L.lb1 r0 f1
      obtain ⟨w1, w2, w3, w4⟩ := right_of hC hO L.la1 L.lb0 r1 f1
      rw [L.na0, L.nb1] at *
      rw [L.na1, L.nb0] at *
      rw [w3, za0, q1]
      exact Ne.symm zb
    · obtain ⟨q1, q2, q3, q4⟩ := right_of hC hO L.lb1 L.la0 r0 f1
      obtain ⟨w1, w2, w3, w4⟩ := right_of hC hO L.lb0 L.la1 r1 f1
      rw [L.na0, L.nb1] at *
      rw [L.na1, L.nb0] at *
      rw [za2, ← w3, ← q1]
      exact zb
  have hcl : ∀ e, e < edge.length → (f (e, .pos) ≠ f (s.a0, .pos) ∧ e ≠ s.a1 ∧ lab e) →
      (f (nx cross edge e, .pos) ≠ f (s.a0, .pos) ∧ nx cross edge e ≠ s.a1 ∧ lab (nx cross edge e)) := by
    rintro e he ⟨h1, h2, h3⟩
    have n0 : e ≠ s.a0 := by rintro rfl; exact h1 rfl
    have n1 : e ≠ s.b0 := by rintro rfl; exact hnl h3
    have n2 : e ≠ s.b1 := by rintro rfl; exact hnl1 h3
    refine ⟨?_, fun q => n0 (nx_inj hC hO he L.la0 (q.trans L.na0.symm)), (hlab e he).mpr h3⟩
    rw [hcol e he]
    · exact h1
    · intro q
      rcases L.in_c0 hC hO he q with q | ⟨q, -⟩ | ⟨q, -⟩
      · exact n0 q
      · exact n1 q
      · exact n2 q
    · intro q
      rcases L.in_c1 hC hO he q with q | ⟨q, -⟩ | ⟨q, -⟩
      · exact h2 q
      · exact n1 q
      · exact n2 q
  have := closed_back hC hO hcl L.la1 (by rw [L.na1]; exact ⟨key, Ne.symm L.a1a2, hl2⟩)
  exact this.2.1 rfl

/-- What `outerFaces` finds: the faces on the outer side of strand A before and after the two crossings. -/
theorem outer {s : Site} (h : PlaneDiagram cross edge) (L : LensAt cross edge s) {faces : List Face} {F : Dart → Nat}
    (hF1 : ∀ e, e < edge.length → sideFaces faces e = .ok (F (e, .pos), F (e, .neg)))
    (hF2 : ∀ e, e < edge.length → F (e, .pos) ≠ F (e, .neg))
    (hF3 : ∀ d ∈ D edge, ∀ d' ∈ D edge, F d = F d' ↔ ∀ f, FaceFn cross edge f → f d' = f d) :
    ∃ o, (o = .pos ∨ o = .neg) ∧ outerFaces cross edge faces s = .ok (F (s.a0, o), F (s.a2, o)) ∧
      (TrueBigon cross edge s o ∨ (F (s.a0, o) ≠ F (s.a2, o) ∧
        ∀ lab : Nat → Prop, (∀ e, e < edge.length → (lab (nx cross edge e) ↔ lab e)) → lab s.a0 → lab s.b0)) := by
  have hC := h.consistent
  have hO := h.oriented
  have mp : ∀ {e : Nat}, e < edge.length → ((e, .pos) : Dart) ∈ D edge := fun he => mem_D.mpr ⟨he, .inl rfl⟩
  have mn : ∀ {e : Nat}, e < edge.length → ((e, .neg) : Dart) ∈ D edge := fun he => mem_D.mpr ⟨he, .inr rfl⟩
  rcases L.hb with hb | hb
  · rcases two_in hC hO L.la0 L.lb0 (Ne.symm L.b0a0) (L.ha0.trans hb.1.symm) with r0 | r0 <;>
      rcases two_in hC hO L.la1 L.lb1 (Ne.symm L.b1a1) (L.ha1.trans hb.2.symm) with r1 | r1
    · exact (agree_false h L hb (.inl ⟨r0, r1⟩)).elim
    · have q := fun f hf => right_of hC hO L.la0 L.lb0 r0 (f := f) hf
      have w := fun f hf => right_of hC hO L.lb1 L.la1 r1 (f := f) hf
      rw [L.na0, L.nb0] at q
      rw [L.na1, L.nb1] at w
      refine ⟨.neg, .inr rfl, ?_, .inl ⟨.pos, .inl rfl, fun f hf => ?_⟩⟩
      · refine outer_eval (b := true) L hC hF1 (.inl ⟨.inl ?_, ?_⟩)
        · exact (hF3 _ (mp L.la1) _ (mn L.lb1)).mpr (fun f hf => (q f hf).2.2.1.symm)
        · rw [right_in hC L.lb0 r0, decide_eq_true rfl]
      · obtain ⟨q1, q2, q3, q4⟩ := q f hf
        obtain ⟨w1, w2, w3, w4⟩ := w f hf
        exact ⟨q2.trans w2, q4.symm.trans w4.symm, by rw [q1, w3]⟩
    · have q := fun f hf => right_of hC hO L.lb0 L.la0 r0 (f := f) hf
      have w := fun f hf => right_of hC hO L.la1 L.lb1 r1 (f := f) hf
      rw [L.na0, L.nb0] at q
      rw [L.na1, L.nb1] at w
      refine ⟨.pos, .inl rfl, ?_, .inl ⟨.neg, .inr rfl, fun f hf => ?_⟩⟩
      · refine outer_eval (b := false) L hC hF1 (.inl ⟨.inr ?_, ?_⟩)
        · exact (hF3 _ (mp L.lb1) _ (mn L.la1)).mpr (fun f hf => (q f hf).2.2.1.symm)
        · rw [right_out hC hO L.lb0 r0, L.nb0, decide_eq_false (Ne.symm L.b0b1)]
      · obtain ⟨q1, q2, q3, q4⟩ := q f hf
        obtain ⟨w1, w2, w3, w4⟩ := w f hf
        exact ⟨q4.symm.trans w4.symm, q2.trans w2, by rw [q1, w3]⟩
    · exact (agree_false h L hb (.inr ⟨r0, r1⟩)).elim
  · rcases two_in hC hO L.la0 L.lb1 (Ne.symm L.b1a0) (L.ha0.trans hb.2.symm) with r0 | r0 <;>
      rcases two_in hC hO L.la1 L.lb0 (Ne.symm L.b0a1) (L.ha1.trans hb.1.symm) with r1 | r1
    · have q := fun f hf => right_of hC hO L.la0 L.lb1 r0 (f := f) hf
      have w := fun f hf => right_of hC hO L.la1 L.lb0 r1 (f := f) hf
      rw [L.na0, L.nb1] at q
      rw [L.na1, L.nb0] at w
      have same : F (s.a1, .neg) = F (s.b1, .neg) := (hF3 _ (mn L.la1) _ (mn L.lb1)).mpr (fun f hf => (q f hf).2.2.2.symm)
      have same' : F (s.a1, .pos) = F (s.b1, .pos) := (hF3 _ (mp L.la1) _ (mp L.lb1)).mpr (fun f hf => (w f hf).2.1.symm)
      refine ⟨.pos, .inl rfl, ?_, .inr ⟨?_, fun lab h1 h2 => same_comp h L hb (.inl ⟨r0, r1⟩) h1 h2⟩⟩
      · refine outer_eval (b := false) L hC hF1 (.inr ⟨?_, .inr same, ?_⟩)
        · rw [same, same']
          rintro (c | c)
          · exact hF2 _ L.lb1 c
          · exact hF2 _ L.lb1 c
        · rw [right_in hC L.lb1 r0, decide_eq_false L.b1b2]
      · intro c
        obtain ⟨f, f1, za, zb, z0, hcol⟩ := lens_set h L
        have := (hF3 _ (mp L.la0) _ (mp L.la2)).mp c f f1
        obtain ⟨q1, q2, q3, q4⟩ := q f f1
        obtain ⟨w1, w2, w3, w4⟩ := w f f1
        rw [w3, z0 _ L.la0 L.a0a1 (Ne.symm L.b1a0), q1] at this
        exact zb this.symm
    · have q := fun f hf => right_of hC hO L.la0 L.lb1 r0 (f := f) hf
      have w := fun f hf => right_of hC hO L.lb0 L.la1 r1 (f := f) hf
      rw [L.na0, L.nb1] at q
      rw [L.na1, L.nb0] at w
      have same : F (s.a1, .neg) = F (s.b1, .neg) := (hF3 _ (mn L.la1) _ (mn L.lb1)).mpr (fun f hf => (q f hf).2.2.2.symm)
      refine ⟨.pos, .inl rfl, ?_, .inl ⟨.pos, .inl rfl, fun f hf => ?_⟩⟩
      · refine outer_eval (b := false) L hC hF1 (.inr ⟨?_, .inr same, ?_⟩)
        · rintro (c | c)
          · exact hF2 _ L.la1 (by rw [c, same])
          · exact hF2 _ L.lb1 (by rw [c, same])
        · rw [right_in hC L.lb1 r0, decide_eq_false L.b1b2]
      · obtain ⟨q1, q2, q3, q4⟩ := q f hf
        obtain ⟨w1, w2, w3, w4⟩ := w f hf
        exact ⟨q1.trans w3, w1.trans q3, by rw [q2, w2, add_comm]⟩
    · have q := fun f hf => right_of hC hO L.lb1 L.la0 r0 (f := f) hf
      have w := fun f hf => right_of hC hO L.la1 L.lb0 r1 (f := f) hf
      rw [L.na0, L.nb1] at q
      rw [L.na1, L.nb0] at w
      have same : F (s.a1, .pos) = F (s.b1, .pos) := (hF3 _ (mp L.la1) _ (mp L.lb1)).mpr (fun f hf => (q f hf).2.1)
      refine ⟨.neg, .inr rfl, ?_, .inl ⟨.neg, .inr rfl, fun f hf => ?_⟩⟩
      · refine outer_eval (b := true) L hC hF1 (.inr ⟨?_, .inl same, ?_⟩)
        · rintro (c | c)
          · exact hF2 _ L.lb1 (by rw [← c, same])
          · exact hF2 _ L.la1 (by rw [← c, same])
        · rw [right_out hC hO L.lb1 r0, L.nb1, decide_eq_true rfl]
      · obtain ⟨q1, q2, q3, q4⟩ := q f hf
        obtain ⟨w1, w2, w3, w4⟩ := w f hf
        exact ⟨q1.symm.trans w3.symm, w1.symm.trans q3.symm, by rw [q4, w4, add_comm]⟩
    · have q := fun f hf => right_of hC hO L.lb1 L.la0 r0 (f := f) hf
      have w := fun f hf => right_of hC hO L.lb0 L.la1 r1 (f := f) hf
      rw [L.na0, L.nb1] at q
      rw [L.na1, L.nb0] at w
      have same : F (s.a1, .pos) = F (s.b1, .pos) := (hF3 _ (mp L.la1) _ (mp L.lb1)).mpr (fun f hf => (q f hf).2.1)
      have same' : F (s.a1, .neg) = F (s.b1, .neg) := (hF3 _ (mn L.la1) _ (mn L.lb1)).mpr (fun f hf => (w f hf).2.2.2)
      refine ⟨.neg, .inr rfl, ?_, .inr ⟨?_, fun lab h1 h2 => same_comp h L hb (.inr ⟨r0, r1⟩) h1 h2⟩⟩
      · refine outer_eval (b := true) L hC hF1 (.inr ⟨?_, .inl same, ?_⟩)
        · rw [same, same']
          rintro (c | c)
          · exact hF2 _ L.lb1 c
          · exact hF2 _ L.lb1 c
        · rw [right_out hC hO L.lb1 r0, L.nb1, decide_eq_true rfl]
      · intro c
        obtain ⟨f, f1, za, zb, z0, hcol⟩ := lens_set h L
        have := (hF3 _ (mn L.la0) _ (mn L.la2)).mp c f f1
        obtain ⟨q1, q2, q3, q4⟩ := q f f1
        obtain ⟨w1, w2, w3, w4⟩ := w f f1
        rw [← w3, ← z0 _ L.la0 L.a0a1 (Ne.symm L.b1a0), ← q1] at this
        exact zb this

end LensAt

/-- A property of edges which is the same along strands and, except at `c0` and `c1`, on both strands of each crossing. -/
structure Separates (cross : List Cross) (edge : List Edge) (c0 c1 : Nat) (lab : Nat → Prop) : Prop where
  along : ∀ e, e < edge.length → (lab (nx cross edge e) ↔ lab e)
  at_ : ∀ e x, e < edge.length → x < edge.length → ((hd edge[e]!).1 = (hd edge[x]!).1) → (hd edge[e]!).1 ≠ c0 →
    (hd edge[e]!).1 ≠ c1 → (lab e ↔ lab x)

namespace LensAt

/-- Sums of ends at a crossing where edges come in. -/
theorem sum_ins (hC : Consistent cross edge) (hO : Oriented cross edge) (z : Nat → K) {x u : Nat} (hx : x < edge.length)
    (hu : u < edge.length) (hne : x ≠ u) (h : (hd edge[x]!).1 = (hd edge[u]!).1) :
    z (eslot cross ((hd edge[x]!).1, 0)) + z (eslot cross ((hd edge[x]!).1, 1)) + z (eslot cross ((hd edge[x]!).1, 2)) +
      z (eslot cross ((hd edge[x]!).1, 3)) = z x + z (nx cross edge x) + (z u + z (nx cross edge u)) := by
  have gen : ∀ p : Nat × Nat, p ∈ P cross → z (eslot cross (p.1, 0)) + z (eslot cross (p.1, 1)) + z (eslot cross (p.1, 2)) +
      z (eslot cross (p.1, 3)) = z (eslot cross p) + z (eslot cross (turn 2 p)) +
        (z (eslot cross (turn 1 p)) + z (eslot cross (turn 3 p))) := by
    rintro ⟨c, k⟩ hp
    have hk := (mem_P.mp hp).2
    simp only at hk
    match k, hk with
    | 0, _ => simp only [turn, Nat.reduceAdd, Nat.reduceMod]; ring
    | 1, _ => simp only [turn, Nat.reduceAdd, Nat.reduceMod]; ring
    | 2, _ => simp only [turn, Nat.reduceAdd, Nat.reduceMod]; ring
    | 3, _ => simp only [turn, Nat.reduceAdd, Nat.reduceMod]; ring
  rcases two_in hC hO hx hu hne h with r | r
  · rw [gen _ (hd_mem hC hx).1, (hd_mem hC hx).2]
    have e1 : eslot cross (turn 1 (hd edge[x]!)) = u := right_in hC hu r
    have e2 : eslot cross (turn 3 (hd edge[x]!)) = nx cross edge u := by
      unfold nx
      unfold Rt at r
      rw [r]
      congr 1
      unfold turn
      simp only [Prod.mk.injEq, true_and]
      omega
    rw [e1, e2]
    rfl
  · rw [h, gen _ (hd_mem hC hu).1, (hd_mem hC hu).2]
    have e1 : eslot cross (turn 1 (hd edge[u]!)) = x := right_in hC hx r
    have e2 : eslot cross (turn 3 (hd edge[u]!)) = nx cross edge x := by
      unfold nx
      unfold Rt at r
      rw [r]
      congr 1
      unfold turn
      simp only [Prod.mk.injEq, true_and]
      omega
    rw [e1, e2, add_comm]
    rfl

/-- The other edge which comes in at a crossing. -/
theorem other_in (hC : Consistent cross edge) (hO : Oriented cross edge) {c : Nat} (hc : c < cross.length) :
    ∃ x u, x < edge.length ∧ u < edge.length ∧ x ≠ u ∧ (hd edge[x]!).1 = c ∧ (hd edge[u]!).1 = c := by
  have pick : ∀ k, k < 2 → ∃ x, x < edge.length ∧ (hd edge[x]!).1 = c ∧ (hd edge[x]!).2 % 2 = k := by
    intro k hk
    have hp : (c, k) ∈ P cross := mem_P.mpr ⟨hc, by simp only; omega⟩
    have hlt := eslot_lt hC hp
    rcases ends_at hC hp with q | q
    · exact ⟨_, hlt, by rw [q], by rw [q]; simp only; omega⟩
    · obtain ⟨w, s, w1, w2, w3⟩ := hO.through_tail _ _ (bang hlt)
      have q' : (edge[eslot cross (c, k)]!.tail, edge[eslot cross (c, k)]!.tailpos) = (c, k) := q
      rw [Prod.mk.injEq] at q'
      rw [q'.1] at w2
      rw [q'.2] at w3
      refine ⟨w, (getBang w1).2, ?_, ?_⟩
      · rw [(getBang w1).1]; exact w2
      · rw [(getBang w1).1]
        show s.headpos % 2 = k
        omega
  obtain ⟨x, x1, x2, x3⟩ := pick 0 (by decide)
  obtain ⟨u, u1, u2, u3⟩ := pick 1 (by decide)
  exact ⟨x, u, x1, u1, by rintro rfl; omega, x2, u2⟩

/-- If something separates the strands, both ends of strand A have the same parity in every boundary. -/
theorem ends_eq {s : Site} (h : PlaneDiagram cross edge) (L : LensAt cross edge s) {lab : Nat → Prop}
    (S : Separates cross edge s.c0 s.c1 lab) (ha : lab s.a0) (hb : ¬ lab s.b0) {f : Dart → K} (hf : FaceFn cross edge f) :
    f (s.a0, .pos) + f (s.a0, .neg) = f (s.a2, .pos) + f (s.a2, .neg) := by
  classical
  have hC := h.consistent
  have hO := h.oriented
  have hl1 : lab s.a1 := by rw [← L.na0, S.along _ L.la0]; exact ha
  have hl2 : lab s.a2 := by rw [← L.na1, S.along _ L.la1]; exact hl1
  have hn1 : ¬ lab s.b1 := by rw [← L.nb0, S.along _ L.lb0]; exact hb
  have hn2 : ¬ lab s.b2 := by rw [← L.nb1, S.along _ L.lb1]; exact hn1
  have hcyc := (isCycle_iff hC).mp (bdry_cycle hC hf)
  let z : Nat → K := fun e => if lab e then f (e, .pos) + f (e, .neg) else 0
  have hsum := sum_all hC z
  have hc0 : s.c0 < cross.length := by rw [← L.ha0]; exact (mem_P.mp (hd_mem hC L.la0).1).1
  have hc1 : s.c1 < cross.length := by rw [← L.ha1]; exact (mem_P.mp (hd_mem hC L.la1).1).1
  let g : Nat → K := fun c => z (eslot cross (c, 0)) + z (eslot cross (c, 1)) + z (eslot cross (c, 2)) + z (eslot cross (c, 3))
  have hz : ∀ c ∈ Finset.range cross.length, c ∉ ({s.c0, s.c1} : Finset Nat) → g c = 0 := by
    intro c hc hne
    rw [Finset.mem_range] at hc
    rw [Finset.mem_insert, Finset.mem_singleton] at hne
    push Not at hne
    obtain ⟨x, u, hx, hu, hxu, rfl, hxe⟩ := other_in hC hO hc
    have h1 := hcyc _ hc
    rw [sum_ins hC hO (fun e => f (e, .pos) + f (e, .neg)) hx hu hxu hxe.symm] at h1
    show z (eslot cross ((hd edge[x]!).1, 0)) + z (eslot cross ((hd edge[x]!).1, 1)) + z (eslot cross ((hd edge[x]!).1, 2)) +
      z (eslot cross ((hd edge[x]!).1, 3)) = 0
    rw [sum_ins hC hO z hx hu hxu hxe.symm]
    have k1 := S.along x hx
    have k2 := S.along u hu
    have k3 := S.at_ x u hx hu hxe.symm hne.1 hne.2
    by_cases hl : lab x
    · have hlu := k3.mp hl
      simp only [z, if_pos hl, if_pos hlu, if_pos (k1.mpr hl), if_pos (k2.mpr hlu)]
      exact h1
    · have hlu : ¬ lab u := fun q => hl (k3.mpr q)
      simp only [z, if_neg hl, if_neg hlu, if_neg (fun q => hl (k1.mp q)), if_neg (fun q => hlu (k2.mp q)), add_zero]
  have hsub : ({s.c0, s.c1} : Finset Nat) ⊆ Finset.range cross.length := by
    intro c hc
    rw [Finset.mem_insert, Finset.mem_singleton] at hc
    rcases hc with rfl | rfl <;> exact Finset.mem_range.mpr (by assumption)
  have hsum' : ∑ c ∈ Finset.range cross.length, g c = 0 := hsum
  rw [← Finset.sum_subset hsub hz, Finset.sum_pair L.ne] at hsum'
  have za0 : z s.a0 = f (s.a0, .pos) + f (s.a0, .neg) := if_pos ha
  have za2 : z s.a2 = f (s.a2, .pos) + f (s.a2, .neg) := if_pos hl2
  have zb0 : z s.b0 = 0 := if_neg hb
  have zb1 : z s.b1 = 0 := if_neg hn1
  have zb2 : z s.b2 = 0 := if_neg hn2
  have g0 : g s.c0 = z s.a0 + z s.a1 := by
    show z (eslot cross (s.c0, 0)) + z (eslot cross (s.c0, 1)) + z (eslot cross (s.c0, 2)) + z (eslot cross (s.c0, 3)) = _
    have := L.ha0
    rcases L.hb with ⟨x, y⟩ | ⟨x, y⟩
    · have e := sum_ins hC hO z L.la0 L.lb0 (Ne.symm L.b0a0) (L.ha0.trans x.symm)
      rw [L.ha0, L.na0, L.nb0, zb0, zb1] at e
      rw [e, add_zero, add_zero]
    · have e := sum_ins hC hO z L.la0 L.lb1 (Ne.symm L.b1a0) (L.ha0.trans y.symm)
      rw [L.ha0, L.na0, L.nb1, zb1, zb2] at e
      rw [e, add_zero, add_zero]
  have g1 : g s.c1 = z s.a1 + z s.a2 := by
    show z (eslot cross (s.c1, 0)) + z (eslot cross (s.c1, 1)) + z (eslot cross (s.c1, 2)) + z (eslot cross (s.c1, 3)) = _
    rcases L.hb with ⟨x, y⟩ | ⟨x, y⟩
    · have e := sum_ins hC hO z L.la1 L.lb1 (Ne.symm L.b1a1) (L.ha1.trans y.symm)
      rw [L.ha1, L.na1, L.nb1, zb1, zb2] at e
      rw [e, add_zero, add_zero]
    · have e := sum_ins hC hO z L.la1 L.lb0 (Ne.symm L.b0a1) (L.ha1.trans x.symm)
      rw [L.ha1, L.na1, L.nb0, zb0, zb1] at e
      rw [e, add_zero, add_zero]
  rw [g0, g1] at hsum'
  have : z s.a0 + z s.a2 + (z s.a1 + z s.a1) = 0 := by rw [← hsum']; ring
  rw [CharTwo.add_self_eq_zero, add_zero, CharTwo.add_eq_zero] at this
  rw [← za0, ← za2, this]

/-- If something separates the strands, the outer faces are the same. -/
theorem separated_same {s : Site} (h : PlaneDiagram cross edge) (L : LensAt cross edge s) {lab : Nat → Prop}
    (S : Separates cross edge s.c0 s.c1 lab) (ha : lab s.a0) (hb : ¬ lab s.b0) {o : Or} (ho : o = .pos ∨ o = .neg)
    (hT : TrueBigon cross edge s o) {f : Dart → K} (hf : FaceFn cross edge f) : f (s.a2, o) = f (s.a0, o) := by
  have h1 := ends_eq h L S ha hb hf
  obtain ⟨o', -, h2⟩ := hT
  have h3 := (h2 f hf).1
  rcases ho with rfl | rfl
  · simp only [opp, if_true] at h3
    rw [h3] at h1
    exact (add_right_cancel h1).symm
  · simp only [opp, reduceCtorEq, if_false] at h3
    rw [h3] at h1
    exact (add_left_cancel h1).symm

/-- If the outer faces of a bigon are the same, something separates the strands. -/
theorem separated {s : Site} (h : PlaneDiagram cross edge) (L : LensAt cross edge s) {o : Or}
    (hT : TrueBigon cross edge s o) (hs : ∀ f, FaceFn cross edge f → f (s.a2, o) = f (s.a0, o)) :
    ∃ lab, Separates cross edge s.c0 s.c1 lab ∧ lab s.a0 ∧ ¬ lab s.b0 := by
  have hC := h.consistent
  have hO := h.oriented
  obtain ⟨o', ho', hT⟩ := hT
  by_cases hbb : s.b0 = s.b2
  · -- strand B is closed
    have nb1 : nx cross edge s.b1 = s.b0 := by rw [L.nb1, hbb]
    refine ⟨fun e => e ≠ s.b0 ∧ e ≠ s.b1, ⟨?_, ?_⟩, ⟨Ne.symm L.b0a0, Ne.symm L.b1a0⟩, by simp⟩
    · intro e he
      have k0 : nx cross edge e = s.b0 ↔ e = s.b1 :=
        ⟨fun q => nx_inj hC hO he L.lb1 (q.trans nb1.symm), fun q => by rw [q, nb1]⟩
      have k1 : nx cross edge e = s.b1 ↔ e = s.b0 :=
        ⟨fun q => nx_inj hC hO he L.lb0 (q.trans L.nb0.symm), fun q => by rw [q, L.nb0]⟩
      simp only [ne_eq, k0, k1]
      exact And.comm
    · intro e x he hx hex n0 n1
      have out : ∀ y, (hd edge[y]!).1 ≠ s.c0 → (hd edge[y]!).1 ≠ s.c1 → y ≠ s.b0 ∧ y ≠ s.b1 := by
        intro y q0 q1
        constructor
        · rintro rfl
          rcases L.bin.1 with q | q
          · exact q0 q
          · exact q1 q
        · rintro rfl
          rcases L.bin.2 with q | q
          · exact q0 q
          · exact q1 q
      exact iff_of_true (out e n0 n1) (out x (by rw [← hex]; exact n0) (by rw [← hex]; exact n1))
  · obtain ⟨k, hk⟩ := coexact h.exact hC (k := fun e => if e = s.b0 ∨ e = s.b2 then 1 else 0) (by
      intro f hf
      have h1 : ∑ e ∈ Finset.range edge.length, (if e = s.b0 ∨ e = s.b2 then (1 : K) else 0) * (f (e, .pos) + f (e, .neg)) =
          ∑ e ∈ ({s.b0, s.b2} : Finset Nat), (f (e, .pos) + f (e, .neg)) := by
        have hsub : ({s.b0, s.b2} : Finset Nat) ⊆ Finset.range edge.length := by
          intro e he
          rw [Finset.mem_insert, Finset.mem_singleton] at he
          rw [Finset.mem_range]
          rcases he with rfl | rfl
          · exact L.lb0
          · exact L.lb2
        rw [← Finset.sum_subset hsub]
        · apply Finset.sum_congr rfl
          intro e he
          rw [Finset.mem_insert, Finset.mem_singleton] at he
          rw [if_pos he, one_mul]
        · intro e _ he
          rw [Finset.mem_insert, Finset.mem_singleton] at he
          rw [if_neg he, zero_mul]
      rw [h1, Finset.sum_pair hbb]
      obtain ⟨-, t2, t3⟩ := hT f hf
      rw [hs f hf, CharTwo.add_self_eq_zero] at t3
      have t3' := CharTwo.add_eq_zero.mp t3
      rcases ho' with rfl | rfl
      · simp only [opp, if_true] at t2
        rw [t2, t3']
        exact CharTwo.add_self_eq_zero _
      · simp only [opp, reduceCtorEq, if_false] at t2
        rw [t2, t3']
        exact CharTwo.add_self_eq_zero _)
    have k0 : ∀ e, e < edge.length → e ≠ s.b0 → e ≠ s.b2 → k (hd edge[e]!).1 = k (tl edge[e]!).1 := by
      intro e he n0 n2
      have := hk e he
      rw [if_neg (by push Not; exact ⟨n0, n2⟩)] at this
      exact CharTwo.add_eq_zero.mp this.symm
    have k1 : ∀ e, e < edge.length → (e = s.b0 ∨ e = s.b2) → k (hd edge[e]!).1 ≠ k (tl edge[e]!).1 := by
      intro e he hor q
      have := hk e he
      rw [if_pos hor, q, CharTwo.add_self_eq_zero] at this
      exact one_ne_zero this
    have k01 : k s.c1 = k s.c0 := by
      have := k0 s.a1 L.la1 (Ne.symm L.b0a1) (Ne.symm L.b2a1)
      rwa [L.ha1, L.ta1] at this
    have kin : ∀ c, (c = s.c0 ∨ c = s.c1) → k c = k s.c0 := by
      rintro c (rfl | rfl)
      · rfl
      · exact k01
    have kb0 : k (tl edge[s.b0]!).1 ≠ k s.c0 := by
      have := k1 s.b0 L.lb0 (.inl rfl)
      rw [kin _ L.bin.1] at this
      exact Ne.symm this
    have kb2 : k (hd edge[s.b2]!).1 ≠ k s.c0 := by
      have := k1 s.b2 L.lb2 (.inr rfl)
      rwa [L.tb2, kin _ L.bin.2] at this
    have a0b2 : s.a0 ≠ s.b2 := by
      intro q
      rw [← q, L.ha0] at kb2
      exact kb2 rfl
    refine ⟨fun e => (e ≠ s.b0 ∧ e ≠ s.b1 ∧ e ≠ s.b2) ∧ k (hd edge[e]!).1 = k s.c0, ⟨?_, ?_⟩,
      ⟨⟨Ne.symm L.b0a0, Ne.symm L.b1a0, a0b2⟩, by rw [L.ha0]⟩, by simp⟩
    · intro e he
      have hn := (nx_spec hC hO he).1
      have ht := tl_nx hC hO he
      constructor
      · rintro ⟨⟨n0, n1, n2⟩, hkk⟩
        rw [k0 _ hn n0 n2, ht] at hkk
        refine ⟨⟨?_, ?_, ?_⟩, hkk⟩
        · rintro rfl; exact n1 L.nb0
        · rintro rfl; exact n2 L.nb1
        · rintro rfl; exact kb2 hkk
      · rintro ⟨⟨n0, n1, n2⟩, hkk⟩
        have m0 : nx cross edge e ≠ s.b0 := by
          intro q
          rw [q] at ht
          exact kb0 (by rw [ht]; exact hkk)
        have m2 : nx cross edge e ≠ s.b2 := fun q => n1 (nx_inj hC hO he L.lb1 (q.trans L.nb1.symm))
        refine ⟨⟨m0, fun q => n0 (nx_inj hC hO he L.lb0 (q.trans L.nb0.symm)), m2⟩, ?_⟩
        rw [k0 _ hn m0 m2, ht]
        exact hkk
    · intro e x he hx hex n0 n1
      have out : ∀ y, (hd edge[y]!).1 = (hd edge[e]!).1 →
          (((y ≠ s.b0 ∧ y ≠ s.b1 ∧ y ≠ s.b2) ∧ k (hd edge[y]!).1 = k s.c0) ↔ k (hd edge[e]!).1 = k s.c0) := by
        intro y hy
        rw [hy]
        refine ⟨fun q => q.2, fun q => ⟨⟨?_, ?_, ?_⟩, q⟩⟩
        · rintro rfl
          rcases L.bin.1 with w | w
          · exact n0 (hy.symm.trans w)
          · exact n1 (hy.symm.trans w)
        · rintro rfl
          rcases L.bin.2 with w | w
          · exact n0 (hy.symm.trans w)
          · exact n1 (hy.symm.trans w)
        · rintro rfl
          rw [hy] at kb2
          exact kb2 q
      rw [out e rfl, out x hex.symm]

end LensAt

end Plc
