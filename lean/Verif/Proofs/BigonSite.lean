import Verif.Spec.Lens
import Verif.Proofs.CoreOk
import Verif.Proofs.LensFaces
import Verif.Proofs.EraseComps

/-! Finding the two strands of a bigon. -/

namespace Plc.BigonDel

open Plc.Cmp Plc.Core Plc.Buffers Plc.Moves Plc.Strands Plc.Places Plc.Comps Plc.Planar

/-- The strands at a crossing. -/
theorem strands_at {cross : List Cross} {edge : List Edge} (hC : Consistent cross edge) (hO : Oriented cross edge) {c : Nat}
    (hc : c < cross.length) : ∃ i o u v ri ro ru rv, overstrand cross edge c = .ok (i, o) ∧ understrand cross edge c = .ok (u, v) ∧
      edge[i]? = some ri ∧ edge[o]? = some ro ∧ edge[u]? = some ru ∧ edge[v]? = some rv ∧
      ri.head = c ∧ ro.tail = c ∧ ru.head = c ∧ rv.tail = c ∧ i ≠ u ∧ o ≠ v ∧
      Follows cross edge i o ∧ Follows cross edge u v ∧ PassesOver cross edge i c ∧
      (∀ (e : Nat) (r : Edge), edge[e]? = some r → r.head = c → e = i ∨ e = u) ∧ (∀ (e : Nat) (r : Edge), edge[e]? = some r → r.tail = c → e = o ∨ e = v) := by
  obtain ⟨oi, oo, ui, uo, a, b, d, e, -, -, s1, s2, q1, q2, p1, p2, p3, p4, ⟨ra, a1, a2, a3⟩, ⟨rb, b1, b2, b3⟩, ⟨rc, c1, c2, c3⟩,
    ⟨rd, d1, d2, d3⟩, hs⟩ := C26_strands cross edge hC hO c hc
  have hx := List.getElem?_eq_getElem hc
  have h1 := hs _ hx
  have l1 := (slot_lt p1).2
  have l2 := (slot_lt p2).2
  have l3 := (slot_lt p3).2
  have l4 := (slot_lt p4).2
  have hu : ui = (oi + if cross[c].sign = .neg then 3 else 1) % 4 := by
    split at h1 <;> split <;> simp_all <;> omega
  have hne : ui ≠ oi ∧ ui ≠ oo := by
    split at hu <;> omega
  have hin : ∀ (e : Nat) (r : Edge), edge[e]? = some r → r.head = c → r.headpos = oi ∨ r.headpos = ui := by
    intro e r he hr
    have hs' := hC.head e r he
    have hlt := (slot_lt hs').2
    by_contra hcon
    have : r.headpos = oo ∨ r.headpos = uo := by
      split at hu <;> omega
    rcases this with hp | hp
    · rw [hr, hp, p2] at hs'
      cases hs'
      rw [b1] at he
      cases he
      exact hC.ends_ne _ _ b1 (by rw [hr, hp, b2, b3])
    · rw [hr, hp, p4] at hs'
      cases hs'
      rw [d1] at he
      cases he
      exact hC.ends_ne _ _ d1 (by rw [hr, hp, d2, d3])
  have hout : ∀ (e : Nat) (r : Edge), edge[e]? = some r → r.tail = c → r.tailpos = oo ∨ r.tailpos = uo := by
    intro e r he hr
    have hs' := hC.tail e r he
    have hlt := (slot_lt hs').2
    by_contra hcon
    have : r.tailpos = oi ∨ r.tailpos = ui := by
      split at hu <;> omega
    rcases this with hp | hp
    · rw [hr, hp, p1] at hs'
      cases hs'
      rw [a1] at he
      cases he
      exact hC.ends_ne _ _ a1 (by rw [hr, hp, a2, a3])
    · rw [hr, hp, p3] at hs'
      cases hs'
      rw [c1] at he
      cases he
      exact hC.ends_ne _ _ c1 (by rw [hr, hp, c2, c3])
  refine ⟨a, b, d, e, ra, rb, rc, rd, s1, s2, a1, b1, c1, d1, a2, b2, c2, d2, ?_, ?_, ⟨ra, a1, ?_⟩, ⟨rc, c1, ?_⟩,
    ⟨ra, _, a1, a2, hx, d, rc, ?_, c1, c2, ?_⟩, ?_, ?_⟩
  · rintro rfl
    rw [a1] at c1
    cases c1
    omega
  · rintro rfl
    rw [b1] at d1
    cases d1
    omega
  · rw [a2, a3, q1]; exact p2
  · rw [c2, c3, q2]; exact p4
  · rw [a3, ← hu]; exact p3
  · rw [a3, c3, hu]
  · intro f r hf hr
    have hs' := hC.head f r hf
    rcases hin f r hf hr with h | h
    · rw [hr, h, p1] at hs'
      exact .inl (Option.some.inj hs').symm
    · rw [hr, h, p3] at hs'
      exact .inr (Option.some.inj hs').symm
  · intro f r hf hr
    have hs' := hC.tail f r hf
    rcases hout f r hf hr with h | h
    · rw [hr, h, p2] at hs'
      exact .inl (Option.some.inj hs').symm
    · rw [hr, h, p4] at hs'
      exact .inr (Option.some.inj hs').symm


section

variable {cross : List Cross} {edge : List Edge} (hC : Consistent cross edge) (hO : Oriented cross edge)

include hC hO

/-- The strands at a crossing, with the edge after an edge as a function. -/
theorem strands_nx {c : Nat} (hc : c < cross.length) : ∃ i u, i < edge.length ∧ u < edge.length ∧ i ≠ u ∧
    (hd edge[i]!).1 = c ∧ (hd edge[u]!).1 = c ∧ overstrand cross edge c = .ok (i, nx cross edge i) ∧
    understrand cross edge c = .ok (u, nx cross edge u) ∧ PassesOver cross edge i c := by
  obtain ⟨i, o, u, v, ri, ro, ru, rv, s1, s2, g1, g2, g3, g4, k1, k2, k3, k4, n1, n2, f1, f2, f3, -⟩ := strands_at hC hO hc
  obtain ⟨l1, m1⟩ := (follows_iff hC _ _).mp f1
  obtain ⟨l2, m2⟩ := (follows_iff hC _ _).mp f2
  refine ⟨i, u, l1, l2, n1, ?_, ?_, by rw [s1, m1], by rw [s2, m2], f3⟩
  · rw [(getBang g1).1]; exact k1
  · rw [(getBang g3).1]; exact k3

theorem next_nx {e : Nat} (he : e < edge.length) : nextEdge cross edge e = .ok (nx cross edge e) := by
  obtain ⟨f, s, h1, h2, h3⟩ := hO.through_head e _ (bang he)
  have hs := hC.tail f s h1
  rw [h2, h3] at hs
  rw [nextEdge_ok (bang he) h1 h2 hs]
  have : Follows cross edge e f := ⟨_, bang he, hs⟩
  rw [((follows_iff hC _ _).mp this).2]

theorem prev_nx {e : Nat} (he : e < edge.length) : ∃ p, prevEdge cross edge e = .ok p ∧ p < edge.length ∧ nx cross edge p = e := by
  obtain ⟨f, s, h1, h2, h3⟩ := hO.through_tail e _ (bang he)
  have hs := hC.head f s h1
  rw [h2, h3] at hs
  refine ⟨f, prevEdge_ok (bang he) h1 h2 hs, (getBang h1).2, ?_⟩
  have ht := hC.tail e _ (bang he)
  have hl := (slot_lt ht).2
  have : Follows cross edge f e := ⟨s, h1, by rw [h2, h3, show ((edge[e]!.tailpos + 2) % 4 + 2) % 4 = edge[e]!.tailpos by omega]; exact ht⟩
  exact ((follows_iff hC _ _).mp this).2

/-- The strand which comes in at `c` along `x` runs between `c` and `d`. -/
def Between (cross : List Cross) (edge : List Edge) (d x : Nat) : Prop :=
  (hd edge[nx cross edge x]!).1 = d ∨ (tl edge[x]!).1 = d

/-- Three edges in a row are described by their first and second crossing. -/
theorem lens_of {s : Site} (hne : s.c0 ≠ s.c1) (la0 : s.a0 < edge.length) (lb0 : s.b0 < edge.length)
    (na0 : nx cross edge s.a0 = s.a1) (na1 : nx cross edge s.a1 = s.a2) (nb0 : nx cross edge s.b0 = s.b1)
    (nb1 : nx cross edge s.b1 = s.b2) (h0 : (hd edge[s.a0]!).1 = s.c0) (h1 : (hd edge[s.a1]!).1 = s.c1)
    (hb : ((hd edge[s.b0]!).1 = s.c0 ∧ (hd edge[s.b1]!).1 = s.c1 ∧ s.b0 ≠ s.a0 ∧ s.b1 ≠ s.a1) ∨
      ((hd edge[s.b0]!).1 = s.c1 ∧ (hd edge[s.b1]!).1 = s.c0 ∧ s.b0 ≠ s.a1 ∧ s.b1 ≠ s.a0)) : Lens cross edge s := by
  have la1 : s.a1 < edge.length := by rw [← na0]; exact (nx_spec hC hO la0).1
  have lb1 : s.b1 < edge.length := by rw [← nb0]; exact (nx_spec hC hO lb0).1
  have sep : ∀ {x y : Nat}, (hd edge[x]!).1 ≠ (hd edge[y]!).1 → x ≠ y := by
    rintro x y h3 rfl
    exact h3 rfl
  refine ⟨hne, (follows_iff hC _ _).mpr ⟨la0, na0⟩, (follows_iff hC _ _).mpr ⟨la1, na1⟩, (follows_iff hC _ _).mpr ⟨lb0, nb0⟩,
    (follows_iff hC _ _).mpr ⟨lb1, nb1⟩, ⟨_, _, _, _, bang la0, bang la1, bang lb0, bang lb1, h0, h1, ?_⟩, ?_, ?_⟩
  · rcases hb with ⟨x, y, -⟩ | ⟨x, y, -⟩
    · exact .inl ⟨x, y⟩
    · exact .inr ⟨x, y⟩
  · rcases hb with ⟨x, y, z, w⟩ | ⟨x, y, z, w⟩
    · exact ⟨z, sep (by rw [y, h0]; exact hne.symm)⟩
    · exact ⟨sep (by rw [x, h0]; exact hne.symm), w⟩
  · rcases hb with ⟨x, y, z, w⟩ | ⟨x, y, z, w⟩
    · exact ⟨sep (by rw [x, h1]; exact hne), w⟩
    · exact ⟨z, sep (by rw [y, h1]; exact hne)⟩

/-- The other strand at `c`. -/
theorem strandB_ok {c d u : Nat} (hu : u < edge.length) (hcu : (hd edge[u]!).1 = c)
    (h2 : understrand cross edge c = .ok (u, nx cross edge u)) :
    (¬ Between cross edge d u ∧ strandB cross edge c d = .error .die) ∨
    (∃ b2, (hd edge[nx cross edge u]!).1 = d ∧ nx cross edge (nx cross edge u) = b2 ∧
      strandB cross edge c d = .ok (u, nx cross edge u, b2)) ∨
    ∃ b0, (hd edge[nx cross edge u]!).1 ≠ d ∧ b0 < edge.length ∧ nx cross edge b0 = u ∧ (hd edge[b0]!).1 = d ∧
      strandB cross edge c d = .ok (b0, u, nx cross edge u) := by
  have hv := (nx_spec hC hO hu).1
  unfold strandB
  rw [h2, ok_bind]
  simp only
  rw [rd_ok (bang hv), ok_bind]
  by_cases h : edge[nx cross edge u]!.head = d
  · rw [if_pos h, next_nx hC hO hv, ok_bind]
    exact .inr (.inl ⟨_, h, rfl, rfl⟩)
  · rw [if_neg h, rd_ok (bang hu), ok_bind]
    by_cases h' : edge[u]!.tail = d
    · obtain ⟨p, p1, p2, p3⟩ := prev_nx hC hO hu
      rw [if_pos h', p1, ok_bind]
      refine .inr (.inr ⟨p, h, p2, p3, ?_, rfl⟩)
      have := tl_nx hC hO p2
      rw [p3] at this
      rw [← this]
      exact h'
    · rw [if_neg h']
      refine .inl ⟨?_, rfl⟩
      rintro (q | q)
      · exact h q
      · exact h' q

end

section

variable {cross : List Cross} {edge : List Edge} (h : PlaneDiagram cross edge)

include h

/-- Two strands between two crossings are the two strands at each of them. -/
theorem between {c d : Nat} {s : Site} (L : Lens cross edge s) (hs : At c d s) {x : Nat} (hx : x < edge.length)
    (hxc : (hd edge[x]!).1 = c) : Between cross edge d x := by
  have hC := h.consistent
  have hO := h.oriented
  have L := L.at hC hO
  rcases hs with ⟨rfl, rfl⟩ | ⟨rfl, rfl⟩
  · rcases L.in_c0 hC hO hx hxc with rfl | ⟨rfl, q⟩ | ⟨rfl, q⟩
    · left; rw [L.na0, L.ha1]
    · left
      rcases L.hb with ⟨p, p'⟩ | ⟨p, p'⟩
      · rw [L.nb0, p']
      · exact absurd (q.symm.trans p) L.ne
    · right
      rcases L.hb with ⟨p, p'⟩ | ⟨p, p'⟩
      · exact absurd (q.symm.trans p') L.ne
      · rw [L.tb1, p]
  · rcases L.in_c1 hC hO hx hxc with rfl | ⟨rfl, q⟩ | ⟨rfl, q⟩
    · right; rw [L.ta1]
    · left
      rcases L.hb with ⟨p, p'⟩ | ⟨p, p'⟩
      · exact absurd (p.symm.trans q) L.ne
      · rw [L.nb0, p']
    · right
      rcases L.hb with ⟨p, p'⟩ | ⟨p, p'⟩
      · rw [L.tb1, p]
      · exact absurd (p'.symm.trans q) L.ne

theorem findShadow_ok {c d : Nat} (hc : c < cross.length) (hcd : c ≠ d) :
    (findShadow cross edge c d = .error .die ∧ ¬ ∃ s, Lens cross edge s ∧ At c d s) ∨
    ∃ s, findShadow cross edge c d = .ok s ∧ Lens cross edge s ∧ At c d s := by
  have hC := h.consistent
  have hO := h.oriented
  obtain ⟨i, u, hi, hu, hiu, hic, huc, so, su, -⟩ := strands_nx hC hO hc
  have ho := (nx_spec hC hO hi).1
  have hv := (nx_spec hC hO hu).1
  unfold findShadow
  rw [so, ok_bind]
  simp only
  rw [rd_ok (bang ho), ok_bind]
  by_cases hov : edge[nx cross edge i]!.head = d
  · rw [if_pos hov, next_nx hC hO ho, ok_bind]
    have hov' : (hd edge[nx cross edge i]!).1 = d := hov
    rcases strandB_ok hC hO hu huc su (d := d) with ⟨hB, e⟩ | ⟨b2, q1, q2, e⟩ | ⟨b0, q0, q1, q2, q3, e⟩
    · rw [e]
      refine .inl ⟨rfl, ?_⟩
      rintro ⟨s, s1, s2⟩
      exact hB (between h s1 s2 hu huc)
    · rw [e, ok_bind]
      refine .inr ⟨_, rfl, lens_of hC hO hcd hi hu rfl rfl rfl q2 hic hov' (.inl ⟨huc, q1, Ne.symm hiu, ?_⟩), .inl ⟨rfl, rfl⟩⟩
      exact fun q => hiu (nx_inj hC hO hi hu q.symm)
    · rw [e, ok_bind]
      refine .inr ⟨_, rfl, lens_of hC hO hcd hi q1 rfl rfl q2 rfl hic hov' (.inr ⟨q3, huc, ?_, Ne.symm hiu⟩), .inl ⟨rfl, rfl⟩⟩
      simp only
      rintro rfl
      apply hiu
      rw [← q2]
      symm
      apply h.trap hi
      · rw [q2, huc, hic]
      · rw [hov', hic]; exact Ne.symm hcd
  · rw [if_neg hov, rd_ok (bang hi), ok_bind]
    by_cases hit : edge[i]!.tail = d
    · obtain ⟨p, p1, p2, p3⟩ := prev_nx hC hO hi
      have hpd : (hd edge[p]!).1 = d := by
        have := tl_nx hC hO p2
        rw [p3] at this
        rw [← this]
        exact hit
      rw [if_pos hit, p1, ok_bind]
      rcases strandB_ok hC hO hu huc su (d := d) with ⟨hB, e⟩ | ⟨b2, q1, q2, e⟩ | ⟨b0, q0, q1, q2, q3, e⟩
      · rw [e]
        refine .inl ⟨rfl, ?_⟩
        rintro ⟨s, s1, s2⟩
        exact hB (between h s1 s2 hu huc)
      · rw [e, ok_bind]
        refine .inr ⟨_, rfl, lens_of hC hO (Ne.symm hcd) p2 hu p3 rfl rfl q2 hpd hic (.inr ⟨huc, q1, Ne.symm hiu, ?_⟩), .inr ⟨rfl, rfl⟩⟩
        simp only
        intro q
        have : nx cross edge (nx cross edge u) = i := by rw [q, p3]
        apply hiu
        rw [← this]
        apply h.trap hu
        · rw [this, hic, huc]
        · rw [q1, huc]; exact Ne.symm hcd
      · rw [e, ok_bind]
        refine .inr ⟨_, rfl, lens_of hC hO (Ne.symm hcd) p2 q1 p3 rfl q2 rfl hpd hic (.inl ⟨q3, huc, ?_, Ne.symm hiu⟩), .inr ⟨rfl, rfl⟩⟩
        simp only
        rintro rfl
        exact hiu (p3.symm.trans q2)
    · rw [if_neg hit]
      refine .inl ⟨rfl, ?_⟩
      rintro ⟨s, s1, s2⟩
      rcases between h s1 s2 hi hic with q | q
      · exact hov q
      · exact hit q

omit h in
theorem over_turn {x c : Nat} (hx : PassesOver cross edge x c) : x < edge.length ∧ (hd edge[x]!).1 = c ∧
    ∃ w k, w < edge.length ∧ cross[c]? = some k ∧ hd edge[w]! = turn (if k.sign = .neg then 3 else 1) (hd edge[x]!) := by
  obtain ⟨r, k, r1, r2, r3, w, rw', w1, w2, w3, w4⟩ := hx
  obtain ⟨g1, g2⟩ := getBang r1
  obtain ⟨g3, g4⟩ := getBang w2
  refine ⟨g2, by rw [g1]; exact r2, w, k, g4, r3, ?_⟩
  rw [g1, g3]
  unfold hd turn
  rw [w3, w4, r2]

/-- Only one edge which comes in passes over. -/
theorem over_unique {x y c : Nat} (hx : PassesOver cross edge x c) (hy : PassesOver cross edge y c) : x = y := by
  have hC := h.consistent
  have hO := h.oriented
  obtain ⟨x1, x2, w, k, x3, x4, x5⟩ := over_turn hx
  obtain ⟨y1, y2, w', k', y3, y4, y5⟩ := over_turn hy
  rw [x4] at y4
  cases y4
  by_contra hne
  have hxy : (hd edge[x]!).1 = (hd edge[y]!).1 := x2.trans y2.symm
  have hw : (hd edge[w]!).1 = (hd edge[x]!).1 := by rw [x5]; rfl
  have hw' : (hd edge[w']!).1 = (hd edge[y]!).1 := by rw [y5]; rfl
  have px := (hd_mem hC x1).1
  have py := (hd_mem hC y1).1
  have e1 : w = y := by
    rcases third_in hC hO y1 x1 x3 (Ne.symm hne) hxy.symm hw with q | q
    · exact q
    · rw [q] at x5
      exact (turn_ne px _ (by split <;> decide) x5.symm).elim
  have e2 : w' = x := by
    rcases third_in hC hO x1 y1 y3 hne hxy hw' with q | q
    · exact q
    · rw [q] at y5
      exact (turn_ne py _ (by split <;> decide) y5.symm).elim
  rw [e1] at x5
  rw [e2, x5] at y5
  unfold turn at y5
  have l := (mem_P.mp px).2
  rw [Prod.ext_iff] at y5
  simp only [true_and] at y5
  split at y5 <;> omega

/-- Strand B with signs. -/
theorem strandUnder_ok {c d i u x : Nat} (hi : i < edge.length) (hu : u < edge.length) (hiu : i ≠ u) (hic : (hd edge[i]!).1 = c)
    (huc : (hd edge[u]!).1 = c) (hcd : c ≠ d) (hod : (hd edge[nx cross edge i]!).1 = d)
    (h2 : understrand cross edge c = .ok (u, nx cross edge u)) (hx : x < edge.length) (hxd : (hd edge[x]!).1 = d)
    (hxo : nx cross edge i ≠ x) (h3 : understrand cross edge d = .ok (x, nx cross edge x)) :
    (¬ Between cross edge d u ∧ strandUnder cross edge c d = .error .die) ∨
    (∃ b2, (hd edge[nx cross edge u]!).1 = d ∧ nx cross edge (nx cross edge u) = b2 ∧ nx cross edge u ≠ nx cross edge i ∧
      strandUnder cross edge c d = .ok (u, nx cross edge u, b2)) ∨
    ∃ b0, b0 < edge.length ∧ nx cross edge b0 = u ∧ (hd edge[b0]!).1 = d ∧ b0 ≠ nx cross edge i ∧
      strandUnder cross edge c d = .ok (b0, u, nx cross edge u) := by
  have hC := h.consistent
  have hO := h.oriented
  have ho := (nx_spec hC hO hi).1
  have hv := (nx_spec hC hO hu).1
  unfold strandUnder
  rw [h2, ok_bind]
  simp only
  rw [rd_ok (bang hv), ok_bind]
  by_cases hh : edge[nx cross edge u]!.head = d
  · have hh' : (hd edge[nx cross edge u]!).1 = d := hh
    rw [if_pos hh, next_nx hC hO hv, ok_bind, h3, ok_bind]
    simp only
    have hne : nx cross edge u ≠ nx cross edge i := fun q => hiu (nx_inj hC hO hu hi q).symm
    have hvx : nx cross edge u = x := by
      rcases third_in hC hO ho hx hv hxo (hod.trans hxd.symm) (hh'.trans hxd.symm) with q | q
      · exact absurd q hne
      · exact q
    rw [if_neg (by rw [hvx]; simp)]
    exact .inr (.inl ⟨_, hh, rfl, hne, rfl⟩)
  · rw [if_neg hh, rd_ok (bang hu), ok_bind]
    by_cases h' : edge[u]!.tail = d
    · obtain ⟨p, p1, p2, p3⟩ := prev_nx hC hO hu
      have hpd : (hd edge[p]!).1 = d := by
        have := tl_nx hC hO p2
        rw [p3] at this
        rw [← this]
        exact h'
      rw [if_pos h', p1, ok_bind, h3, ok_bind]
      simp only
      have hne : p ≠ nx cross edge i := by
        rintro rfl
        apply hiu
        rw [← p3]
        symm
        apply h.trap hi
        · rw [p3, huc, hic]
        · rw [hod, hic]; exact Ne.symm hcd
      have hpx : p = x := by
        rcases third_in hC hO ho hx p2 hxo (hod.trans hxd.symm) (hpd.trans hxd.symm) with q | q
        · exact absurd q hne
        · exact q
      rw [if_neg (by rw [← hpx, p3]; simp)]
      exact .inr (.inr ⟨p, p2, p3, hpd, hne, rfl⟩)
    · rw [if_neg h']
      refine .inl ⟨?_, rfl⟩
      rintro (q | q)
      · exact hh q
      · exact h' q

theorem findFrom_ok {c d : Nat} (hc : c < cross.length) (hd' : d < cross.length) (hcd : c ≠ d) :
    (findFrom cross edge c d = .error .die ∧ ¬ ∃ s, Lens cross edge s ∧ (s.c0 = c ∧ s.c1 = d) ∧ Over cross edge s) ∨
    ∃ s, findFrom cross edge c d = .ok s ∧ Lens cross edge s ∧ (s.c0 = c ∧ s.c1 = d) ∧ Over cross edge s := by
  have hC := h.consistent
  have hO := h.oriented
  obtain ⟨i, u, hi, hu, hiu, hic, huc, so, su, io⟩ := strands_nx hC hO hc
  obtain ⟨y, x, hy, hx, hyx, hyd, hxd, tO, tu, yo⟩ := strands_nx hC hO hd'
  have ho := (nx_spec hC hO hi).1
  have lens : ∀ s, Lens cross edge s → (s.c0 = c ∧ s.c1 = d) → Over cross edge s → s.a0 = i ∧ s.a1 = y ∧ nx cross edge i = y := by
    rintro s s1 ⟨rfl, rfl⟩ ⟨s3, s4⟩
    have L := s1.at hC hO
    have e1 := over_unique h s3 io
    have e2 := over_unique h s4 yo
    refine ⟨e1, e2, ?_⟩
    rw [← e1, ← e2, L.na0]
  unfold findFrom
  rw [so, ok_bind]
  simp only
  rw [rd_ok (bang ho), ok_bind]
  by_cases hov : edge[nx cross edge i]!.head = d
  · have hov' : (hd edge[nx cross edge i]!).1 = d := hov
    rw [if_neg (by simpa using hov), next_nx hC hO ho, ok_bind, tO, ok_bind]
    simp only
    by_cases hoy : nx cross edge i = y
    · rw [if_neg (by rw [hoy]; simp)]
      rcases strandUnder_ok h hi hu hiu hic huc hcd hov' su hx hxd (by rw [hoy]; exact hyx) tu with
        ⟨hB, e⟩ | ⟨b2, q1, q2, q3, e⟩ | ⟨b0, q1, q2, q3, q4, e⟩
      · rw [e]
        refine .inl ⟨rfl, ?_⟩
        rintro ⟨s, s1, s2, s3⟩
        exact hB (between h s1 (.inl s2) hu huc)
      · rw [e, ok_bind]
        exact .inr ⟨_, rfl, lens_of hC hO hcd hi hu rfl rfl rfl q2 hic hov' (.inl ⟨huc, q1, Ne.symm hiu, q3⟩), ⟨rfl, rfl⟩,
          io, by simp only; rw [hoy]; exact yo⟩
      · rw [e, ok_bind]
        exact .inr ⟨_, rfl, lens_of hC hO hcd hi q1 rfl rfl q2 rfl hic hov' (.inr ⟨q3, huc, q4, Ne.symm hiu⟩), ⟨rfl, rfl⟩,
          io, by simp only; rw [hoy]; exact yo⟩
    · rw [if_pos (.inl hoy)]
      refine .inl ⟨rfl, ?_⟩
      rintro ⟨s, s1, s2, s3⟩
      exact hoy (lens s s1 s2 s3).2.2
  · rw [if_pos (by simpa using hov)]
    refine .inl ⟨rfl, ?_⟩
    rintro ⟨s, s1, s2, s3⟩
    apply hov
    have := (lens s s1 s2 s3).2.2
    show (hd edge[nx cross edge i]!).1 = d
    rw [this, hyd]

theorem findSigned_ok {c d : Nat} (hc : c < cross.length) (hd' : d < cross.length) (hcd : c ≠ d) :
    (findSigned cross edge c d = .error .die ∧ ¬ ∃ s, Lens cross edge s ∧ At c d s ∧ Over cross edge s) ∨
    ∃ s, findSigned cross edge c d = .ok s ∧ Lens cross edge s ∧ At c d s ∧ Over cross edge s := by
  have hC := h.consistent
  have hO := h.oriented
  obtain ⟨i, u, hi, hu, hiu, hic, huc, so, su, io⟩ := strands_nx hC hO hc
  have ho := (nx_spec hC hO hi).1
  unfold findSigned
  rw [so, ok_bind]
  simp only
  rw [rd_ok (bang ho), ok_bind]
  by_cases hov : edge[nx cross edge i]!.head = d
  · have hov' : (hd edge[nx cross edge i]!).1 = d := hov
    rw [if_neg (by simpa using hov)]
    rcases findFrom_ok h hc hd' hcd with ⟨e, hn⟩ | ⟨s, e, s1, s2, s3⟩
    · refine .inl ⟨e, ?_⟩
      rintro ⟨s, s1, s2 | s2, s3⟩
      · exact hn ⟨s, s1, s2, s3⟩
      · -- strand A runs on to where it comes from, and is closed
        obtain ⟨rfl, rfl⟩ := s2
        have L := s1.at hC hO
        have e1 : s.a1 = i := over_unique h s3.2 io
        have e2 : s.a2 = s.a0 := by
          rw [← L.na1, ← L.na0]
          apply h.trap L.la0
          · rw [L.na0, e1, hov', L.ha0]
          · rw [L.na0, L.ha1, L.ha0]; exact Ne.symm L.ne
        refine hn ⟨⟨s.c1, s.c0, s.a1, s.a0, s.a1, s.b0, s.b1, s.b2⟩, ?_, ⟨rfl, rfl⟩, s3.2, s3.1⟩
        refine lens_of hC hO (Ne.symm L.ne) L.la1 L.lb0 (by simp only; rw [L.na1, e2]) L.na0 L.nb0 L.nb1 L.ha1 L.ha0 ?_
        rcases L.hb with ⟨x, y⟩ | ⟨x, y⟩
        · exact .inr ⟨x, y, L.b0a0, L.b1a1⟩
        · exact .inl ⟨x, y, L.b0a1, L.b1a0⟩
    · exact .inr ⟨s, e, s1, .inl s2, s3⟩
  · rw [if_pos (by simpa using hov)]
    rcases findFrom_ok h hd' hc (Ne.symm hcd) with ⟨e, hn⟩ | ⟨s, e, s1, s2, s3⟩
    · refine .inl ⟨e, ?_⟩
      rintro ⟨s, s1, s2 | s2, s3⟩
      · obtain ⟨rfl, rfl⟩ := s2
        have L := s1.at hC hO
        apply hov
        show (hd edge[nx cross edge i]!).1 = s.c1
        rw [← over_unique h s3.1 io, L.na0, L.ha1]
      · exact hn ⟨s, s1, s2, s3⟩
    · exact .inr ⟨s, e, s1, .inr s2, s3⟩

/-- The search finds two strands between the crossings, if there are any, of which one passes over at both if a sign is set. -/
theorem findSite_ok {c d : Nat} (hc : c < cross.length) (hd' : d < cross.length) (hcd : c ≠ d) :
    let Fit := fun s => Lens cross edge s ∧ At c d s ∧ (¬ (cross[c].sign = .unset ∧ cross[d].sign = .unset) → Over cross edge s)
    (findSite cross edge c d = .error .die ∧ ¬ ∃ s, Fit s) ∨ ∃ s, findSite cross edge c d = .ok s ∧ Fit s := by
  intro Fit
  unfold findSite
  rw [rd_lt hc, ok_bind, rd_lt hd', ok_bind]
  by_cases hs : cross[c].sign = .unset ∧ cross[d].sign = .unset
  · rw [if_pos hs]
    rcases findShadow_ok h hc hcd with ⟨e, hn⟩ | ⟨s, e, s1, s2⟩
    · exact .inl ⟨e, fun ⟨s, s1, s2, _⟩ => hn ⟨s, s1, s2⟩⟩
    · exact .inr ⟨s, e, s1, s2, fun q => absurd hs q⟩
  · rw [if_neg hs]
    rcases findSigned_ok h hc hd' hcd with ⟨e, hn⟩ | ⟨s, e, s1, s2, s3⟩
    · exact .inl ⟨e, fun ⟨s, s1, s2, s3⟩ => hn ⟨s, s1, s2, s3 hs⟩⟩
    · exact .inr ⟨s, e, s1, s2, fun _ => s3⟩

end

end Plc.BigonDel
