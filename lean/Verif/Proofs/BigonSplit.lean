import Verif.Proofs.BigonWalk
import Verif.Spec.BigonPiece

/-! Pulling two strands apart, when what is left is two diagrams. -/

namespace Plc

open Plc.Core Plc.Cmp Plc.Places Plc.Faces Plc.Buffers Plc.Moves Plc.Comps Plc.Planar Plc.BigonDel Plc.Isotopy Plc.Ok List

/-- The strands with their roles exchanged. -/
theorem LensAt.swap {cross : List Cross} {edge : List Edge} {s : Site} (L : LensAt cross edge s) :
    ∃ s', LensAt cross edge s' ∧ s'.a0 = s.b0 ∧ s'.a1 = s.b1 ∧ s'.a2 = s.b2 ∧ s'.b0 = s.a0 ∧
      ((s'.c0 = s.c0 ∧ s'.c1 = s.c1) ∨ (s'.c0 = s.c1 ∧ s'.c1 = s.c0)) := by
  rcases L.hb with ⟨x, y⟩ | ⟨x, y⟩
  · refine ⟨⟨s.c0, s.c1, s.b0, s.b1, s.b2, s.a0, s.a1, s.a2⟩, ?_, rfl, rfl, rfl, rfl, .inl ⟨rfl, rfl⟩⟩
    exact {
      la0 := L.lb0, la1 := L.lb1, la2 := L.lb2, lb0 := L.la0, lb1 := L.la1, lb2 := L.la2
      na0 := L.nb0, na1 := L.nb1, nb0 := L.na0, nb1 := L.na1
      ha0 := x, ha1 := y, hb := .inl ⟨L.ha0, L.ha1⟩
      ta1 := L.tb1.trans x, ta2 := L.tb2.trans y, tb1 := L.ta1.trans L.ha0.symm, tb2 := L.ta2.trans L.ha1.symm
      ne := L.ne
      b0a0 := Ne.symm L.b0a0, b1a0 := Ne.symm L.b0a1, b0a1 := Ne.symm L.b1a0, b1a1 := Ne.symm L.b1a1
      a0a1 := L.b0b1, b0b1 := L.a0a1, a1a2 := L.b1b2, b1b2 := L.a1a2, b1a2 := Ne.symm L.b2a1, b2a1 := Ne.symm L.b1a2
      b2a2 := Ne.symm L.b2a2 }
  · refine ⟨⟨s.c1, s.c0, s.b0, s.b1, s.b2, s.a0, s.a1, s.a2⟩, ?_, rfl, rfl, rfl, rfl, .inr ⟨rfl, rfl⟩⟩
    exact {
      la0 := L.lb0, la1 := L.lb1, la2 := L.lb2, lb0 := L.la0, lb1 := L.la1, lb2 := L.la2
      na0 := L.nb0, na1 := L.nb1, nb0 := L.na0, nb1 := L.na1
      ha0 := x, ha1 := y, hb := .inr ⟨L.ha0, L.ha1⟩
      ta1 := L.tb1.trans x, ta2 := L.tb2.trans y, tb1 := L.ta1.trans L.ha0.symm, tb2 := L.ta2.trans L.ha1.symm
      ne := Ne.symm L.ne
      b0a0 := Ne.symm L.b0a0, b1a0 := Ne.symm L.b0a1, b0a1 := Ne.symm L.b1a0, b1a1 := Ne.symm L.b1a1
      a0a1 := L.b0b1, b0b1 := L.a0a1, a1a2 := L.b1b2, b1b2 := L.a1a2, b1a2 := Ne.symm L.b2a1, b2a1 := Ne.symm L.b1a2
      b2a2 := Ne.symm L.b2a2 }

theorem Separates.swap {cross : List Cross} {edge : List Edge} {c0 c1 : Nat} {lab : Nat → Prop} (S : Separates cross edge c0 c1 lab) :
    Separates cross edge c1 c0 lab := ⟨S.along, fun e x he hx h h1 h0 => S.at_ e x he hx h h0 h1⟩

section

variable {cross : List Cross} {edge : List Edge} {s : Site} (L : LensAt cross edge s) (hC : Consistent cross edge)
  (hO : Oriented cross edge) {lab : Nat → Prop} (S : Separates cross edge s.c0 s.c1 lab) (ha : lab s.a0) (hb : ¬ lab s.b0)
  {X G : List Nat} (hX : ∀ c, c ∈ X ↔ ∃ e, e < edge.length ∧ ¬ lab e ∧ (hd edge[e]!).1 = c)
  (hG : ∀ e, e ∈ G ↔ e < edge.length ∧ (¬ lab e ∨ e = s.a1 ∨ e = s.a2))

include L S ha hb in
theorem LensAt.labs : lab s.a1 ∧ lab s.a2 ∧ ¬ lab s.b1 ∧ ¬ lab s.b2 := by
  have h1 : lab s.a1 := by rw [← L.na0, S.along _ L.la0]; exact ha
  have h2 : ¬ lab s.b1 := by rw [← L.nb0, S.along _ L.lb0]; exact hb
  refine ⟨h1, ?_, h2, ?_⟩
  · rw [← L.na1, S.along _ L.la1]; exact h1
  · rw [← L.nb1, S.along _ L.lb1]; exact h2

include L hb S hX in
theorem LensAt.X_corner : s.c0 ∈ X ∧ s.c1 ∈ X := by
  have h2 : ¬ lab s.b1 := by rw [← L.nb0, S.along _ L.lb0]; exact hb
  rcases L.hb with ⟨x, y⟩ | ⟨x, y⟩
  · exact ⟨(hX _).mpr ⟨_, L.lb0, hb, x⟩, (hX _).mpr ⟨_, L.lb1, h2, y⟩⟩
  · exact ⟨(hX _).mpr ⟨_, L.lb1, h2, y⟩, (hX _).mpr ⟨_, L.lb0, hb, x⟩⟩

include L S ha hb hX in
/-- An edge ends at a crossing which is kept if it is on this side and does not end at one of the two. -/
theorem LensAt.X_head {e : Nat} (he : e < edge.length) :
    (hd edge[e]!).1 ∉ X ↔ lab e ∧ (hd edge[e]!).1 ≠ s.c0 ∧ (hd edge[e]!).1 ≠ s.c1 := by
  obtain ⟨k0, k1⟩ := L.X_corner S hb hX
  constructor
  · intro h
    refine ⟨?_, ?_, ?_⟩
    · by_contra hn
      exact h ((hX _).mpr ⟨e, he, hn, rfl⟩)
    · intro q; rw [q] at h; exact h k0
    · intro q; rw [q] at h; exact h k1
  · rintro ⟨h1, h2, h3⟩ h4
    obtain ⟨x, x1, x2, x3⟩ := (hX _).mp h4
    exact x2 ((S.at_ e x he x1 x3.symm h2 h3).mp h1)

include L hC hO S ha hb hX hG

theorem LensAt.side_bypass (h1 : s.a0 ≠ s.a2) : Bypass edge X G [(s.a0, s.a2)] := by
  obtain ⟨l1, l2, l3, l4⟩ := L.labs S ha hb
  refine ⟨by simp, by simp, ?_, ?_, ?_, ?_, ?_⟩
  · intro p hp
    rw [List.mem_singleton] at hp
    subst hp
    rw [hG]
    rintro ⟨-, q | q | q⟩
    · exact q ha
    · exact L.a0a1 q
    · exact h1 q
  · intro p hp
    rw [List.mem_singleton] at hp
    subst hp
    rw [hG]
    exact ⟨L.la2, .inr (.inr rfl)⟩
  · intro p hp
    rw [List.mem_singleton] at hp
    subst hp
    exact ⟨L.la0, L.la2⟩
  · intro e r hr
    obtain ⟨g1, g2⟩ := getBang hr
    have ht : r.tail = (tl edge[e]!).1 := by rw [g1]; rfl
    obtain ⟨p, p1, p2⟩ := prev_ex hC hO g2
    have hp := tl_nx hC hO p1
    rw [p2] at hp
    have hx := L.X_head S ha hb hX p1
    rw [← hp] at hx
    have hlab := S.along p p1
    rw [p2] at hlab
    have htl := L.tail_iff hC hO g2
    rw [ht, hG]
    constructor
    · intro hm
      refine ⟨g2, ?_⟩
      by_contra hn
      push Not at hn
      refine hx.mpr ⟨hlab.mp hn.1, ?_, ?_⟩ hm
      · intro q
        rcases htl.mp (.inl q) with q | q | q | q
        · exact hn.2.1 q
        · exact hn.2.2 q
        · rw [q] at hn; exact l3 hn.1
        · rw [q] at hn; exact l4 hn.1
      · intro q
        rcases htl.mp (.inr q) with q | q | q | q
        · exact hn.2.1 q
        · exact hn.2.2 q
        · rw [q] at hn; exact l3 hn.1
        · rw [q] at hn; exact l4 hn.1
    · rintro ⟨-, hm⟩
      by_contra hn
      obtain ⟨q1, q2, q3⟩ := hx.mp hn
      rcases hm with q | q | q
      · exact q (hlab.mpr q1)
      · rcases htl.mpr (.inl q) with q | q
        · exact q2 q
        · exact q3 q
      · rcases htl.mpr (.inr (.inl q)) with q | q
        · exact q2 q
        · exact q3 q
  · intro e r hr
    obtain ⟨g1, g2⟩ := getBang hr
    have ht : r.head = (hd edge[e]!).1 := by rw [g1]; rfl
    have hh := L.head_iff hC hO g2
    rw [ht, L.X_head S ha hb hX g2, hG]
    simp only [List.map_cons, List.map_nil, List.mem_singleton]
    constructor
    · rintro ⟨q1, q2, q3⟩
      by_cases k : e = s.a2
      · exact .inr k
      · refine .inl ⟨?_, ?_⟩
        · rintro ⟨-, q | q | q⟩
          · exact q q1
          · rcases hh.mpr (.inr (.inl q)) with q | q
            · exact q2 q
            · exact q3 q
          · exact k q
        · intro q
          rcases hh.mpr (.inl q) with q | q
          · exact q2 q
          · exact q3 q
    · intro h
      have hl : lab e := by
        rcases h with ⟨q, -⟩ | q
        · by_contra hn
          exact q ⟨g2, .inl hn⟩
        · rw [q]; exact l2
      have hno : ¬ ((hd edge[e]!).1 = s.c0 ∨ (hd edge[e]!).1 = s.c1) := by
        rw [hh]
        rintro (q | q | q | q)
        · rcases h with ⟨-, h⟩ | h
          · exact h q
          · exact h1 (q.symm.trans h)
        · rcases h with ⟨h, -⟩ | h
          · exact h ⟨g2, .inr (.inl q)⟩
          · exact L.a1a2 (q.symm.trans h)
        · rw [q] at hl; exact hb hl
        · rw [q] at hl; exact l3 hl
      exact ⟨hl, fun q => hno (.inl q), fun q => hno (.inr q)⟩

omit hO S ha hb hX in
theorem LensAt.side_thru : Bypass.Thru cross edge G [(s.a0, s.a2)] := by
  obtain ⟨f1, f2, -⟩ := L.fol hC
  intro p hp
  rw [List.mem_singleton] at hp
  subst hp
  exact .step (.step .refl f1 (not_not.mpr ((hG _).mpr ⟨L.la1, .inr (.inl rfl)⟩))) f2
    (not_not.mpr ((hG _).mpr ⟨L.la2, .inr (.inr rfl)⟩))

theorem LensAt.side_exact (hE : Exact cross edge) (h1 : s.a0 ≠ s.a2) {cross' : List Cross} {edge' : List Edge} {τ σ ρ : Nat → Nat}
    (E : Erased cross edge X G [(s.a0, s.a2)] cross' edge' τ σ ρ) (hC' : Consistent cross' edge') : Exact cross' edge' := by
  classical
  have B := L.side_bypass hC hO S ha hb hX hG h1
  obtain ⟨l1, l2, l3, l4⟩ := L.labs S ha hb
  refine E.exact B hC hC' hO hE ?_
  intro z'
  obtain ⟨ι, i1, i2⟩ := E.inv
  obtain ⟨z, hz⟩ : ∃ z : Nat → K, ∀ e, z e = if lab e then z' (ι (if e = s.a1 ∨ e = s.a2 then s.a0 else e)) else 0 := ⟨_, fun _ => rfl⟩
  have z0 : z s.a0 = z' (ι s.a0) := by rw [hz, if_pos ha, if_neg]; rintro (q | q); exacts [L.a0a1 q, h1 q]
  have z1 : z s.a1 = z' (ι s.a0) := by rw [hz, if_pos l1, if_pos (.inl rfl)]
  have z2 : z s.a2 = z' (ι s.a0) := by rw [hz, if_pos l2, if_pos (.inr rfl)]
  have zn : ∀ e, ¬ lab e → z e = 0 := fun e he => by rw [hz, if_neg he]
  refine ⟨z, ?_, ?_, ?_, ?_⟩
  · intro f hf
    obtain ⟨q1, q2⟩ := E.tlt f hf
    rw [hG] at q2
    have hl : lab (τ f) := by
      by_contra hn
      exact q2 ⟨q1, .inl hn⟩
    rw [hz, if_pos hl, if_neg, i1 f hf]
    exact fun q => q2 ⟨q1, .inr q⟩
  · intro p hp
    rw [List.mem_singleton] at hp
    subst hp
    simp only
    rw [z0, z2]
  · intro e he hx
    by_cases hl : lab e
    · have hno := (L.X_head S ha hb hX he).not.mp (not_not.mpr hx)
      have hc : (hd edge[e]!).1 = s.c0 ∨ (hd edge[e]!).1 = s.c1 := by
        by_contra hn
        push Not at hn
        exact hno ⟨hl, hn⟩
      rcases (L.head_iff hC hO he).mp hc with q | q | q | q
      · rw [q, L.na0, z0, z1]
      · rw [q, L.na1, z1, z2]
      · rw [q] at hl; exact absurd hl hb
      · rw [q] at hl; exact absurd hl l3
    · rw [zn e hl, zn _ (fun q => hl ((S.along e he).mp q))]
  · intro f hf hzf p hp
    rw [List.mem_singleton] at hp
    subst hp
    exact (L.sides hC hO hf hzf (by rw [z0, z1]) (by rw [z1, z2]) (by rw [zn _ hb, zn _ l3]) (by rw [zn _ l3, zn _ l4])).1

omit hG in
/-- A strand that closes up at once is all there is on its side. -/
theorem LensAt.side_circle (hcon : Connected cross edge) (h1 : s.a0 = s.a2) :
    (∀ c, c < cross.length → c ∈ X) ∧ ∀ e, e < edge.length → (lab e ↔ (e = s.a0 ∨ e = s.a1)) := by
  obtain ⟨l1, l2, l3, l4⟩ := L.labs S ha hb
  obtain ⟨k0, k1⟩ := L.X_corner S hb hX
  have hc0 : s.c0 < cross.length := by rw [← L.ha0]; exact (mem_P.mp (hd_mem hC L.la0).1).1
  have hall : ∀ c, c < cross.length → c ∈ X := by
    intro c hc
    refine (connected_prop hcon (g := fun c => c ∈ X) ?_ hc hc0).mpr k0
    intro r hr
    obtain ⟨e, he⟩ := List.mem_iff_getElem?.mp hr
    obtain ⟨g1, g2⟩ := getBang he
    have hx := L.X_head S ha hb hX g2
    obtain ⟨p, p1, p2⟩ := prev_ex hC hO g2
    have hp := tl_nx hC hO p1
    have hx' := L.X_head S ha hb hX p1
    have hlab := S.along p p1
    rw [p2] at hp hlab
    rw [← hp] at hx'
    have hh := L.head_iff hC hO g2
    have ht := L.tail_iff hC hO g2
    have e1 : r.head = (hd edge[e]!).1 := by rw [g1]; rfl
    have e2 : r.tail = (tl edge[e]!).1 := by rw [g1]; rfl
    rw [e1, e2, ← not_iff_not, hx, hx', ← hlab]
    refine and_congr_right (fun hl => ?_)
    rw [← not_or, ← not_or, hh, ht, ← h1]
    have n1 : e ≠ s.b0 := by rintro rfl; exact hb hl
    have n2 : e ≠ s.b1 := by rintro rfl; exact l3 hl
    have n3 : e ≠ s.b2 := by rintro rfl; exact l4 hl
    simp only [n1, n2, n3, or_false]
    rw [or_comm]
  refine ⟨hall, ?_⟩
  intro e he
  constructor
  · intro hl
    have hno := (L.X_head S ha hb hX he).not.mp (not_not.mpr (hall _ (mem_P.mp (hd_mem hC he).1).1))
    have hc : (hd edge[e]!).1 = s.c0 ∨ (hd edge[e]!).1 = s.c1 := by
      by_contra hn
      push Not at hn
      exact hno ⟨hl, hn⟩
    rcases (L.head_iff hC hO he).mp hc with q | q | q | q
    · exact .inl q
    · exact .inr q
    · rw [q] at hl; exact absurd hl hb
    · rw [q] at hl; exact absurd hl l3
  · rintro (q | q)
    · rw [q]; exact ha
    · rw [q]; exact l1

end

theorem mem_onSide {cross : List Cross} {edge : List Edge} (hC : Consistent cross edge) {comps : List Comp}
    (hK : GoodComps cross edge (retag comps)) {lab : Nat → Prop} (hlab : ∀ e, e < edge.length → (lab (nx cross edge e) ↔ lab e))
    {c : Comp} (hc : c ∈ comps) {e : Nat} (he : e ∈ c.edge) : (∀ e ∈ c.edge, lab e) ↔ lab e :=
  ⟨fun h => h e he, fun h _ he' => (lab_const hC hK hlab hc he he').mp h⟩

theorem onSide_add {cross : List Cross} {edge : List Edge} (hC : Consistent cross edge) {comps : List Comp}
    (hK : GoodComps cross edge (retag comps)) {lab lab' : Nat → Prop} (hlab : ∀ e, e < edge.length → (lab (nx cross edge e) ↔ lab e))
    (hn : ∀ e, lab' e ↔ ¬ lab e) : (onSide lab comps).length + (onSide lab' comps).length = comps.length := by
  classical
  obtain ⟨-, -, h3, -⟩ := goodComps_of_retag hK
  rw [List.length_eq_length_filter_add (l := comps) (fun c => decide (∀ e ∈ c.edge, lab e))]
  have : onSide lab' comps = comps.filter (fun c => !decide (∀ e ∈ c.edge, lab e)) := by
    unfold onSide
    apply List.filter_congr
    intro c hc
    obtain ⟨e, he⟩ := List.exists_mem_of_ne_nil _ (h3 c hc)
    have q1 := mem_onSide hC hK hlab hc he
    have q2 := mem_onSide hC hK (lab := lab') (fun e he => by rw [hn, hn, hlab e he]) hc he
    rw [hn] at q2
    by_cases hl : lab e
    · rw [decide_eq_true (q1.mpr hl)]
      exact decide_eq_false (fun h => q2.mp h hl)
    · rw [decide_eq_false (fun h => hl (q1.mp h))]
      exact decide_eq_true (q2.mpr hl)
  rw [this]
  unfold onSide
  congr!

open Classical in
theorem child_ok (qs : QSort) {pd : Io.Pd} (hN : Neat pd) {s : Site} (L : LensAt pd.cross pd.edge s) {lab : Nat → Prop}
    (S : Separates pd.cross pd.edge s.c0 s.c1 lab) (ha : lab s.a0) (hb : ¬ lab s.b0) {X G : List Nat}
    (hX : ∀ c, c ∈ X ↔ ∃ e, e < pd.edge.length ∧ ¬ lab e ∧ (hd pd.edge[e]!).1 = c)
    (hG : ∀ e, e ∈ G ↔ e < pd.edge.length ∧ (¬ lab e ∨ e = s.a1 ∨ e = s.a2)) {cA : Comp} (hc : cA ∈ pd.comp) (hcA : s.a0 ∈ cA.edge) :
    ∃ o, child qs pd X G s.a0 s.a2 cA.tag = .ok o ∧ Piece pd lab s.a0 s.a1 s.a2 o ∧ ncomps o = (onSide lab pd.comp).length ∧
      ncross o = ((Finset.range pd.cross.length).filter (fun c => c ∉ X)).card ∧ eulerOk o = true ∧ outOk qs o = .ok true ∧
      (ncross o ≠ 0 → nedges o = 2 * ncross o) := by
  have hT := hN.tidy
  have hP := hT.plane
  have hC := hP.consistent
  have hO := hP.oriented
  have hK := hT.goodComps
  have hs := hT.small
  obtain ⟨l1, l2, l3, l4⟩ := L.labs S ha hb
  obtain ⟨k1, -, k3, -⟩ := goodComps_of_retag hK
  have hXlt : ∀ c ∈ X, c < pd.cross.length := by
    intro c hc
    obtain ⟨e, e1, -, rfl⟩ := (hX c).mp hc
    exact (mem_P.mp (hd_mem hC e1).1).1
  have hGlt : ∀ e ∈ G, e < pd.edge.length := fun e he => ((hG e).mp he).1
  by_cases h1 : s.a0 = s.a2
  · obtain ⟨q1, q2⟩ := L.side_circle hC hO S ha hb hX hP.connected h1
    obtain ⟨c1, cidx, σ, κ, r1, r2, -⟩ := compact_survive' qs zeroCross pd.cross X hXlt
    obtain ⟨e1, eidx, τ, ν, r3, -⟩ := compact_survive' qs zeroEdge pd.edge G hGlt
    have hsurv : surv pd.cross.length X = [] := by
      unfold surv
      rw [List.filter_eq_nil_iff]
      intro c hc
      simpa using q1 c (List.mem_range.mp hc)
    rw [hsurv] at r2
    have hf : (Finset.range pd.cross.length).filter (fun c => c ∉ X) = ∅ := by
      rw [Finset.filter_eq_empty_iff]
      intro c hc
      simpa using q1 c (Finset.mem_range.mp hc)
    refine ⟨.unknot cA.tag, ?_, .inl ⟨h1, q2, cA, hc, hcA, rfl⟩, ?_, by rw [hf]; rfl, rfl, rfl, fun h => absurd rfl h⟩
    · unfold child
      rw [r1, ok_bind]
      simp only
      rw [r3, ok_bind]
      simp only
      rw [if_pos (by rw [r2]; rfl)]
    · -- one component
      have hnd : pd.comp.Nodup := List.Nodup.of_map _ hN.tags
      have hin : ∀ c ∈ onSide lab pd.comp, c = cA := by
        intro c hcm
        unfold onSide at hcm
        rw [List.mem_filter, decide_eq_true_eq] at hcm
        obtain ⟨e, he⟩ := List.exists_mem_of_ne_nil _ (k3 c hcm.1)
        have hl := hcm.2 e he
        have hlt := comp_lt hN hcm.1 he
        have ha0 : s.a0 ∈ c.edge := by
          rcases (q2 e hlt).mp hl with q | q
          · rw [← q]; exact he
          · rw [q, ← L.na0] at he
            exact (mem_comp_nx hC hO hK hcm.1 L.la0).mp he
        obtain ⟨i, hi⟩ := List.mem_iff_getElem?.mp hcm.1
        obtain ⟨j, hj⟩ := List.mem_iff_getElem?.mp hc
        have := comp_unique hK hi hj ha0 hcA
        subst this
        rw [hi] at hj
        exact Option.some.inj hj
      have hmem : cA ∈ onSide lab pd.comp := by
        unfold onSide
        rw [List.mem_filter, decide_eq_true_eq]
        exact ⟨hc, (mem_onSide hC hK S.along hc hcA).mpr ha⟩
      have hnd' : (onSide lab pd.comp).Nodup := by
        unfold onSide
        exact hnd.filter _
      show 1 = _
      have hlen : (onSide lab pd.comp).length ≤ 1 := by
        have := (List.subperm_of_subset (l₂ := [cA]) hnd' (fun c hcm => by simpa using hin c hcm)).length_le
        simpa using this
      have := List.length_pos_of_mem hmem
      omega
  · have B := L.side_bypass hC hO S ha hb hX hG h1
    obtain ⟨c1, cidx, e1, eidx, cross1, edge1, τ, σ, ν, κ, r1, r2, r3, r4, r5, r6, E, T, -, r10, r11⟩ := erase_ok qs hC B hXlt hGlt
    have hle : edge1.length ≤ pd.edge.length := by
      rw [r5]
      exact (List.length_filter_le _ _).trans (by simp)
    have hC1 := E.consistent B hC
    have hcnt := hC.count
    obtain ⟨cross3, edge3, comps3, τ3, σ3, ρ3, g1, E3, hC3, hO3, K3, R3, g7, g8⟩ := compact_rest qs hC hO B (L.side_thru hC hG) (by omega)
      hK E T hle r10 r11 (renamed_self hC1) sameSigns_self
    have hle3 : edge3.length ≤ pd.edge.length := by
      have : ((Finset.range edge3.length).image τ3).card ≤ (Finset.range pd.edge.length).card := by
        apply Finset.card_le_card
        intro e he
        rw [Finset.mem_image] at he
        obtain ⟨f, f1, rfl⟩ := he
        exact Finset.mem_range.mpr (E3.tlt f (Finset.mem_range.mp f1)).1
      rw [Finset.card_image_of_injOn, Finset.card_range, Finset.card_range] at this
      · exact this
      · intro a ha b hb hab
        exact E3.tinj a b (Finset.mem_range.mp ha) (Finset.mem_range.mp hb) hab
    obtain ⟨cross4, edge4, σ4, ρ4, m1, E4, hC4, hO4, m5, K4, m7, m8⟩ := E3.regen qs hC3 hO3 (by omega) K3
    have ha0G : s.a0 ∉ G := B.kept (s.a0, s.a2) (by simp)
    have hne : ∀ {cr : List Cross} {ed : List Edge} {τ σ ρ : Nat → Nat},
        Erased pd.cross pd.edge X G [(s.a0, s.a2)] cr ed τ σ ρ → cr ≠ [] := by
      intro cr ed τ σ ρ E hnil
      obtain ⟨f, f1, -⟩ := E.tonto _ L.la0 ha0G
      have := (E.edge f _ (List.getElem?_eq_getElem f1)).1
      rw [hnil] at this
      simp at this
    have hne1 : c1.length ≠ 0 := by
      rw [r3]
      exact fun q => hne E (List.length_eq_zero_iff.mp q)
    have hcon4 := E4.connected_one B hP.connected
    have hP4 : PlaneDiagram cross4 edge4 :=
      ⟨hC4, hO4, hne E4, hcon4, planeFaces_of_exact hC4 hcon4 (hne E4) (L.side_exact hC hO S ha hb hX hG hP.exact h1 E4 hC4)⟩
    have hcnt4 := hC4.count
    have hall : pd.comp.filter (fun c => c.edge.any (fun e => decide (e ∉ G))) = onSide lab pd.comp := by
      unfold onSide
      apply List.filter_congr
      intro c hcm
      rw [Bool.eq_iff_iff, List.any_eq_true, decide_eq_true_eq]
      constructor
      · rintro ⟨e, he, hg⟩
        rw [mem_onSide hC hK S.along hcm he]
        by_contra hn
        exact (of_decide_eq_true hg) ((hG e).mpr ⟨comp_lt hN hcm he, .inl hn⟩)
      · intro h
        obtain ⟨e, he⟩ := List.exists_mem_of_ne_nil _ (k3 c hcm)
        by_cases hg : e ∈ G
        · have ha0 : s.a0 ∈ c.edge := by
            have n0 := mem_comp_nx hC hO hK hcm L.la0
            have n1 := mem_comp_nx hC hO hK hcm L.la1
            rw [L.na0] at n0
            rw [L.na1] at n1
            rcases ((hG e).mp hg).2 with q | q | q
            · exact absurd (h e he) q
            · rw [q] at he; exact n0.mp he
            · rw [q] at he; exact n0.mp (n1.mp he)
          exact ⟨_, ha0, decide_eq_true ha0G⟩
        · exact ⟨e, he, decide_eq_true hg⟩
    have htags := R3.tags
    rw [hall] at htags
    obtain ⟨t1, t2⟩ := R3.tags_ok hN
    have hcle : cross4.length ≤ pd.cross.length := by omega
    obtain ⟨pd', w1, w2, w3, w4, w5, w6, -⟩ := withFaces_ok qs (maxfaces := (Io.capsNew pd.cross.length).faces) (uid := 0) hP4 m7 m8
      K4 (by omega) (by simp only [Io.capsNew]; omega) t1 t2
    have hlen : comps3.length = (onSide lab pd.comp).length := by simpa using htags.length_eq
    have hlen' : (onSide lab pd.comp).length ≤ pd.comp.length := by unfold onSide; exact List.length_filter_le _ _
    have hf2 := w2.tidy.goodFaces.count
    rw [w3] at hf2
    have hok : ∀ q : QSort, pdOk q ⟨cross4.length, edge4.length, pd.comp.length, (Io.capsNew pd.cross.length).faces⟩ pd' =
        .ok true := by
      intro q
      refine w2.ok q ?_ ?_ ?_
      · rw [w4]
      · rw [w5, hlen]; exact hlen'
      · simp only [Io.capsNew]; omega
    refine ⟨.code ⟨cross4.length, edge4.length, pd.comp.length, (Io.capsNew pd.cross.length).faces⟩ pd', ?_, .inr ⟨h1, _, pd', X, G, τ3, σ4, ρ4,
      rfl, w2, hok, by rw [w3], by rw [w4], ?_, hG, by rw [w3, w4]; exact E4, by rw [w5]; exact htags, by rw [w5, w4, m5]; exact R3.of⟩,
      ?_, ?_, ?_, hok qs, ?_⟩
    · unfold child
      rw [r1, ok_bind]
      simp only
      rw [r2, ok_bind]
      simp only
      rw [if_neg hne1, r6, ok_bind]
      simp only
      rw [g1, ok_bind]
      simp only
      rw [sort_comps qs K3 (by omega), m1, ok_bind]
      simp only
      rw [w1, ok_bind]
    · intro c
      rw [hX]
      constructor
      · rintro ⟨e, e1, e2, e3⟩
        exact ⟨e, _, bang e1, e3, e2⟩
      · rintro ⟨e, r, e1, e2, e3⟩
        obtain ⟨q1, q2⟩ := getBang e1
        exact ⟨e, q2, e3, by rw [q1]; exact e2⟩
    · show pd'.comp.length = _
      rw [w5, hlen]
    · show pd'.cross.length = _
      rw [w3, E4.card]
    · show decide _ = true
      rw [decide_eq_true_eq, w3, w4, hf2]
      omega
    · intro _
      show pd'.edge.length = 2 * pd'.cross.length
      rw [w3, w4]
      omega

theorem headsOf_ok (edge : List Edge) : ∀ (l : List Nat), (∀ e ∈ l, e < edge.length) →
    headsOf edge l = .ok (l.map (fun e => (hd edge[e]!).1))
  | [], _ => rfl
  | e :: l, h => by
    unfold headsOf
    rw [rd_ok (bang (h e List.mem_cons_self)), ok_bind, headsOf_ok edge l (fun e he => h e (List.mem_cons_of_mem _ he)), ok_bind]
    rfl

theorem split_ok (qs : QSort) {pd : Io.Pd} (hN : Neat pd) {s : Site} (L : LensAt pd.cross pd.edge s) {lab : Nat → Prop}
    (S : Separates pd.cross pd.edge s.c0 s.c1 lab) (ha : lab s.a0) (hb : ¬ lab s.b0) :
    ∃ oA oB, split qs pd s = .ok [oA, oB] ∧ Piece pd lab s.a0 s.a1 s.a2 oA ∧ Piece pd (fun e => ¬ lab e) s.b0 s.b1 s.b2 oB ∧
      ncross oA + ncross oB + 2 = pd.cross.length := by
  classical
  have hT := hN.tidy
  have hP := hT.plane
  have hC := hP.consistent
  have hO := hP.oriented
  have hK := hT.goodComps
  have hcnt := hC.count
  obtain ⟨l1, l2, l3, l4⟩ := L.labs S ha hb
  obtain ⟨kA, pA, kB, pB, cA, cB, st0, st1, st, w1, w2, w3, w4, w5, w6, w7, w8, w9, w10, eA, eB, nA, nB⟩ := walk_ok hN S L ha hb
  have hxA := headsOf_ok pd.edge (edgesOf (.a true) pd.comp st) (fun e he => ((eA e).mp he).1)
  have hxB := headsOf_ok pd.edge (edgesOf (.b true) pd.comp st) (fun e he => ((eB e).mp he).1)
  generalize hlA : edgesOf (.a true) pd.comp st = lA at *
  generalize hlB : edgesOf (.b true) pd.comp st = lB at *
  have hXB : ∀ c, c ∈ lB.map (fun e => (hd pd.edge[e]!).1) ↔ ∃ e, e < pd.edge.length ∧ ¬ lab e ∧ (hd pd.edge[e]!).1 = c := by
    intro c
    rw [List.mem_map]
    constructor
    · rintro ⟨e, e1, e2⟩
      exact ⟨e, ((eB e).mp e1).1, ((eB e).mp e1).2, e2⟩
    · rintro ⟨e, e1, e2, e3⟩
      exact ⟨e, (eB e).mpr ⟨e1, e2⟩, e3⟩
  have hXA : ∀ c, c ∈ lA.map (fun e => (hd pd.edge[e]!).1) ↔ ∃ e, e < pd.edge.length ∧ ¬ ¬ lab e ∧ (hd pd.edge[e]!).1 = c := by
    intro c
    rw [List.mem_map]
    constructor
    · rintro ⟨e, e1, e2⟩
      exact ⟨e, ((eA e).mp e1).1, not_not.mpr ((eA e).mp e1).2, e2⟩
    · rintro ⟨e, e1, e2, e3⟩
      exact ⟨e, (eA e).mpr ⟨e1, not_not.mp e2⟩, e3⟩
  have hGB : ∀ e, e ∈ lB ++ [s.a1, s.a2] ↔ e < pd.edge.length ∧ (¬ lab e ∨ e = s.a1 ∨ e = s.a2) := by
    intro e
    rw [List.mem_append, eB]
    simp only [List.mem_cons, List.not_mem_nil, or_false]
    constructor
    · rintro (⟨q1, q2⟩ | rfl | rfl)
      · exact ⟨q1, .inl q2⟩
      · exact ⟨L.la1, .inr (.inl rfl)⟩
      · exact ⟨L.la2, .inr (.inr rfl)⟩
    · rintro ⟨q1, q2 | q2⟩
      · exact .inl ⟨q1, q2⟩
      · exact .inr q2
  have hGA : ∀ e, e ∈ lA ++ [s.b1, s.b2] ↔ e < pd.edge.length ∧ (¬ ¬ lab e ∨ e = s.b1 ∨ e = s.b2) := by
    intro e
    rw [List.mem_append, eA]
    simp only [List.mem_cons, List.not_mem_nil, or_false]
    constructor
    · rintro (⟨q1, q2⟩ | rfl | rfl)
      · exact ⟨q1, .inl (not_not.mpr q2)⟩
      · exact ⟨L.lb1, .inr (.inl rfl)⟩
      · exact ⟨L.lb2, .inr (.inr rfl)⟩
    · rintro ⟨q1, q2 | q2⟩
      · exact .inl ⟨q1, not_not.mp q2⟩
      · exact .inr q2
  have sub : ∀ l : List Nat, l.Nodup → (∀ e ∈ l, e < pd.edge.length) → l.length ≤ pd.edge.length := by
    intro l h1 h2
    have := (List.subperm_of_subset (l₂ := List.range pd.edge.length) h1 (fun e he => List.mem_range.mpr (h2 e he))).length_le
    simpa using this
  have fit : ∀ (l : List Nat) (n : Nat), l.length ≤ n → fits l n = .ok () := fun l n h => if_pos h
  have fA : (lA ++ [s.b1, s.b2]).Nodup := by
    rw [List.nodup_append]
    refine ⟨nA, by simp [L.b1b2], ?_⟩
    intro x hx y hy
    have hl := ((eA x).mp hx).2
    simp only [List.mem_cons, List.not_mem_nil, or_false] at hy
    rintro rfl
    rcases hy with rfl | rfl
    · exact l3 hl
    · exact l4 hl
  have fB : (lB ++ [s.a1, s.a2]).Nodup := by
    rw [List.nodup_append]
    refine ⟨nB, by simp [L.a1a2], ?_⟩
    intro x hx y hy
    have hl := ((eB x).mp hx).2
    simp only [List.mem_cons, List.not_mem_nil, or_false] at hy
    rintro rfl
    rcases hy with rfl | rfl
    · exact hl l1
    · exact hl l2
  obtain ⟨oA, cA1, cA2, cA3, cA4, cA5, cA6, cA7⟩ := child_ok qs hN L S ha hb hXB hGB (List.mem_of_getElem? w4) w6
  obtain ⟨s', L', s0, s1, s2, s3, s4⟩ := L.swap
  have S' : Separates pd.cross pd.edge s'.c0 s'.c1 (fun e => ¬ lab e) := by
    rcases s4 with ⟨q1, q2⟩ | ⟨q1, q2⟩
    · rw [q1, q2]; exact S.not
    · rw [q1, q2]; exact S.not.swap
  obtain ⟨oB, cB1, cB2, cB3, cB4, cB5, cB6, cB7⟩ := child_ok qs hN L' S' (by rw [s0]; exact hb) (by rw [s3]; exact not_not.mpr ha) hXA
    (by rw [s1, s2]; exact hGA) (List.mem_of_getElem? w5) (by rw [s0]; exact w7)
  rw [s0, s2] at cB1
  rw [s0, s1, s2] at cB2
  -- the numbers of crossings
  have hc0 : s.c0 < pd.cross.length := by rw [← L.ha0]; exact (mem_P.mp (hd_mem hC L.la0).1).1
  have hc1 : s.c1 < pd.cross.length := by rw [← L.ha1]; exact (mem_P.mp (hd_mem hC L.la1).1).1
  obtain ⟨x0, x1⟩ := L.X_corner S hb hXB
  have y0 : s.c0 ∈ lA.map (fun e => (hd pd.edge[e]!).1) := (hXA _).mpr ⟨_, L.la0, not_not.mpr ha, L.ha0⟩
  have y1 : s.c1 ∈ lA.map (fun e => (hd pd.edge[e]!).1) := (hXA _).mpr ⟨_, L.la1, not_not.mpr l1, L.ha1⟩
  have hsum : ncross oA + ncross oB + 2 = pd.cross.length := by
    rw [cA4, cB4]
    have d1 : Disjoint ((Finset.range pd.cross.length).filter (fun c => c ∉ lB.map (fun e => (hd pd.edge[e]!).1)))
        ((Finset.range pd.cross.length).filter (fun c => c ∉ lA.map (fun e => (hd pd.edge[e]!).1))) := by
      rw [Finset.disjoint_left]
      intro c h1 h2
      rw [Finset.mem_filter, Finset.mem_range] at h1 h2
      obtain ⟨x, u, hx, -, -, hxc, -⟩ := LensAt.other_in hC hO h1.1
      by_cases q : lab x
      · exact h2.2 ((hXA c).mpr ⟨x, hx, not_not.mpr q, hxc⟩)
      · exact h1.2 ((hXB c).mpr ⟨x, hx, q, hxc⟩)
    have d2 : Disjoint ((Finset.range pd.cross.length).filter (fun c => c ∉ lB.map (fun e => (hd pd.edge[e]!).1)) ∪
        (Finset.range pd.cross.length).filter (fun c => c ∉ lA.map (fun e => (hd pd.edge[e]!).1))) {s.c0, s.c1} := by
      rw [Finset.disjoint_right]
      intro c h1 h2
      rw [Finset.mem_insert, Finset.mem_singleton] at h1
      rw [Finset.mem_union, Finset.mem_filter, Finset.mem_filter] at h2
      rcases h1 with rfl | rfl
      · rcases h2 with h2 | h2
        · exact h2.2 x0
        · exact h2.2 y0
      · rcases h2 with h2 | h2
        · exact h2.2 x1
        · exact h2.2 y1
    rw [← Finset.card_union_of_disjoint d1, ← Finset.card_pair L.ne, ← Finset.card_union_of_disjoint d2]
    have : ((Finset.range pd.cross.length).filter (fun c => c ∉ lB.map (fun e => (hd pd.edge[e]!).1)) ∪
        (Finset.range pd.cross.length).filter (fun c => c ∉ lA.map (fun e => (hd pd.edge[e]!).1))) ∪ {s.c0, s.c1} =
        Finset.range pd.cross.length := by
      ext c
      rw [Finset.mem_union, Finset.mem_union, Finset.mem_filter, Finset.mem_filter, Finset.mem_insert, Finset.mem_singleton,
        Finset.mem_range]
      constructor
      · rintro ((q | q) | q | q)
        · exact q.1
        · exact q.1
        · rw [q]; exact hc0
        · rw [q]; exact hc1
      · intro hc
        by_cases q1 : c ∈ lB.map (fun e => (hd pd.edge[e]!).1)
        · by_cases q2 : c ∈ lA.map (fun e => (hd pd.edge[e]!).1)
          · obtain ⟨e, e1, e2, e3⟩ := (hXB c).mp q1
            obtain ⟨x, x1, x2, x3⟩ := (hXA c).mp q2
            by_contra hn
            push Not at hn
            exact e2 ((S.at_ e x e1 x1 (e3.trans x3.symm) (by rw [e3]; exact hn.2.1) (by rw [e3]; exact hn.2.2)).mpr (not_not.mp x2))
          · exact .inl (.inr ⟨hc, q2⟩)
        · exact .inl (.inl ⟨hc, q1⟩)
    rw [this, Finset.card_range]
  have hcs := onSide_add hC hK S.along (lab' := fun e => ¬ lab e) (fun _ => Iff.rfl)
  refine ⟨oA, oB, ?_, cA2, cB2, hsum⟩
  have le : ∀ {p : Prop} [Decidable p], p → assertC (decide p) = .ok () := fun hp => assertC_ok (decide_eq_true hp)
  unfold split
  rw [w1, ok_bind]
  simp only
  rw [w2, ok_bind]
  simp only
  rw [le w3, ok_bind, w8, ok_bind, w9, ok_bind, w10, ok_bind]
  simp only [hlA, hlB]
  have n1 := sub _ nA (fun e he => ((eA e).mp he).1)
  have n2 := sub _ nB (fun e he => ((eB e).mp he).1)
  rw [hxA, ok_bind, hxB, ok_bind, fit _ _ (by rw [List.length_map]; omega), ok_bind, fit _ _ (by rw [List.length_map]; omega), ok_bind,
    fit _ _ (sub _ fA (fun e he => ((hGA e).mp he).1)), ok_bind, fit _ _ (sub _ fB (fun e he => ((hGB e).mp he).1)), ok_bind,
    rd_ok w4, ok_bind, rd_ok w5, ok_bind, cA1, ok_bind, cB1, ok_bind, le (by rw [cA3, cB3]; exact hcs), ok_bind,
    le (by omega), ok_bind, le (fun q => by rw [cA7 q.1, cB7 q.2]; omega), ok_bind, assertC_ok cA5, ok_bind, assertC_ok cB5, ok_bind,
    cA6, ok_bind, assertC_ok rfl, ok_bind, cB6, ok_bind, assertC_ok rfl, ok_bind]

end Plc
