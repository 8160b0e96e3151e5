import Verif.Proofs.Moves
import Verif.Proofs.Survive
import Verif.Proofs.Edgemap

namespace Plc.Moves

open Plc.Core Plc.Cmp Plc.Buffers List
open Plc.PermM (ap ap_lt)

variable {cross : List Cross} {edge : List Edge}

theorem findAdj_some {x : Cross} {i : Nat} (h : findAdj x = some i) : i < 4 ∧ x.at i = x.at (i + 1) := by
  unfold findAdj at h
  have h1 := List.mem_of_find?_eq_some h
  have h2 := List.find?_some h
  simp only [decide_eq_true_eq] at h2
  refine ⟨?_, h2⟩
  simp at h1
  omega

theorem findAdj_none {x : Cross} (h : findAdj x = none) (i : Nat) : x.at i ≠ x.at (i + 1) := by
  unfold findAdj at h
  rw [List.find?_eq_none] at h
  have := h (i % 4) (by simp; omega)
  simp only [decide_eq_true_eq] at this
  rw [at_lt x i, at_lt x (i + 1)]
  rw [at_lt x (i % 4 + 1)] at this
  rwa [show (i + 1) % 4 = (i % 4 + 1) % 4 by omega]

/-- A loop at crossing `c`. -/
structure LoopAt (cross : List Cross) (edge : List Edge) (c e0 e1 e2 : Nat) (r0 r1 r2 : Edge) : Prop where
  g0 : edge[e0]? = some r0
  g1 : edge[e1]? = some r1
  g2 : edge[e2]? = some r2
  h1 : r1.head = c
  t1 : r1.tail = c
  adj : r1.headpos = (r1.tailpos + 1) % 4 ∨ r1.tailpos = (r1.headpos + 1) % 4
  h0 : r0.head = c
  p0 : r0.headpos = (r1.tailpos + 2) % 4
  t2 : r2.tail = c
  p2 : r2.tailpos = (r1.headpos + 2) % 4
  ne01 : e0 ≠ e1
  ne12 : e1 ≠ e2

theorem loopAt (hC : Consistent cross edge) (hO : Oriented cross edge) {c : Nat} {x : Cross} (hx : cross[c]? = some x)
    {i : Nat} (hi : i < 4) (h : x.at i = x.at (i + 1)) :
    ∃ e0 e2 r0 r1 r2, LoopAt cross edge c e0 (x.at i) e2 r0 r1 r2 ∧ x.at ((r1.tailpos + 2) % 4) = e0 ∧
      x.at r1.headpos = x.at i ∧ x.at ((r1.headpos + 2) % 4) = e2 := by
  have s1 : slot cross c i = some (x.at i) := by
    have := at_eq_slot (k := i) hx
    rwa [Nat.mod_eq_of_lt hi] at this
  have s2 : slot cross c ((i + 1) % 4) = some (x.at i) := by
    rw [h]; exact at_eq_slot hx
  obtain ⟨r1, g1, a1⟩ := hC.slots s1
  obtain ⟨r1', g1', a2⟩ := hC.slots s2
  rw [g1] at g1'
  cases g1'
  obtain ⟨e0, r0, b1, b2, b3⟩ := hO.through_tail _ r1 g1
  obtain ⟨e2, r2, b4, b5, b6⟩ := hO.through_head _ r1 g1
  have hc : r1.head = c ∧ r1.tail = c ∧ (r1.headpos = (r1.tailpos + 1) % 4 ∨ r1.tailpos = (r1.headpos + 1) % 4) := by
    rcases a1 with ⟨a1, a1'⟩ | ⟨a1, a1'⟩ <;> rcases a2 with ⟨a2, a2'⟩ | ⟨a2, a2'⟩
    · omega
    · exact ⟨a1, a2, by omega⟩
    · exact ⟨a2, a1, by omega⟩
    · omega
  have ph := (slot_lt (hC.head _ _ g1)).2
  have pt := (slot_lt (hC.tail _ _ g1)).2
  have at_of : ∀ {k f : Nat}, slot cross c k = some f → x.at k = f := by
    intro k f hs
    obtain ⟨_, y, hy, rfl⟩ := slot_eq_some.mp hs
    rw [hx] at hy
    cases hy
    rfl
  refine ⟨e0, e2, r0, r1, r2, ⟨b1, g1, b4, hc.1, hc.2.1, hc.2.2, by rw [b2, hc.2.1], b3, by rw [b5, hc.1], b6, ?_, ?_⟩,
    ?_, ?_, ?_⟩
  · intro he
    rw [he] at b1
    rw [g1] at b1
    cases b1
    omega
  · intro he
    rw [← he] at b4
    rw [g1] at b4
    cases b4
    omega
  · rw [← b3]
    apply at_of
    rw [← hc.2.1, ← b2]
    exact hC.head _ _ b1
  · apply at_of
    rw [← hc.1]
    exact hC.head _ _ g1
  · rw [← b6]
    apply at_of
    rw [← hc.1, ← b5]
    exact hC.tail _ _ b4

namespace LoopAt

variable {c e0 e1 e2 : Nat} {r0 r1 r2 : Edge}

/-- Every place of the crossing is one of four ends. -/
theorem place (h : LoopAt cross edge c e0 e1 e2 r0 r1 r2) (hC : Consistent cross edge) {k : Nat} (hk : k < 4) :
    k = r1.headpos ∨ k = r1.tailpos ∨ k = r0.headpos ∨ k = r2.tailpos := by
  have ph := (slot_lt (hC.head _ _ h.g1)).2
  have pt := (slot_lt (hC.tail _ _ h.g1)).2
  have := h.adj
  have := h.p0
  have := h.p2
  omega

theorem ne (h : LoopAt cross edge c e0 e1 e2 r0 r1 r2) (hC : Consistent cross edge) (h02 : e0 ≠ e2) :
    r2.head ≠ c ∧ r0.tail ≠ c := by
  have s1 := hC.head _ _ h.g1
  have s2 := hC.tail _ _ h.g1
  have s3 := hC.head _ _ h.g0
  have s4 := hC.tail _ _ h.g2
  rw [h.h1] at s1
  rw [h.t1] at s2
  rw [h.h0] at s3
  rw [h.t2] at s4
  constructor
  · intro he
    have s5 := hC.head _ _ h.g2
    have n5 := hC.ends_ne _ _ h.g2
    have := (slot_lt s5).2
    rw [he] at s5
    rcases h.place hC this with e | e | e | e
    · rw [e, s1] at s5; exact h.ne12 (Option.some.inj s5)
    · rw [e, s2] at s5; exact h.ne12 (Option.some.inj s5)
    · rw [e, s3] at s5; exact h02 (Option.some.inj s5)
    · exact n5 (by rw [he, e, h.t2])
  · intro he
    have s5 := hC.tail _ _ h.g0
    have n5 := hC.ends_ne _ _ h.g0
    have := (slot_lt s5).2
    rw [he] at s5
    rcases h.place hC this with e | e | e | e
    · rw [e, s1] at s5; exact h.ne01 (Option.some.inj s5).symm
    · rw [e, s2] at s5; exact h.ne01 (Option.some.inj s5).symm
    · exact n5 (by rw [he, e, h.h0])
    · rw [e, s4] at s5; exact h02 (Option.some.inj s5).symm

/-- No other end lies at the crossing. -/
theorem tail_ne (h : LoopAt cross edge c e0 e1 e2 r0 r1 r2) (hC : Consistent cross edge) (h02 : e0 ≠ e2) {f : Nat} {r : Edge}
    (hr : edge[f]? = some r) (h1 : f ≠ e1) (h2 : f ≠ e2) : r.tail ≠ c := by
  intro he
  by_cases h0 : f = e0
  · subst h0
    rw [h.g0] at hr
    cases hr
    exact (h.ne hC h02).2 he
  have s5 := hC.tail _ _ hr
  have hk := (slot_lt s5).2
  rw [he] at s5
  have s1 := hC.head _ _ h.g1
  have s2 := hC.tail _ _ h.g1
  have s3 := hC.head _ _ h.g0
  have s4 := hC.tail _ _ h.g2
  rw [h.h1] at s1
  rw [h.t1] at s2
  rw [h.h0] at s3
  rw [h.t2] at s4
  rcases h.place hC hk with e | e | e | e
  · rw [e, s1] at s5; exact h1 (Option.some.inj s5).symm
  · rw [e, s2] at s5; exact h1 (Option.some.inj s5).symm
  · rw [e, s3] at s5; exact h0 (Option.some.inj s5).symm
  · rw [e, s4] at s5; exact h2 (Option.some.inj s5).symm

theorem head_ne (h : LoopAt cross edge c e0 e1 e2 r0 r1 r2) (hC : Consistent cross edge) (h02 : e0 ≠ e2) {f : Nat} {r : Edge}
    (hr : edge[f]? = some r) (h0 : f ≠ e0) (h1 : f ≠ e1) : r.head ≠ c := by
  intro he
  by_cases h2 : f = e2
  · subst h2
    rw [h.g2] at hr
    cases hr
    exact (h.ne hC h02).1 he
  have s5 := hC.head _ _ hr
  have hk := (slot_lt s5).2
  rw [he] at s5
  have s1 := hC.head _ _ h.g1
  have s2 := hC.tail _ _ h.g1
  have s3 := hC.head _ _ h.g0
  have s4 := hC.tail _ _ h.g2
  rw [h.h1] at s1
  rw [h.t1] at s2
  rw [h.h0] at s3
  rw [h.t2] at s4
  rcases h.place hC hk with e | e | e | e
  · rw [e, s1] at s5; exact h1 (Option.some.inj s5).symm
  · rw [e, s2] at s5; exact h1 (Option.some.inj s5).symm
  · rw [e, s3] at s5; exact h0 (Option.some.inj s5).symm
  · rw [e, s4] at s5; exact h2 (Option.some.inj s5).symm

end LoopAt

theorem mapC_at (τ : Nat → Nat) (c : Cross) (k : Nat) : (Emap.mapC τ c).at k = τ (c.at k) := by
  unfold Cross.at Emap.mapC
  split <;> rfl

theorem r1DelRaw_ok (qs : QSort) (hC : Consistent cross edge) {c e0 e1 e2 : Nat} {r0 r1 r2 : Edge}
    (h : LoopAt cross edge c e0 e1 e2 r0 r1 r2) (h02 : e0 ≠ e2) :
    ∃ cross1 edge1 eidx τ σ ν, r1DelRaw qs cross edge c e0 e1 e2 = .ok (cross1, edge1, eidx) ∧
      LoopRemoved cross edge c e0 e1 e2 cross1 edge1 τ σ (fun _ => 0) ∧
      Survive edge.length [e1, e2] edge1.length τ ν ∧ eidx.length = edge.length ∧
      (∀ i, i < edge.length → eidx[i]? = some (if i ∈ [e1, e2] then UNSET_IDX else ν i)) := by
  have l0 := (List.getElem?_eq_some_iff.mp h.g0).1
  have l1 := (List.getElem?_eq_some_iff.mp h.g1).1
  have l2 := (List.getElem?_eq_some_iff.mp h.g2).1
  have lc : c < cross.length := by rw [← h.h1]; exact (slot_lt (hC.head _ _ h.g1)).1
  obtain ⟨cross1, cidx, σ, κ, a1, a2, S, a4, a5, a6⟩ := compact_survive qs zeroCross cross [c] (by simpa using lc) (by simp)
  obtain ⟨edge1, eidx, τ, ν, b1, b2, T, b4, b5, b6⟩ := compact_survive qs zeroEdge edge [e1, e2]
    (by simp only [List.mem_cons, List.not_mem_nil, or_false]; rintro d (rfl | rfl) <;> assumption)
    (by simp [h.ne12])
  simp only [List.length_cons, List.length_nil] at a2 b2
  obtain ⟨n2, n0⟩ := h.ne hC h02
  have q2 := slot_lt (hC.head _ _ h.g2)
  have hcid : ∀ i, i < cross.length → i ≠ c → cidx[i]? = some (κ i) := by
    intro i hi hne
    rw [a6 i hi, if_neg (by simpa using hne)]
  have heid : ∀ i, i < edge.length → i ≠ e1 → i ≠ e2 → eidx[i]? = some (ν i) := by
    intro i hi h1 h2
    rw [b6 i hi, if_neg (by simp [h1, h2])]
  have sdown : ∀ i, i < cross.length → i ≠ c → κ i < cross1.length ∧ σ (κ i) = i := fun i hi hne =>
    S.down i hi (by simpa using hne)
  have tdown : ∀ i, i < edge.length → i ≠ e1 → i ≠ e2 → ν i < edge1.length ∧ τ (ν i) = i := fun i hi h1 h2 =>
    T.down i hi (by simp [h1, h2])
  have sup : ∀ d, d < cross1.length → σ d < cross.length ∧ σ d ≠ c := fun d hd => by
    have := S.up d hd; simpa using this
  have tup : ∀ d, d < edge1.length → τ d < edge.length ∧ τ d ≠ e1 ∧ τ d ≠ e2 := fun d hd => by
    have := T.up d hd; simpa using this
  obtain ⟨cross2, s1, s2, s3⟩ := setSlot_ok (cross := cross1) (sdown _ q2.1 n2).1 q2.2 e0
  -- the ends
  have hbound : ∀ r ∈ edge1, r.head < cidx.length ∧ r.tail < cidx.length := by
    intro r hr
    obtain ⟨d, hd, rfl⟩ := List.getElem_of_mem hr
    have := b4 d hd
    rw [List.getElem?_eq_getElem hd] at this
    rw [a5]
    exact ⟨(slot_lt (hC.head _ _ this.symm)).1, (slot_lt (hC.tail _ _ this.symm)).1⟩
  have e2ok := renameEnds_ok cidx edge1 hbound
  set edge2 := edge1.map (fun e => { e with head := ap cidx e.head, tail := ap cidx e.tail }) with hedge2
  have len2 : edge2.length = edge1.length := by simp [hedge2]
  have i0 := tdown e0 l0 h.ne01 h02
  have hi0 : ν e0 < edge2.length := by rw [len2]; exact i0.1
  set s := edge2[ν e0] with hs
  have gs : edge2[ν e0]? = some s := List.getElem?_eq_getElem hi0
  set edge3 := edge2.set (ν e0) { s with head := κ r2.head, headpos := r2.headpos } with hedge3
  -- entries of the crossings
  have ent : ∀ (d : Nat) (y : Cross), cross2[d]? = some y → ∃ x, cross[σ d]? = some x ∧ d < cross1.length ∧
      y.sign = x.sign ∧ ∀ k, x.at k < edge.length ∧ y.at k ≠ e1 ∧ y.at k ≠ e2 ∧ y.at k < edge.length ∧
        y.at k = if x.at k = e2 then e0 else x.at k := by
    intro d y hy
    have hd : d < cross1.length := by rw [← s2]; exact (List.getElem?_eq_some_iff.mp hy).1
    obtain ⟨u1, u2⟩ := sup d hd
    have hx : cross[σ d]? = some cross[σ d] := List.getElem?_eq_getElem u1
    have hx1 : cross1[d]? = some cross[σ d] := by rw [a4 d hd]; exact hx
    obtain ⟨y', c1, c2, c3⟩ := s3 d _ hx1
    rw [hy] at c1
    cases c1
    refine ⟨_, hx, hd, c2, fun k => ?_⟩
    have hsl := at_eq_slot (k := k) hx
    have hlt := hC.slot_edge_lt hsl
    have hne1 : cross[σ d].at k ≠ e1 := by
      intro he
      rw [he] at hsl
      obtain ⟨r, d1, d2⟩ := hC.slots hsl
      rw [h.g1] at d1
      cases d1
      rcases d2 with d2 | d2
      · exact u2 (by rw [← d2.1, h.h1])
      · exact u2 (by rw [← d2.1, h.t1])
    have hval : y.at k = if cross[σ d].at k = e2 then e0 else cross[σ d].at k := by
      rw [c3]
      by_cases he : cross[σ d].at k = e2
      · rw [if_pos he, if_pos]
        rw [he] at hsl
        obtain ⟨r, d1, d2⟩ := hC.slots hsl
        rw [h.g2] at d1
        cases d1
        rcases d2 with d2 | d2
        · refine ⟨?_, d2.2.symm⟩
          rw [d2.1, S.left d hd]
        · exact absurd (by rw [← d2.1, h.t2]) u2
      · rw [if_neg he, if_neg]
        rintro ⟨d1, d2⟩
        apply he
        have : σ d = r2.head := by rw [d1]; exact (sdown _ q2.1 n2).2
        have hh := hC.head _ _ h.g2
        rw [← this, ← d2, hsl] at hh
        exact Option.some.inj hh
    refine ⟨hlt, ?_, ?_, ?_, hval⟩ <;> rw [hval] <;> split
    · exact h.ne01
    · exact hne1
    · exact h02
    · assumption
    · exact l0
    · exact hlt
  have c3ok := Emap.renameCross_ok eidx cross2 (by
    intro y hy k
    obtain ⟨d, hd, rfl⟩ := List.getElem_of_mem hy
    obtain ⟨x, _, _, _, hk⟩ := ent d _ (List.getElem?_eq_getElem hd)
    rw [b5]
    exact (hk k).2.2.2.1)
  have apE : ∀ i, i < edge.length → i ≠ e1 → i ≠ e2 → ap eidx i = ν i := by
    intro i hi h1 h2
    have := heid i hi h1 h2
    rw [ap_lt (by rw [b5]; exact hi)]
    rw [List.getElem?_eq_getElem (by rw [b5]; exact hi)] at this
    exact Option.some.inj this
  have apC : ∀ i, i < cross.length → i ≠ c → ap cidx i = κ i := by
    intro i hi h1
    have := hcid i hi h1
    rw [ap_lt (by rw [a5]; exact hi)]
    rw [List.getElem?_eq_getElem (by rw [a5]; exact hi)] at this
    exact Option.some.inj this
  refine ⟨cross2.map (Emap.mapC (ap eidx)), edge3, eidx, τ, σ, ν, ?_, ?_, ?_, b5, b6⟩
  · unfold r1DelRaw
    rw [a1, ok_bind]
    simp only
    rw [rd_eq_ok.mpr h.g2, ok_bind, rd_eq_ok.mpr (hcid _ q2.1 n2), ok_bind, s1, ok_bind, b1, ok_bind]
    simp only
    rw [e2ok, ok_bind, rd_eq_ok.mpr (heid _ l0 h.ne01 h02), ok_bind, rd_eq_ok.mpr gs, ok_bind, wr_lt hi0, ok_bind,
      c3ok, ok_bind]
  · have len3 : edge3.length = edge1.length := by rw [hedge3, List.length_set, len2]
    exact {
      len := by rw [List.length_map, s2]; omega
      elen := by rw [len3]; omega
      loop := ⟨r0, r1, r2, h.g0, h.g1, h.g2, h.h1, h.t1, h.adj, h.h0, h.p0, h.t2, h.p2⟩
      ne01 := h.ne01
      ne02 := h02
      ne12 := h.ne12
      slt := fun d hd => sup d (by rwa [List.length_map, s2] at hd)
      sinj := fun d d' hd hd' he => S.inj (by rwa [List.length_map, s2] at hd) (by rwa [List.length_map, s2] at hd') he
      tlt := fun f hf => tup f (by rwa [len3] at hf)
      tinj := fun f f' hf hf' he => T.inj (by rwa [len3] at hf) (by rwa [len3] at hf') he
      cross := by
        intro d x' hx'
        rw [List.getElem?_map, Option.map_eq_some_iff] at hx'
        obtain ⟨y, hy, rfl⟩ := hx'
        obtain ⟨x, k1, k2, k3, k4⟩ := ent d y hy
        refine ⟨x, k1, k3, fun k => ?_⟩
        obtain ⟨m1, m2, m3, m4, m5⟩ := k4 k
        rw [mapC_at, apE _ m4 m2 m3, len3]
        refine ⟨(tdown _ m4 m2 m3).1, ?_⟩
        rw [(tdown _ m4 m2 m3).2, m5]
        rfl
      edge := by
        intro f r' hr'
        have hf : f < edge1.length := by rw [← len3]; exact (List.getElem?_eq_some_iff.mp hr').1
        obtain ⟨u1, u2, u3⟩ := tup f hf
        have g : edge[τ f]? = some edge[τ f] := List.getElem?_eq_getElem u1
        have g1 : edge1[f]? = some edge[τ f] := by rw [b4 f hf]; exact g
        have g2 : edge2[f]? = some { edge[τ f] with head := ap cidx edge[τ f].head, tail := ap cidx edge[τ f].tail } := by
          rw [hedge2, List.getElem?_map, g1]; rfl
        have pt := slot_lt (hC.tail _ _ g)
        have ph := slot_lt (hC.head _ _ g)
        have ht := h.tail_ne hC h02 g u2 u3
        have hκt := sdown _ pt.1 ht
        rw [List.length_map, s2]
        by_cases hfe : τ f = e0
        · have hf0 : f = ν e0 := by rw [← hfe, T.left f hf]
          subst hf0
          have hss : s = { edge[τ (ν e0)] with head := ap cidx edge[τ (ν e0)].head, tail := ap cidx edge[τ (ν e0)].tail } := by
            rw [gs] at g2; exact Option.some.inj g2
          rw [hedge3, List.getElem?_set_self hi0] at hr'
          cases hr'
          rw [hss]
          simp only
          rw [apC _ pt.1 ht]
          refine ⟨(sdown _ q2.1 n2).1, q2.2, hκt.1, pt.2, _, r2, g, ?_, hκt.2, ?_, (sdown _ q2.1 n2).2, ?_⟩
          · rw [if_pos hfe]; exact h.g2
          · simp only [Nat.add_zero]; exact Nat.mod_eq_of_lt pt.2
          · simp only [Nat.add_zero]; exact Nat.mod_eq_of_lt q2.2
        · have hne : ν e0 ≠ f := by
            intro he
            rw [← he, i0.2] at hfe
            exact hfe rfl
          rw [hedge3, List.getElem?_set_ne hne, g2] at hr'
          cases hr'
          have hh := h.head_ne hC h02 g hfe u2
          have hκh := sdown _ ph.1 hh
          simp only
          rw [apC _ pt.1 ht, apC _ ph.1 hh]
          refine ⟨hκh.1, ph.2, hκt.1, pt.2, _, _, g, ?_, hκt.2, ?_, hκh.2, ?_⟩
          · rw [if_neg hfe]; exact g
          · simp only [Nat.add_zero]; exact Nat.mod_eq_of_lt pt.2
          · simp only [Nat.add_zero]; exact Nat.mod_eq_of_lt ph.2 }
  · rw [hedge3, List.length_set, len2]
    exact T

end Plc.Moves
