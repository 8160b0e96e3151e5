import Verif.Model.BigonDel
import Verif.Proofs.EraseComps

/-! Compacting and sewing yields the diagram without the crossings. -/

namespace Plc.BigonDel

open Plc.Core Plc.Cmp Plc.Buffers Plc.Moves List
open Plc.PermM (ap ap_lt)

/-- What `pd_compacting_copy` does, where numbers may be repeated in the list of what goes. -/
theorem compact_survive' {α : Type} (qs : QSort) (zero : α) (source : List α) (dels : List Nat)
    (hd : ∀ d ∈ dels, d < source.length) :
    ∃ target tidx σ ν, compactingCopy qs zero source dels = .ok (target, tidx) ∧
      target.length = (surv source.length dels).length ∧ Survive source.length dels target.length σ ν ∧
      (∀ d, d < target.length → target[d]? = source[σ d]?) ∧
      tidx.length = source.length ∧
      (∀ i, i < source.length → tidx[i]? = some (if i ∈ dels then UNSET_IDX else ν i)) := by
  obtain ⟨target, tidx, h1, h2, h3, h4, h5⟩ := C15_compacting_copy qs zero source dels hd
  have hlen : target.length = (surv source.length dels).length := by
    rw [h2, List.length_map]
    have : (surv source.length dels) = (source.zipIdx.map (·.2)).filter (fun i => decide (i ∉ dels)) := by
      unfold surv
      rw [List.zipIdx_map_snd, List.range_eq_range']
    rw [this, List.filter_map, List.length_map]
    rfl
  have hS := surv_survive hd
  refine ⟨target, tidx, _, _, h1, hlen, by rw [hlen]; exact hS, ?_, h3, ?_⟩
  · intro d hd'
    rw [hlen] at hd'
    obtain ⟨u1, u2⟩ := hS.up d hd'
    have := (h5 _ u1 u2).2
    rw [hS.left d hd'] at this
    exact this
  · intro i hi
    split
    · exact h4 i hi ‹_›
    · exact (h5 i hi ‹_›).1

/-- What sewing does: `pos p` is the place which is written for the pair `p`, `ν p.1` the edge. -/
theorem sew_ok {edge : List Edge} {cidx eidx : List Nat} (κ ν : Nat → Nat) : ∀ (W : List (Nat × Nat)) (cross1 : List Cross)
    (edge1 : List Edge),
    (∀ p ∈ W, p.2 < edge.length ∧ cidx[(edge[p.2]!).head]? = some (κ (edge[p.2]!).head) ∧
      κ (edge[p.2]!).head < cross1.length ∧ (edge[p.2]!).headpos < 4 ∧ eidx[p.1]? = some (ν p.1) ∧ ν p.1 < edge1.length) →
    (W.map (fun p => (κ (edge[p.2]!).head, (edge[p.2]!).headpos))).Nodup → (W.map (fun p => ν p.1)).Nodup →
    ∃ cross2 edge2, sew edge cidx eidx W cross1 edge1 = .ok (cross2, edge2) ∧ cross2.length = cross1.length ∧
      edge2.length = edge1.length ∧
      (∀ (d : Nat) (x : Cross), cross1[d]? = some x → ∃ y, cross2[d]? = some y ∧ y.sign = x.sign ∧ ∀ k,
        (∀ p ∈ W, (κ (edge[p.2]!).head, (edge[p.2]!).headpos) = (d, k % 4) → y.at k = p.1) ∧
        ((∀ p ∈ W, (κ (edge[p.2]!).head, (edge[p.2]!).headpos) ≠ (d, k % 4)) → y.at k = x.at k)) ∧
      (∀ (i : Nat) (s : Edge), edge1[i]? = some s → ∃ t, edge2[i]? = some t ∧
        (∀ p ∈ W, ν p.1 = i → t = { s with head := (edge[p.2]!).head, headpos := (edge[p.2]!).headpos }) ∧
        ((∀ p ∈ W, ν p.1 ≠ i) → t = s))
  | [], cross1, edge1, _, _, _ => ⟨cross1, edge1, rfl, rfl, rfl, fun d x hx => ⟨x, hx, rfl, by simp⟩, fun i s hs => ⟨s, hs, by simp⟩⟩
  | (a, b) :: W, cross1, edge1, hp, hn, hm => by
    obtain ⟨q1, q2, q3, q4, q5, q6⟩ := hp (a, b) (by simp)
    simp only at q1 q2 q3 q4 q5 q6
    have eb : edge[b]! = edge[b] := by simp [q1]
    rw [List.map_cons, List.nodup_cons] at hn hm
    obtain ⟨cross2, s1, s2, s3⟩ := setSlot_ok (cross := cross1) q3 q4 a
    set s := edge1[ν a] with hs
    set edge2 := edge1.set (ν a) { s with head := (edge[b]!).head, headpos := (edge[b]!).headpos } with hedge2
    have l2 : edge2.length = edge1.length := by rw [hedge2, List.length_set]
    obtain ⟨cross3, edge3, r1, r2, r3, r4, r5⟩ := sew_ok κ ν W cross2 edge2
      (fun p h => by
        obtain ⟨z1, z2, z3, z4, z5, z6⟩ := hp p (by simp [h])
        exact ⟨z1, z2, by rw [s2]; exact z3, z4, z5, by rw [l2]; exact z6⟩) hn.2 hm.2
    refine ⟨cross3, edge3, ?_, by rw [r2, s2], by rw [r3, l2], ?_, ?_⟩
    · unfold sew
      rw [rd_lt q1, ok_bind, ← eb, rd_eq_ok.mpr q2, ok_bind, s1, ok_bind, rd_eq_ok.mpr q5, ok_bind, rd_lt q6, ok_bind,
        wr_lt q6, ok_bind, r1]
    · intro d x hx
      obtain ⟨y, y1, y2, y3⟩ := s3 d x hx
      obtain ⟨z, z1, z2, z3⟩ := r4 d y y1
      refine ⟨z, z1, by rw [z2, y2], fun k => ⟨?_, ?_⟩⟩
      · intro p hpW hpos
        rcases List.mem_cons.mp hpW with rfl | hpW
        · rw [(z3 k).2, y3, if_pos]
          · rw [Prod.mk.injEq] at hpos
            exact ⟨hpos.1.symm, hpos.2.symm⟩
          · intro p' hp' he
            apply hn.1
            rw [List.mem_map]
            exact ⟨p', hp', by rw [he, hpos]⟩
        · exact (z3 k).1 p hpW hpos
      · intro hno
        rw [(z3 k).2 (fun p' hp' => hno p' (by simp [hp'])), y3, if_neg]
        rintro ⟨e1, e2⟩
        exact hno (a, b) (by simp) (by rw [e1, e2])
    · intro i t ht
      by_cases hi : i = ν a
      · subst hi
        rw [List.getElem?_eq_getElem q6] at ht
        cases ht
        obtain ⟨t', t1, t2, t3⟩ := r5 (ν a) _ (by rw [hedge2, List.getElem?_set_self q6])
        refine ⟨t', t1, ?_, ?_⟩
        · intro p hpW hpos
          have hno : ∀ p ∈ W, ν p.1 ≠ ν a := by
            intro p hp he
            apply hm.1
            rw [List.mem_map]
            exact ⟨p, hp, he⟩
          rcases List.mem_cons.mp hpW with rfl | hpW
          · exact t3 hno
          · exact absurd hpos (hno p hpW)
        · intro hno
          exact absurd rfl (hno (a, b) (by simp))
      · obtain ⟨t', t1, t2, t3⟩ := r5 i t (by rw [hedge2, List.getElem?_set_ne (Ne.symm hi)]; exact ht)
        refine ⟨t', t1, ?_, ?_⟩
        · intro p hpW hpos
          rcases List.mem_cons.mp hpW with rfl | hpW
          · exact absurd hpos.symm hi
          · exact t2 p hpW hpos
        · intro hno
          exact t3 (fun p hp => hno p (by simp [hp]))

theorem get_bang {edge : List Edge} {e : Nat} (h : e < edge.length) : edge[e]? = some (edge[e]!) := by
  rw [List.getElem?_eq_getElem h]
  simp [h]

/-- Compacting copies and sewing. -/
theorem erase_ok (qs : QSort) {cross : List Cross} {edge : List Edge} (hC : Consistent cross edge) {X G : List Nat}
    {W : List (Nat × Nat)} (B : Bypass edge X G W) (hX : ∀ c ∈ X, c < cross.length) (hG : ∀ e ∈ G, e < edge.length) :
    ∃ c1 cidx e1 eidx cross1 edge1 τ σ ν κ, compactingCopy qs zeroCross cross X = .ok (c1, cidx) ∧
      compactingCopy qs zeroEdge edge G = .ok (e1, eidx) ∧ c1.length = cross1.length ∧
      cross1.length = (surv cross.length X).length ∧ edge1.length = (surv edge.length G).length ∧
      sewAll edge cidx eidx W c1 e1 = .ok (cross1, edge1) ∧
      Erased cross edge X G W cross1 edge1 τ σ (fun _ => 0) ∧
      Survive edge.length G edge1.length τ ν ∧ Survive cross.length X cross1.length σ κ ∧ eidx.length = edge.length ∧
      (∀ i, i < edge.length → eidx[i]? = some (if i ∈ G then UNSET_IDX else ν i)) := by
  obtain ⟨c1, cidx, σ, κ, a1, a2, S, a4, a5, a6⟩ := compact_survive' qs zeroCross cross X hX
  obtain ⟨e1, eidx, τ, ν, b1, b2, T, b4, b5, b6⟩ := compact_survive' qs zeroEdge edge G hG
  have hcid : ∀ i, i < cross.length → i ∉ X → cidx[i]? = some (κ i) := by
    intro i hi hne
    rw [a6 i hi, if_neg hne]
  have heid : ∀ i, i < edge.length → i ∉ G → eidx[i]? = some (ν i) := by
    intro i hi h1
    rw [b6 i hi, if_neg h1]
  -- the ends of strands
  have hlast : ∀ p ∈ W, (edge[p.2]!).head < cross.length ∧ (edge[p.2]!).headpos < 4 ∧ (edge[p.2]!).head ∉ X := by
    intro p hp
    have g := get_bang (B.lt p hp).2
    have := slot_lt (hC.head _ _ g)
    exact ⟨this.1, this.2, (B.head _ _ g).mpr (.inr (List.mem_map_of_mem (f := Prod.snd) hp))⟩
  have hslot : ∀ p ∈ W, ∀ q ∈ W, (κ (edge[p.2]!).head, (edge[p.2]!).headpos) = (κ (edge[q.2]!).head, (edge[q.2]!).headpos) → p = q := by
    intro p hp q hq he
    rw [Prod.mk.injEq] at he
    have h1 := hlast p hp
    have h2 := hlast q hq
    have e1 : (edge[p.2]!).head = (edge[q.2]!).head := by
      rw [← (S.down _ h1.1 h1.2.2).2, he.1, (S.down _ h2.1 h2.2.2).2]
    have s1 := hC.head _ _ (get_bang (B.lt p hp).2)
    have s2 := hC.head _ _ (get_bang (B.lt q hq).2)
    rw [e1, he.2, s2] at s1
    exact List.inj_on_of_nodup_map B.snd hp hq (Option.some.inj s1).symm
  have hWn : W.Nodup := List.Nodup.of_map _ B.fst
  have hkept : ∀ p ∈ W, ν p.1 < e1.length ∧ τ (ν p.1) = p.1 := fun p hp => T.down _ (B.lt p hp).1 (B.kept p hp)
  obtain ⟨cross2, edge2, s1, s2, s3, s4, s5⟩ := sew_ok (edge := edge) (cidx := cidx) (eidx := eidx) κ ν W c1 e1
    (fun p hp => by
      obtain ⟨z1, z2, z3⟩ := hlast p hp
      exact ⟨(B.lt p hp).2, hcid _ z1 z3, (S.down _ z1 z3).1, z2, heid _ (B.lt p hp).1 (B.kept p hp), (hkept p hp).1⟩)
    (List.Nodup.map_on hslot hWn)
    (List.Nodup.map_on (fun p hp q hq he => by
      have : p.1 = q.1 := by rw [← (hkept p hp).2, he, (hkept q hq).2]
      exact List.inj_on_of_nodup_map B.fst hp hq this) hWn)
  -- entries of the crossings
  have ent : ∀ (d : Nat) (y : Cross), cross2[d]? = some y → ∃ x, cross[σ d]? = some x ∧ d < c1.length ∧
      y.sign = x.sign ∧ ∀ k, y.at k ∉ G ∧ y.at k < edge.length ∧ y.at k = firstOf W (x.at k) := by
    intro d y hy
    have hd : d < c1.length := by rw [← s2]; exact (List.getElem?_eq_some_iff.mp hy).1
    obtain ⟨u1, u2⟩ := S.up d hd
    have hx : cross[σ d]? = some cross[σ d] := List.getElem?_eq_getElem u1
    have hx1 : c1[d]? = some cross[σ d] := by rw [a4 d hd]; exact hx
    obtain ⟨y', y1, y2, y3⟩ := s4 d _ hx1
    rw [hy] at y1
    cases y1
    refine ⟨_, hx, hd, y2, fun k => ?_⟩
    have hsl := at_eq_slot (k := k) hx
    have hlt := hC.slot_edge_lt hsl
    set e := cross[σ d].at k with he
    have hval : y.at k = firstOf W e := by
      by_cases hm : e ∈ W.map (·.2)
      · obtain ⟨p, hp, hpe⟩ := List.mem_map.mp hm
        rw [← hpe, firstOf_mem B.snd (show (p.1, p.2) ∈ W from hp)]
        refine (y3 k).1 p hp ?_
        rw [← hpe] at hsl
        obtain ⟨r, d1, d2⟩ := hC.slots hsl
        have g := get_bang (B.lt p hp).2
        rw [g] at d1
        cases d1
        rcases d2 with d2 | d2
        · rw [d2.1, d2.2, S.left d hd]
        · refine absurd ?_ u2
          rw [← d2.1]
          exact (B.tail _ _ g).mpr (B.gone p hp)
      · rw [firstOf_not hm]
        refine (y3 k).2 ?_
        intro p hp hpos
        apply hm
        rw [Prod.mk.injEq] at hpos
        obtain ⟨z1, z2, z3⟩ := hlast p hp
        have e1 : (edge[p.2]!).head = σ d := by rw [← (S.down _ z1 z3).2, hpos.1]
        have g := hC.head _ _ (get_bang (B.lt p hp).2)
        rw [e1, hpos.2, hsl] at g
        rw [Option.some.inj g]
        exact List.mem_map_of_mem (f := Prod.snd) hp
    rw [hval]
    have : firstOf W e < edge.length ∧ firstOf W e ∉ G := by
      obtain ⟨r, d1, d2⟩ := hC.slots hsl
      rcases d2 with d2 | d2
      · have := B.exists_last d1 (by rw [d2.1]; exact u2)
        exact ⟨this.1, this.2.1⟩
      · have hg : e ∉ G := fun hg => u2 (by rw [← d2.1]; exact (B.tail _ _ d1).mpr hg)
        rw [B.first_of_kept hg]
        exact ⟨hlt, hg⟩
    exact ⟨this.2, this.1, rfl⟩
  have c3ok := Emap.renameCross_ok eidx cross2 (by
    intro y hy k
    obtain ⟨d, hd, rfl⟩ := List.getElem_of_mem hy
    obtain ⟨x, _, _, _, hk⟩ := ent d _ (List.getElem?_eq_getElem hd)
    rw [b5]
    exact (hk k).2.1)
  -- the records of edges
  have eent : ∀ (f : Nat) (t : Edge), edge2[f]? = some t → f < e1.length ∧ ∃ r h, edge[τ f]? = some r ∧
      edge[lastOf W (τ f)]? = some h ∧ t = { r with head := h.head, headpos := h.headpos } := by
    intro f t ht
    have hf : f < e1.length := by rw [← s3]; exact (List.getElem?_eq_some_iff.mp ht).1
    obtain ⟨u1, u2⟩ := T.up f hf
    have g := List.getElem?_eq_getElem u1
    obtain ⟨t', t1, t2, t3⟩ := s5 f edge[τ f] (by rw [b4 f hf]; exact g)
    rw [ht] at t1
    cases t1
    refine ⟨hf, _, edge[lastOf W (τ f)]!, g, get_bang (B.last_lt u1), ?_⟩
    by_cases hm : τ f ∈ W.map (·.1)
    · obtain ⟨p, hp, hpe⟩ := List.mem_map.mp hm
      have hl : lastOf W (τ f) = p.2 := by
        rw [← hpe]
        exact lastOf_mem B.fst (show (p.1, p.2) ∈ W from hp)
      rw [hl]
      exact t2 p hp (by rw [hpe, T.left f hf])
    · rw [lastOf_not hm]
      have := t3 (fun p hp he => hm (by rw [← he, (hkept p hp).2]; exact List.mem_map_of_mem hp))
      rw [this]
      simp [u1]
  have hends : ∀ (f : Nat) (t : Edge), edge2[f]? = some t → (t.head < cross.length ∧ t.head ∉ X ∧ t.headpos < 4) ∧
      (t.tail < cross.length ∧ t.tail ∉ X ∧ t.tailpos < 4) := by
    intro f t ht
    obtain ⟨hf, r, h, k1, k2, rfl⟩ := eent f t ht
    obtain ⟨u1, u2⟩ := T.up f hf
    have p1 := slot_lt (hC.head _ _ k2)
    have p2 := slot_lt (hC.tail _ _ k1)
    exact ⟨⟨p1.1, Bypass.last_head (r := h) B u2 k2, p1.2⟩, ⟨p2.1, fun h => u2 ((B.tail _ _ k1).mp h), p2.2⟩⟩
  have e2ok := renameEnds_ok cidx edge2 (by
    intro r hr
    obtain ⟨d, hd, rfl⟩ := List.getElem_of_mem hr
    have := hends d _ (List.getElem?_eq_getElem hd)
    rw [a5]
    exact ⟨this.1.1, this.2.1⟩)
  have apE : ∀ i, i < edge.length → i ∉ G → ap eidx i = ν i := by
    intro i hi h1
    have := heid i hi h1
    rw [ap_lt (by rw [b5]; exact hi)]
    rw [List.getElem?_eq_getElem (by rw [b5]; exact hi)] at this
    exact Option.some.inj this
  have apC : ∀ i, i < cross.length → i ∉ X → ap cidx i = κ i := by
    intro i hi h1
    have := hcid i hi h1
    rw [ap_lt (by rw [a5]; exact hi)]
    rw [List.getElem?_eq_getElem (by rw [a5]; exact hi)] at this
    exact Option.some.inj this
  set cross3 := cross2.map (Emap.mapC (ap eidx)) with hcross3
  set edge3 := edge2.map (fun e => { e with head := ap cidx e.head, tail := ap cidx e.tail }) with hedge3
  have lc3 : cross3.length = c1.length := by rw [hcross3, List.length_map, s2]
  have le3 : edge3.length = e1.length := by rw [hedge3, List.length_map, s3]
  refine ⟨c1, cidx, e1, eidx, cross3, edge3, τ, σ, ν, κ, a1, b1, lc3.symm, by rw [lc3, a2], by rw [le3, b2], ?_, ?_,
    by rw [le3]; exact T, by rw [lc3]; exact S, b5, b6⟩
  · unfold sewAll
    rw [s1, ok_bind]
    simp only
    rw [c3ok, ok_bind, e2ok, ok_bind]
  · exact {
      slt := fun d hd => S.up d (by rwa [lc3] at hd)
      sinj := fun d d' hd hd' he => S.inj (by rwa [lc3] at hd) (by rwa [lc3] at hd') he
      sonto := fun c hc hn => ⟨κ c, by rw [lc3]; exact (S.down c hc hn).1, (S.down c hc hn).2⟩
      tlt := fun f hf => T.up f (by rwa [le3] at hf)
      tinj := fun f f' hf hf' he => T.inj (by rwa [le3] at hf) (by rwa [le3] at hf') he
      tonto := fun c hc hn => ⟨ν c, by rw [le3]; exact (T.down c hc hn).1, (T.down c hc hn).2⟩
      cross := by
        intro d x' hx'
        rw [hcross3, List.getElem?_map, Option.map_eq_some_iff] at hx'
        obtain ⟨y, hy, rfl⟩ := hx'
        obtain ⟨x, k1, k2, k3, k4⟩ := ent d y hy
        refine ⟨x, k1, k3, fun k => ?_⟩
        obtain ⟨m1, m2, m3⟩ := k4 k
        rw [mapC_at, apE _ m2 m1, le3]
        refine ⟨(T.down _ m2 m1).1, ?_⟩
        rw [(T.down _ m2 m1).2, m3]
        rfl
      edge := by
        intro f r' hr'
        rw [hedge3, List.getElem?_map, Option.map_eq_some_iff] at hr'
        obtain ⟨t, ht, rfl⟩ := hr'
        obtain ⟨⟨p1, p2, p3⟩, ⟨p4, p5, p6⟩⟩ := hends f t ht
        obtain ⟨hf, r, h, k1, k2, rfl⟩ := eent f t ht
        simp only at p1 p2 p3 p4 p5 p6 ⊢
        rw [apC _ p1 p2, apC _ p4 p5, lc3]
        refine ⟨(S.down _ p1 p2).1, p3, (S.down _ p4 p5).1, p6, r, h, k1, k2, (S.down _ p4 p5).2, ?_, (S.down _ p1 p2).2, ?_⟩
        · simp only [Nat.add_zero]; exact Nat.mod_eq_of_lt p6
        · simp only [Nat.add_zero]; exact Nat.mod_eq_of_lt p3 }

end Plc.BigonDel
