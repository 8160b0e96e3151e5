import Verif.Proofs.MovesDel2
import Verif.Spec.Examples
import Verif.Proofs.Std

namespace Plc.Moves

open Plc.Core Plc.Cmp Plc.Buffers

/-- **C36, addition.** Adding a loop at place `i` of a face, that is on edge `e` with orientation `eo`. On a
consistent and oriented diagram with crossings, the function returns; there are one crossing and two edges more,
the result is consistent and oriented, and taking the new loop away gives back the diagram one started with, by
the renamings `τ` (edges), `σ` (crossings), `ρ` (rotations). The loop sits on the strand where `e` was, at a
crossing with no sign, and turns left or right according to `eo`. The components of the result list each edge
once, consecutively, and along them edges follow each other. -/
theorem C36_add_loop (qs : QSort) (cross : List Cross) (edge : List Edge) (face : Face) (i e : Nat) (eo : Or)
    (hC : Consistent cross edge) (hO : Oriented cross edge) (hsmall : edge.length + 2 < 2 ^ 31)
    (hfe : face.edge[i]? = some e) (hfo : face.orient[i]? = some eo) (he : e < edge.length) (ho : eo ≠ .unset)
    (hK : AtMostStrands cross edge ((cross.length + 2) / 2 + 2)) :
    ∃ (cross' : List Cross) (edge' : List Edge) (comps : List Comp) (c e1 e2 : Nat) (τ σ ρ : Nat → Nat),
      r1Add qs cross edge face i = .ok (cross', edge', comps) ∧
      Consistent cross' edge' ∧ Oriented cross' edge' ∧
      cross'.length = cross.length + 1 ∧ edge'.length = edge.length + 2 ∧
      LoopRemoved cross' edge' c (τ e) e1 e2 cross edge τ σ ρ ∧
      (∃ x, cross'[c]? = some x ∧ x.sign = .unset) ∧
      (∃ r1, edge'[e1]? = some r1 ∧ (eo = .pos → r1.headpos = (r1.tailpos + 1) % 4) ∧
        (eo = .neg → r1.tailpos = (r1.headpos + 1) % 4)) ∧
      comps.flatMap (·.edge) = List.range edge'.length ∧
      comps.Pairwise (fun a b => b.edge.length ≤ a.edge.length) ∧
      (∀ c ∈ comps, c.edge ≠ []) ∧
      (∀ c ∈ comps, ∀ (j e : Nat), c.edge[j]? = some e →
        ∃ e', c.edge[(j + 1) % c.edge.length]? = some e' ∧ Follows cross' edge' e e') ∧
      comps.map (·.tag) = List.range' 65 comps.length ∧
      cross'.Pairwise (fun a b => ¬ ([b.e0, b.e1, b.e2, b.e3] : List Nat) < [a.e0, a.e1, a.e2, a.e3]) := by
  have hr : edge[e]? = some edge[e] := List.getElem?_eq_getElem he
  obtain ⟨cross1, edge1, ha, tb, a1, A, a3, a4⟩ := r1AddRaw_ok hC hr ho
  have hC1 := A.consistent hC hr
  have hO1 := A.oriented hO hr
  have hadj : (tb + 2) % 4 = ((ha + 2) % 4 + 1) % 4 ∨ (ha + 2) % 4 = ((tb + 2) % 4 + 1) % 4 := by
    cases eo with
    | pos => exact .inl (a3 rfl)
    | neg => exact .inr (a4 rfl)
    | unset => exact absurd rfl ho
  have L1 := A.removed hC hr hadj
  obtain ⟨cross2, edge2, σ2, ρ2, b1, R2, S2, b4, _⟩ := regenCrossings_renamed qs hC1 (by rw [A.elen]; omega)
  have hC2 := R2.consistent hC1
  have hO2 := R2.oriented hC1 hO1 (fun _ _ _ => rfl)
  have hK2 := strands_renamed R2 hC1 hO1 (A.strands hC hO hr hK)
  obtain ⟨cross3, edge3, comps, τ3, σ3, ρ3, d1, d2, d3, d4, d5, d6, hC3, hO3, d9, d10, d11, d12, d13, d14, d15, d16,
      d17⟩ := C21_regenerate_comps_partial qs (2 * (cross.length + 2) + 1) ((cross.length + 2) / 2 + 2) cross2 edge2
    hC2 hO2 (by intro h; have := R2.len; rw [h, A.len] at this; simp at this)
    (by rw [R2.elen, A.elen, hC.count]; omega) (by rw [R2.elen, A.elen]; exact hsmall) b4 hK2
  obtain ⟨R3, S3⟩ := renamed_of hC3 d10 d11 d12 d13 d14 d15 d16 d17
  have L2 := L1.comp_left R2 hC1 S2
  have L3 := L2.comp_left R3 hC2 S3
  refine ⟨cross3, edge3, comps, σ3 (σ2 cross.length), τ3 e, τ3 (edge.length + 1),
    fun f => τ3 (if f = e then edge.length else f), fun d => σ3 (σ2 d), _, ?_, hC3, hO3, ?_, ?_, (by simp only [if_pos]; exact L3), ?_, ?_, ?_, d3, d4, d5, d6, d9⟩
  · unfold r1Add
    simp only
    rw [rd_eq_ok.mpr hfe, ok_bind, rd_eq_ok.mpr hfo, ok_bind, a1, ok_bind]
    simp only
    rw [b1, ok_bind]
    exact d1
  · rw [d10, R2.len, A.len]
  · rw [d11, R2.elen, A.elen]
  · obtain ⟨x, k1, k2, _⟩ := A.kink
    obtain ⟨x', k3, k4⟩ := S2 _ _ k1
    obtain ⟨x'', k5, k6⟩ := S3 _ _ k3
    exact ⟨x'', k5, by rw [k6, k4, k2]⟩
  · have k1 := R3.edge _ _ (R2.edge _ _ A.ee)
    refine ⟨_, k1, ?_, ?_⟩
    all_goals
      intro h
      simp only [moveEdge, Bool.false_eq_true, if_false]
      have q2 := R2.rho cross.length
      have q3 := R3.rho (σ2 cross.length)
      first
      | have := a3 h; omega
      | have := a4 h; omega
  · rw [d2, d11]

/-- **C36, removal.** Crossing `cr` has the same edge at two neighbouring places `i`, `i + 1` and different edges at
the other two. On a consistent and oriented diagram, `pd_R1_loopdeletion` returns a diagram with one crossing and
two edges less, which is the one it was given without the loop at `cr`, by the renamings `τ`, `σ`, `ρ`; it is
consistent and oriented, its crossings are sorted. The components of the result list each edge once, consecutively,
along them edges follow each other, and each of them is an old component, with its tag, without the edges that are
gone. -/
theorem C36_remove_loop (qs : QSort) (cross : List Cross) (edge : List Edge) (comps : List Comp) (nfaces cr : Nat)
    (x : Cross) (i : Nat) (hC : Consistent cross edge) (hO : Oriented cross edge) (hsmall : edge.length < 2 ^ 31)
    (hall : (comps.flatMap (·.edge)).Perm (List.range edge.length)) (hne : ∀ c ∈ comps, c.edge ≠ [])
    (hcyc : ∀ c ∈ comps, ∀ (j e : Nat), c.edge[j]? = some e →
      ∃ e', c.edge[(j + 1) % c.edge.length]? = some e' ∧ Follows cross edge e e')
    (hx : cross[cr]? = some x) (hloop : x.at i = x.at (i + 1)) (hother : x.at (i + 2) ≠ x.at (i + 3)) :
    ∃ (cross' : List Cross) (edge' : List Edge) (comps' : List Comp) (e0 e2 : Nat) (τ σ ρ : Nat → Nat),
      r1Del qs cross edge comps nfaces cr = .ok (some (cross', edge', comps')) ∧
      Consistent cross' edge' ∧ Oriented cross' edge' ∧
      cross'.length + 1 = cross.length ∧ edge'.length + 2 = edge.length ∧
      LoopRemoved cross edge cr e0 (x.at i) e2 cross' edge' τ σ ρ ∧
      comps'.flatMap (·.edge) = List.range edge'.length ∧
      comps'.Pairwise (fun a b => b.edge.length ≤ a.edge.length) ∧
      (∀ c ∈ comps', c.edge ≠ []) ∧
      (∀ c ∈ comps', ∀ (j e : Nat), c.edge[j]? = some e →
        ∃ e', c.edge[(j + 1) % c.edge.length]? = some e' ∧ Follows cross' edge' e e') ∧
      (comps'.map (·.tag)).Perm (comps.map (·.tag)) ∧
      (∀ c' ∈ comps', ∃ c ∈ comps, c.tag = c'.tag ∧ ∀ f, f < edge'.length → (f ∈ c'.edge ↔ τ f ∈ c.edge)) ∧
      cross'.Pairwise (fun a b => ¬ ([b.e0, b.e1, b.e2, b.e3] : List Nat) < [a.e0, a.e1, a.e2, a.e3]) := by
  -- the loop the program finds
  cases hfind : findAdj x with
  | none => exact absurd hloop (findAdj_none hfind i)
  | some i' =>
  obtain ⟨hi4, hi'⟩ := findAdj_some hfind
  obtain ⟨e0, e2, r0, r1, r2, LA, p0, p1, p2⟩ := loopAt hC hO hx hi4 hi'
  have s1 : ∀ k, slot cross cr (k % 4) = some (x.at k) := fun k => at_eq_slot hx
  have q1 := slot_lt (hC.head _ _ LA.g1)
  have q2 := slot_lt (hC.tail _ _ LA.g1)
  -- the two places of the edge that is found
  have only : ∀ k, x.at k = x.at i' → k % 4 = r1.headpos ∨ k % 4 = r1.tailpos := by
    intro k hk
    have := s1 k
    rw [hk] at this
    obtain ⟨r, a1, a2⟩ := hC.slots this
    rw [LA.g1] at a1
    cases a1
    rcases a2 with a2 | a2
    · exact .inl a2.2.symm
    · exact .inr a2.2.symm
  have atm : ∀ k l, k % 4 = l % 4 → x.at k = x.at l := by
    intro k l h
    rw [at_lt x k, h, ← at_lt x l]
  have hii : i' % 4 = i % 4 := by
    have hcase : i' % 4 = i % 4 ∨ i' % 4 = (i + 1) % 4 ∨ i' % 4 = (i + 2) % 4 ∨ i' % 4 = (i + 3) % 4 := by omega
    have o1 := only i' rfl
    have o2 := only (i' + 1) hi'.symm
    have ht := q2.2
    have hh := q1.2
    rcases hcase with h | h | h | h
    · exact h
    · exfalso
      have e := only i (by rw [hloop]; exact atm _ _ h.symm)
      omega
    · exact absurd (by rw [← atm _ _ h, hi']; exact atm _ _ (by omega)) hother
    · exfalso
      have e := only (i + 1) (by rw [← hloop, hi']; exact atm _ _ (by omega))
      omega
  have hia : x.at i' = x.at i := atm _ _ hii
  have h02 : e0 ≠ e2 := by
    intro he
    apply hother
    have o1 := only i' rfl
    have o2 := only (i' + 1) hi'.symm
    have ht := q2.2
    have hh := q1.2
    have hd := LA.adj
    by_cases h : i' % 4 = r1.headpos
    · have a1 : x.at (i + 2) = e2 := by rw [← p2]; exact atm _ _ (by omega)
      have a2 : x.at (i + 3) = e0 := by rw [← p0]; exact atm _ _ (by omega)
      rw [a1, a2, he]
    · have a1 : x.at (i + 2) = e0 := by rw [← p0]; exact atm _ _ (by omega)
      have a2 : x.at (i + 3) = e2 := by rw [← p2]; exact atm _ _ (by omega)
      rw [a1, a2, he]
  -- surgery
  obtain ⟨cross1, edge1, eidx, τ1, σ1, ν, d1, L1, T, d4, d5⟩ := r1DelRaw_ok qs hC LA h02
  have hC1 := L1.consistent hC
  have hO1 := L1.oriented hO
  have hl1 := L1.elen
  obtain ⟨cross2, edge2, σ2, ρ2, b1, R2, S2, _, _⟩ := regenCrossings_renamed qs hC1 (by omega)
  have hC2 := R2.consistent hC1
  have hO2 := R2.oriented hC1 hO1 (fun _ _ _ => rfl)
  obtain ⟨k1, k2, k3⟩ := comps_after hC hO LA h02 hsmall hall hcyc L1 T d5
  have hmem : ∀ c ∈ comps, ∀ e ∈ c.edge, e < edge.length := by
    intro c hc e he
    have : e ∈ List.range edge.length := hall.subset (List.mem_flatMap.mpr ⟨c, hc, he⟩)
    simpa using this
  obtain ⟨cross3, edge3, comps3, τ3, σ3, ρ3, g1, R3, S3, g4, g5, g6, g7, g8, g9⟩ :=
    compactComps_ok qs hC2 hO2 (by rw [R2.elen]; omega) (comps := comps) (eidx := eidx)
      (fun c hc e he => by rw [d4]; exact hmem c hc e he) (by rw [R2.elen]; exact k2)
      (fun c hc => (k3 c hc).imp (fun a b _ _ h => by simpa using R2.follows hC1 hO1 (fun _ _ _ => rfl) h))
  have R := R2.trans R3 hC1
  simp only [Bool.xor_false, id] at R
  have hC3 := R3.consistent hC2
  have hO3 := R3.oriented hC2 hO2 (fun _ _ _ => rfl)
  have Rb := R.symm hC1
  have Sb : SameSigns cross3 cross1 (back cross1.length (fun c => σ3 (σ2 c))) := by
    intro c y hy
    have hc : c < cross1.length := by rw [← R.len]; exact (List.getElem?_eq_some_iff.mp hy).1
    obtain ⟨u1, u2⟩ := back_spec R.slt R.sinj hc
    obtain ⟨y', v1, v2⟩ := SameSigns.trans S2 S3 _ _ (List.getElem?_eq_getElem u1)
    beta_reduce at v1 u2
    rw [u2, hy] at v1
    cases v1
    exact ⟨_, List.getElem?_eq_getElem u1, v2.symm⟩
  have L3 := L1.comp_right Rb hC3 Sb
  -- nothing is left empty
  have hnone : ∀ c ∈ comps, newEdges eidx c.edge ≠ [] := by
    intro c hc he
    rw [k1 c hc, List.map_eq_nil_iff, List.filter_eq_nil_iff] at he
    have hin : ∀ a ∈ c.edge, a = x.at i' ∨ a = e2 := by
      intro a ha
      have := he a ha
      simp only [decide_eq_true_eq, not_not, List.mem_cons, List.not_mem_nil, or_false] at this
      exact this
    obtain ⟨f1, f2⟩ := LA.follows hC
    obtain ⟨a, ha⟩ := List.exists_mem_of_ne_nil _ (hne c hc)
    have h1 : x.at i' ∈ c.edge := by
      rcases hin a ha with rfl | rfl
      · exact ha
      · exact comp_pred hC hO f2 (hcyc c hc) ha
    have h0 := comp_pred hC hO f1 (hcyc c hc) h1
    rcases hin e0 h0 with h | h
    · exact LA.ne01 h
    · exact h02 h
  have g8' : comps3.Perm (comps.map (fun c => (⟨(newEdges eidx c.edge).map τ3, c.tag⟩ : Comp))) := by
    refine g8.trans ?_
    rw [List.filter_eq_self.mpr]
    intro c hc
    obtain ⟨c0, hc0, rfl⟩ := List.mem_map.mp hc
    have := List.length_pos_of_ne_nil (hnone c0 hc0)
    simpa using this
  refine ⟨cross3, edge3, comps3, e0, e2, _, _, _, ?_, hC3, hO3, ?_, ?_, hia ▸ L3, ?_, g5, g6, g7, ?_, ?_, g9⟩
  · unfold r1Del
    have hcr := (List.getElem?_eq_some_iff.mp hx).1
    rw [assertC_ok (by simpa using hcr), ok_bind, rd_eq_ok.mpr hx, ok_bind, hfind]
    simp only
    rw [rd_eq_ok.mpr LA.g1, ok_bind, Cross.rdPos_lt (Nat.mod_lt _ (by decide)), ok_bind, Cross.rdPos_lt q1.2, ok_bind,
      Cross.rdPos_lt (Nat.mod_lt _ (by decide)), ok_bind, p0, p1, p2, if_neg h02]
    have l0 := (List.getElem?_eq_some_iff.mp LA.g0).1
    obtain ⟨j, p, c, m1, _⟩ := Strands.compAndPos_ok (compsOf_of_cyclic hall hcyc) l0
    rw [m1, ok_bind, d1, ok_bind]
    simp only
    rw [b1, ok_bind]
    simp only
    rw [g1, ok_bind]
  · have := L3.len; omega
  · have := L3.elen; omega
  · rw [g4, R3.elen]
  · have := g8'.map (·.tag)
    rw [List.map_map] at this
    exact this
  · intro c' hc'
    obtain ⟨c, hc, rfl⟩ := List.mem_map.mp (g8'.mem_iff.mp hc')
    refine ⟨c, hc, rfl, fun f hf => ?_⟩
    have hf' : f < edge1.length := by rw [← R.elen]; exact hf
    obtain ⟨u1, u2⟩ := back_spec R.tlt R.tinj hf'
    rw [k1 c hc, List.map_map, List.mem_map]
    constructor
    · rintro ⟨a, ha, hae⟩
      rw [List.mem_filter] at ha
      have dn := T.down a (hmem c hc a ha.1) (by simpa using ha.2)
      simp only [Function.comp_apply] at hae
      have : back edge1.length (fun e => τ3 e) f = ν a := by
        rw [← hae]
        exact back_left R.tlt R.tinj dn.1
      rw [this, dn.2]
      exact ha.1
    · intro ha
      refine ⟨_, List.mem_filter.mpr ⟨ha, ?_⟩, ?_⟩
      · have := (T.up _ u1).2
        simpa using this
      · simp only [Function.comp_apply]
        rw [T.left _ u1]
        exact u2

/-- Without a repeated edge the program stops, and nothing is returned. -/
theorem C36_remove_no_loop (qs : QSort) (cross : List Cross) (edge : List Edge) (comps : List Comp) (nfaces cr : Nat)
    (x : Cross) (hx : cross[cr]? = some x) (h : ∀ i, x.at i ≠ x.at (i + 1)) :
    r1Del qs cross edge comps nfaces cr = .error .die := by
  unfold r1Del
  have hcr := (List.getElem?_eq_some_iff.mp hx).1
  rw [assertC_ok (by simpa using hcr), ok_bind, rd_eq_ok.mpr hx, ok_bind]
  cases hf : findAdj x with
  | none => rfl
  | some i => exact absurd (findAdj_some hf).2 (h i)

/-! ### Cases -/

/-- The Hopf link with a loop on one component. -/
def kinked : List Cross := [⟨5, 1, 2, 3, .pos⟩, ⟨4, 3, 2, 1, .pos⟩, ⟨4, 5, 0, 0, .unset⟩]
def kinkedEdge : List Edge :=
  [⟨2, 3, 2, 2⟩, ⟨1, 3, 0, 1⟩, ⟨1, 2, 0, 2⟩, ⟨0, 3, 1, 1⟩, ⟨2, 0, 1, 0⟩, ⟨0, 0, 2, 1⟩]
def kinkedComps : List Comp := [⟨[2, 4, 0, 5], 66⟩, ⟨[1, 3], 65⟩]

/-- The surgery on the Hopf link gives this diagram, and both directions of C36 have all they ask for. -/
example : r1AddRaw hopf2 hopf2Edge 0 .pos = .ok (kinked, kinkedEdge) := by decide
example : Consistent kinked kinkedEdge ∧ Oriented kinked kinkedEdge := by decide
example : (kinkedComps.flatMap (·.edge)).Perm (List.range kinkedEdge.length) ∧ (∀ c ∈ kinkedComps, c.edge ≠ []) := by decide
example : ∀ c ∈ kinkedComps, ∀ (j e : Nat), c.edge[j]? = some e →
    ∃ e', c.edge[(j + 1) % c.edge.length]? = some e' ∧ Follows kinked kinkedEdge e e' := by
  have h : ∀ c ∈ kinkedComps, ∀ j, j < c.edge.length → ∃ e' ∈ [0, 1, 2, 3, 4, 5], c.edge[(j + 1) % c.edge.length]? = some e' ∧
      ∃ r ∈ kinkedEdge, kinkedEdge[c.edge[j]!]? = some r ∧ slot kinked r.head ((r.headpos + 2) % 4) = some e' := by decide
  intro c hc j e he
  obtain ⟨hj, rfl⟩ := List.getElem?_eq_some_iff.mp he
  obtain ⟨e', _, h1, r, _, h2, h3⟩ := h c hc j hj
  rw [getElem!_pos c.edge j hj] at h2
  exact ⟨e', h1, r, h2, h3⟩
example : ∃ x, kinked[2]? = some x ∧ x.at 2 = x.at (2 + 1) ∧ x.at (2 + 2) ≠ x.at (2 + 3) := ⟨_, rfl, by decide⟩
example : Consistent hopf2 hopf2Edge ∧ Oriented hopf2 hopf2Edge ∧ AtMostStrands hopf2 hopf2Edge ((2 + 2) / 2 + 2) :=
  ⟨by decide, by decide, fun es h1 h2 => Nat.le_trans (hopf2_strands es h1 h2) (by decide)⟩

/-- The figure eight becomes the unknot without crossings; two of them side by side are refused, although both loops
of either could be removed. -/
theorem C36_figure_eight (qs : QSort) :
    r1Del qs [⟨0, 0, 1, 1, .pos⟩] [⟨0, 0, 0, 1⟩, ⟨0, 3, 0, 2⟩] [⟨[0, 1], 65⟩] 3 0 = .ok none ∧
    r1Del qs [⟨0, 0, 1, 1, .pos⟩, ⟨2, 2, 3, 3, .pos⟩] [⟨0, 0, 0, 1⟩, ⟨0, 3, 0, 2⟩, ⟨1, 0, 1, 1⟩, ⟨1, 3, 1, 2⟩]
      [⟨[0, 1], 65⟩, ⟨[2, 3], 66⟩] 6 0 = .error .die := ⟨rfl, rfl⟩

end Plc.Moves
