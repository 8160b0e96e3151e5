import Verif.Proofs.EraseRaw
import Verif.Proofs.EraseComps
import Verif.Proofs.EraseFaces
import Verif.Proofs.RegenTidy
import Verif.Props.MovesFull

/-! After strands have been pulled off crossings: components, faces, and the checks. -/

namespace Plc

open Plc.Core Plc.Cmp Plc.Places Plc.Buffers Plc.Moves Plc.Comps Plc.Planar Plc.Isotopy Plc.Ok List

variable {cross : List Cross} {edge : List Edge}

theorem renamed_self (hC : Consistent cross edge) : Renamed cross edge cross edge id id (fun _ => 0) (fun _ => false) where
  len := rfl
  elen := rfl
  slt := fun _ h => h
  sinj := fun _ _ _ _ h => h
  tlt := fun _ h => h
  tinj := fun _ _ _ _ h => h
  rho := fun _ => by decide
  cross := fun c x hx => ⟨x, hx, fun k => rfl⟩
  edge := by
    intro e r hr
    have h1 := (slot_lt (hC.head _ _ hr)).2
    have h2 := (slot_lt (hC.tail _ _ hr)).2
    rw [show id e = e from rfl, hr]
    congr 1
    cases r
    simp only [moveEdge, Bool.false_eq_true, if_false, id, Edge.mk.injEq]
    simp only at h1 h2
    refine ⟨trivial, ?_, trivial, ?_⟩ <;> omega

theorem sameSigns_self : SameSigns cross cross id := fun c x hx => ⟨x, hx, rfl⟩

/-- What is left of the components when edges `G` are gone: those with an edge not in `G`, with their tags and with these edges. -/
structure Rest (comps : List Comp) (G : List Nat) (comps' : List Comp) (m : Nat) (τ : Nat → Nat) : Prop where
  tags : (comps'.map (·.tag)).Perm ((comps.filter (fun c => c.edge.any (fun e => decide (e ∉ G)))).map (·.tag))
  of : ∀ c' ∈ comps', ∃ c ∈ comps, c.tag = c'.tag ∧ ∀ f, f < m → (f ∈ c'.edge ↔ τ f ∈ c.edge)

theorem compactComps_members {qs : QSort} {comps : List Comp} {eidx : List Nat} {cross' : List Cross} {edge' : List Edge}
    {comps' : List Comp} (h : compactComps qs comps eidx cross edge = .ok (cross', edge', comps')) :
    ∀ x ∈ cross', ∃ y, x = canonorderCross y .pos := by
  unfold compactComps at h
  simp only [bind_ok_iff] at h
  obtain ⟨_, _, _, _, _, _, _, _, ⟨c4, e4⟩, h7, h8⟩ := h
  cases h8
  exact regenCrossings_members h7

/-- `pd_compact_components` after sewing. -/
theorem compact_rest (qs : QSort) (hC : Consistent cross edge) (hO : Oriented cross edge) {X G : List Nat} {W : List (Nat × Nat)}
    (B : Bypass edge X G W) (hT : Bypass.Thru cross edge G W) (hsmall : edge.length < 2 ^ 31) {comps : List Comp}
    (hK : GoodComps cross edge (retag comps)) {cross1 : List Cross} {edge1 : List Edge} {eidx : List Nat} {τ σ ρ ν : Nat → Nat}
    (L : Erased cross edge X G W cross1 edge1 τ σ ρ) (T : Survive edge.length G edge1.length τ ν)
    (hle : edge1.length ≤ edge.length) (hlen : eidx.length = edge.length)
    (hidx : ∀ i, i < edge.length → eidx[i]? = some (if i ∈ G then UNSET_IDX else ν i))
    {cross2 : List Cross} {edge2 : List Edge} {σ2 ρ2 : Nat → Nat}
    (R2 : Renamed cross1 edge1 cross2 edge2 id σ2 ρ2 (fun _ => false)) (S2 : SameSigns cross1 cross2 σ2) :
    ∃ cross' edge' comps' τ' σ' ρ', compactComps qs comps eidx cross2 edge2 = .ok (cross', edge', comps') ∧
      Erased cross edge X G W cross' edge' τ' σ' ρ' ∧ Consistent cross' edge' ∧ Oriented cross' edge' ∧
      GoodComps cross' edge' (retag comps') ∧ Rest comps G comps' edge'.length τ' ∧ SortedCross cross' ∧
      (∀ x ∈ cross', ∃ y, x = canonorderCross y .pos) := by
  obtain ⟨h1, h2, h3, h4⟩ := goodComps_of_retag hK
  have hmem : ∀ c ∈ comps, ∀ e ∈ c.edge, e < edge.length := by
    intro c hc e he
    have : e ∈ List.range edge.length := by rw [← h1]; exact List.mem_flatMap.mpr ⟨c, hc, he⟩
    simpa using this
  have hC1 := L.consistent B hC
  have hO1 := L.oriented B hO
  have hC2 := R2.consistent hC1
  have hO2 := R2.oriented hC1 hO1 (fun _ _ _ => rfl)
  obtain ⟨k1, k2, k3⟩ := L.comps_after hC hO B hT hsmall hmem h4 (by rw [h1]; exact List.nodup_range) (by
      intro e he _
      have : e ∈ comps.flatMap (·.edge) := by rw [h1]; exact List.mem_range.mpr he
      obtain ⟨c, c1, c2⟩ := List.mem_flatMap.mp this
      exact ⟨c, c1, c2⟩) T hle hidx
  obtain ⟨cross3, edge3, comps3, τ3, σ3, ρ3, g1, R3, S3, g4, g5, g6, g7, g8, g9⟩ :=
    compactComps_ok qs hC2 hO2 (by rw [R2.elen]; omega) (comps := comps) (eidx := eidx)
      (fun c hc e he => by rw [hlen]; exact hmem c hc e he) (by rw [R2.elen]; exact k2)
      (fun c hc => (k3 c hc).imp (fun a b _ _ h => by simpa using R2.follows hC1 hO1 (fun _ _ _ => rfl) h))
  have R := R2.trans R3 hC1
  simp only [Bool.xor_false, id] at R
  have hC3 := R3.consistent hC2
  have hO3 := R3.oriented hC2 hO2 (fun _ _ _ => rfl)
  have Rb := R.symm hC1
  have Sb : SameSigns cross3 cross1 (back cross1.length (fun c => σ3 (σ2 c))) := by
    intro c y hy
    have hc : c < cross1.length := by rw [← R.len]; exact (List.getElem?_eq_some_iff.mp hy).1
    obtain ⟨u1, u2⟩ := back_spec R.slt R.sinj hc
    obtain ⟨y', v1, v2⟩ := SameSigns.trans S2 S3 _ _ (List.getElem?_eq_getElem u1)
    beta_reduce at v1 u2
    rw [u2, hy] at v1
    cases v1
    exact ⟨_, List.getElem?_eq_getElem u1, v2.symm⟩
  have L3 := L.comp_right Rb hC3 Sb
  have hany : ∀ c ∈ comps, (decide ((newEdges eidx c.edge).length > 0)) = c.edge.any (fun e => decide (e ∉ G)) := by
    intro c hc
    rw [k1 c hc, List.length_map]
    rw [Bool.eq_iff_iff, decide_eq_true_eq, gt_iff_lt, List.length_pos_iff, ne_eq, List.filter_eq_nil_iff, List.any_eq_true]
    push Not
    simp
  refine ⟨cross3, edge3, comps3, _, _, _, g1, L3, hC3, hO3, goodComps_retag (by rw [g4, R3.elen]) g5 g6 g7, ⟨?_, ?_⟩, g9,
    compactComps_members g1⟩
  · have := g8.map (·.tag)
    refine this.trans (List.Perm.of_eq ?_)
    rw [List.filter_map, List.map_map]
    have hf : comps.filter ((fun c : Comp => decide (c.edge.length > 0)) ∘
        (fun c => (⟨(newEdges eidx c.edge).map τ3, c.tag⟩ : Comp))) = comps.filter (fun c => c.edge.any (fun e => decide (e ∉ G))) := by
      apply List.filter_congr
      intro c hc
      rw [Function.comp_apply, ← hany c hc, List.length_map]
    rw [hf]
    rfl
  · intro c' hc'
    have hc'' := (List.mem_filter.mp (g8.mem_iff.mp hc')).1
    obtain ⟨c, hc, rfl⟩ := List.mem_map.mp hc''
    refine ⟨c, hc, rfl, fun f hf => ?_⟩
    have hf' : f < edge1.length := by rw [← R.elen]; exact hf
    obtain ⟨u1, u2⟩ := back_spec R.tlt R.tinj hf'
    rw [k1 c hc, List.map_map, List.mem_map]
    constructor
    · rintro ⟨a, ha, hae⟩
      rw [List.mem_filter] at ha
      have dn := T.down a (hmem c hc a ha.1) (by simpa using ha.2)
      simp only [Function.comp_apply] at hae
      have : back edge1.length (fun e => τ3 e) f = ν a := by
        rw [← hae]
        exact back_left R.tlt R.tinj dn.1
      rw [this, dn.2]
      exact ha.1
    · intro ha
      refine ⟨_, List.mem_filter.mpr ⟨ha, ?_⟩, ?_⟩
      · have := (T.up _ u1).2
        simpa using this
      · simp only [Function.comp_apply]
        rw [T.left _ u1]
        exact u2

/-- Sorting components which are in order already. -/
theorem sort_comps (qs : QSort) {comps : List Comp} (hK : GoodComps cross edge (retag comps)) (hsmall : edge.length < 2 ^ 31) :
    qs.sort compLe comps = comps := by
  obtain ⟨h1, h2, h3, h4⟩ := goodComps_of_retag hK
  have hsm : ∀ a ∈ comps, Small a.edge ∧ a.edge.length < 2 ^ 31 := by
    intro a ha
    have : a.edge ∈ (retag comps).map (·.edge) := by rw [retag_edges]; exact List.mem_map_of_mem ha
    obtain ⟨k, k1, k2⟩ := List.mem_map.mp this
    obtain ⟨a1, a2⟩ := comp_le hK k1
    rw [← k2]
    exact ⟨fun e he => by have := a2 e he; omega, by omega⟩
  have hsorted : comps.Pairwise (fun a b => compLe a b = true) := by
    have q := comps_sorted hK hsmall
    have q' : ((retag comps).map (·.edge)).Pairwise (fun a b => (2 ^ 31 - a.length) :: a ≤ (2 ^ 31 - b.length) :: b) :=
      List.pairwise_map.mpr q
    rw [retag_edges, List.pairwise_map] at q'
    refine q'.imp_of_mem ?_
    intro a b ha hb hab
    exact (compLe_iff (hsm a ha) (hsm b hb)).mpr hab
  have hp := qs.perm compLe comps
  have hs := qs.sorted compLe comps
    (fun a b ha hb => by
      have := le_total (compKey a) (compKey b)
      rw [Bool.or_eq_true, compLe_iff (hsm a ha) (hsm b hb), compLe_iff (hsm b hb) (hsm a ha)]
      exact this)
    (fun a b c ha hb hc => by
      rw [compLe_iff (hsm a ha) (hsm b hb), compLe_iff (hsm b hb) (hsm c hc), compLe_iff (hsm a ha) (hsm c hc)]
      exact le_trans)
  refine List.Perm.eq_of_pairwise (le := fun a b => compLe a b = true) ?_ hs hsorted hp
  intro a b ha hb q1 q2
  have ha' := hp.mem_iff.mp ha
  rw [compLe_iff (hsm a ha') (hsm b hb)] at q1
  rw [compLe_iff (hsm b hb) (hsm a ha')] at q2
  have he := le_antisymm q1 q2
  unfold compKey at he
  obtain ⟨-, he⟩ := List.cons.inj he
  by_contra hne
  obtain ⟨e, hea⟩ := List.exists_mem_of_ne_nil _ (h3 a ha')
  have hnd : (comps.flatMap (·.edge)).Nodup := by rw [h1]; exact List.nodup_range
  rw [List.nodup_flatMap] at hnd
  haveI : Std.Symm (fun a b : Comp => a ≠ b → List.Disjoint a.edge b.edge) := ⟨fun a b h hab => (h (Ne.symm hab)).symm⟩
  have := List.Pairwise.forall_of_forall (R := fun a b : Comp => a ≠ b → List.Disjoint a.edge b.edge) (l := comps)
    (fun x _ h => absurd rfl h) (hnd.2.imp (S := fun a b : Comp => a ≠ b → List.Disjoint a.edge b.edge) (fun h _ => h)) ha' hb hne
  exact this hea (by rw [← he]; exact hea)

/-- `pd_regenerate_crossings` once more. -/
theorem Erased.regen (qs : QSort) {X G : List Nat} {W : List (Nat × Nat)} {cross' : List Cross} {edge' : List Edge} {τ σ ρ : Nat → Nat}
    (L : Erased cross edge X G W cross' edge' τ σ ρ) (hC' : Consistent cross' edge') (hO' : Oriented cross' edge')
    (hsmall : edge'.length < 2 ^ 31) {comps' : List Comp} (hK : GoodComps cross' edge' (retag comps')) :
    ∃ cross'' edge'' σ' ρ', regenCrossings qs cross' edge' = .ok (cross'', edge'') ∧
      Erased cross edge X G W cross'' edge'' τ σ' ρ' ∧ Consistent cross'' edge'' ∧ Oriented cross'' edge'' ∧
      edge''.length = edge'.length ∧ GoodComps cross'' edge'' (retag comps') ∧ SortedCross cross'' ∧
      (∀ x ∈ cross'', ∃ y, x = canonorderCross y .pos) := by
  obtain ⟨cross2, edge2, σ2, ρ2, b1, R2, S2, b4, -⟩ := regenCrossings_renamed qs hC' (by omega)
  have hC2 := R2.consistent hC'
  have hO2 := R2.oriented hC' hO' (fun _ _ _ => rfl)
  have Rb := R2.symm hC'
  have Sb : SameSigns cross2 cross' (back cross'.length σ2) := by
    intro c y hy
    have hc : c < cross'.length := by rw [← R2.len]; exact (List.getElem?_eq_some_iff.mp hy).1
    obtain ⟨u1, u2⟩ := back_spec R2.slt R2.sinj hc
    obtain ⟨y', v1, v2⟩ := S2 _ _ (List.getElem?_eq_getElem u1)
    rw [u2, hy] at v1
    cases v1
    exact ⟨_, List.getElem?_eq_getElem u1, v2.symm⟩
  obtain ⟨σ', ρ', L3⟩ : ∃ σ' ρ', Erased cross edge X G W cross2 edge2 (fun f => τ (back edge'.length id f)) σ' ρ' :=
    ⟨_, _, L.comp_right Rb hC2 Sb⟩
  have hb : ∀ f, f < edge'.length → back edge'.length id f = f := fun f hf => (back_spec (fun _ h => h) (fun _ _ _ _ h => h) hf).2
  obtain ⟨h1, h2, h3, h4⟩ := goodComps_of_retag hK
  refine ⟨cross2, edge2, σ', ρ', b1, ?_, hC2, hO2, R2.elen, ?_, b4, regenCrossings_members b1⟩
  · exact
      { slt := L3.slt, sinj := L3.sinj, sonto := L3.sonto
        tlt := fun f hf => L.tlt f (by rw [← R2.elen]; exact hf)
        tinj := fun f f' hf hf' => L.tinj f f' (by rw [← R2.elen]; exact hf) (by rw [← R2.elen]; exact hf')
        tonto := fun e he hg => by rw [R2.elen]; exact L.tonto e he hg
        cross := fun d x' hx => by
          obtain ⟨x, x1, x2, x3⟩ := L3.cross d x' hx
          refine ⟨x, x1, x2, fun k => ?_⟩
          obtain ⟨k1, k2⟩ := x3 k
          rw [hb _ (by rw [← R2.elen]; exact k1)] at k2
          exact ⟨k1, k2⟩
        edge := fun f r' hr => by
          have := L3.edge f r' hr
          rw [hb _ (by rw [← R2.elen]; exact (List.getElem?_eq_some_iff.mp hr).1)] at this
          exact this }
  · refine goodComps_retag (by rw [h1, R2.elen]) h2 h3 ?_
    intro c hc j e he
    obtain ⟨e', a1, a2⟩ := h4 c hc j e he
    exact ⟨e', a1, by simpa using R2.follows hC' hO' (fun _ _ _ => rfl) a2⟩

/-- Counting what is left. -/
theorem Erased.card {X G : List Nat} {W : List (Nat × Nat)} {cross' : List Cross} {edge' : List Edge} {τ σ ρ : Nat → Nat}
    (L : Erased cross edge X G W cross' edge' τ σ ρ) :
    cross'.length = ((Finset.range cross.length).filter (fun c => c ∉ X)).card := by
  have : ((Finset.range cross.length).filter (fun c => c ∉ X)) = (Finset.range cross'.length).image σ := by
    ext c
    rw [Finset.mem_filter, Finset.mem_range, Finset.mem_image]
    constructor
    · rintro ⟨h1, h2⟩
      obtain ⟨d, d1, d2⟩ := L.sonto c h1 h2
      exact ⟨d, Finset.mem_range.mpr d1, d2⟩
    · rintro ⟨d, d1, rfl⟩
      exact L.slt d (Finset.mem_range.mp d1)
  rw [this, Finset.card_image_of_injOn, Finset.card_range]
  intro a ha b hb hab
  exact L.sinj a b (Finset.mem_range.mp ha) (Finset.mem_range.mp hb) hab

end Plc
