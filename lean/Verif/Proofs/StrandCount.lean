import Verif.Proofs.Beside
import Verif.Proofs.Renamed
import Verif.Spec.PlaneDiagram
import Verif.Proofs.Reorient

/-! Counting strands. -/

namespace Plc.StrandCount

open Plc.Core Plc.Cmp Plc.Places Plc.Orbit Plc.Faces Plc.Planar Plc.Comps Plc.Strands

variable {cross cross' : List Cross} {edge edge' : List Edge}

/-- One edge of every component. -/
theorem of_comps (hC : Consistent cross edge) (hO : Oriented cross edge) {comps : List Comp} (hK : GoodComps cross edge comps) :
    ∃ reps, Reps (nx cross edge) (Finset.range edge.length) reps ∧ reps.length = comps.length := by
  have hI := injOn_nx hC hO
  have hlt : ∀ c ∈ comps, ∀ e ∈ c.edge, e < edge.length := by
    intro c hc e he
    rw [← List.mem_range, ← hK.all]
    exact List.mem_flatMap.mpr ⟨c, hc, he⟩
  have hfirst : ∀ c ∈ comps, c.edge[0]? = some c.edge[0]! ∧ c.edge[0]! ∈ c.edge := by
    intro c hc
    have := List.length_pos_iff.mpr (hK.nonempty c hc)
    have h1 : c.edge[0]? = some c.edge[0]! := by rw [getElem!_pos c.edge 0 this]; exact List.getElem?_eq_getElem this
    exact ⟨h1, List.mem_of_getElem? h1⟩
  -- the edges of a component are those reached from its first one
  have key : ∀ c ∈ comps, ∀ j, j < c.edge.length → c.edge[j]? = some ((nx cross edge)^[j] c.edge[0]!) := by
    intro c hc j
    induction j with
    | zero => exact fun _ => (hfirst c hc).1
    | succ j ih =>
      intro hj
      obtain ⟨e', h1, h2⟩ := hK.follow c hc j _ (ih (by omega))
      rw [Nat.mod_eq_of_lt hj] at h1
      rw [h1, Function.iterate_succ_apply', ((follows_iff hC _ _).mp h2).2]
  have clos : ∀ c ∈ comps, ∀ e ∈ c.edge, nx cross edge e ∈ c.edge := by
    intro c hc e he
    obtain ⟨j, hj⟩ := List.mem_iff_getElem?.mp he
    obtain ⟨e', h1, h2⟩ := hK.follow c hc j _ hj
    rw [((follows_iff hC _ _).mp h2).2]
    exact List.mem_of_getElem? h1
  refine ⟨comps.map (fun c => c.edge[0]!), ⟨?_, ?_, ?_⟩, by simp⟩
  · intro x hx
    obtain ⟨c, hc, rfl⟩ := List.mem_map.mp hx
    exact Finset.mem_range.mpr (hlt c hc _ (hfirst c hc).2)
  · have hn : (comps.flatMap (·.edge)).Nodup := by rw [hK.all]; exact List.nodup_range
    rw [List.nodup_flatMap] at hn
    rw [List.pairwise_map]
    refine List.Pairwise.imp_of_mem ?_ hn.2
    intro a b ha hb hab hc
    rw [hI.mem_cyc (Finset.mem_range.mpr (hlt a ha _ (hfirst a ha).2))] at hc
    obtain ⟨k, hk⟩ := hc
    have : ∀ k, (nx cross edge)^[k] a.edge[0]! ∈ a.edge := by
      intro k
      induction k with
      | zero => exact (hfirst a ha).2
      | succ k ih => rw [Function.iterate_succ_apply']; exact clos a ha _ ih
    have h1 := this k
    rw [hk] at h1
    exact hab h1 (hfirst b hb).2
  · intro e he
    rw [Finset.mem_range, ← List.mem_range, ← hK.all, List.mem_flatMap] at he
    obtain ⟨c, hc, he⟩ := he
    refine ⟨_, List.mem_map_of_mem hc, ?_⟩
    rw [hI.mem_cyc (Finset.mem_range.mpr (hlt c hc _ (hfirst c hc).2))]
    obtain ⟨j, hj⟩ := List.mem_iff_getElem?.mp he
    have := key c hc j (List.getElem?_eq_some_iff.mp hj).1
    rw [hj, Option.some.injEq] at this
    exact ⟨j, this.symm⟩

/-- Any list with one edge of every strand is as long as the list of components. -/
theorem eq_comps (hC : Consistent cross edge) (hO : Oriented cross edge) {comps : List Comp} (hK : GoodComps cross edge comps)
    {reps : List Nat} (hR : Reps (nx cross edge) (Finset.range edge.length) reps) : comps.length = reps.length := by
  obtain ⟨R, h1, h2⟩ := of_comps hC hO hK
  rw [← h2, h1.length_eq (injOn_nx hC hO) hR]

/-- Strands are kept under renaming, even if some of them are turned around. -/
theorem renamed {τ σ ρ : Nat → Nat} {rev : Nat → Bool} (h : Renamed cross edge cross' edge' τ σ ρ rev) (hC : Consistent cross edge)
    (hO : Oriented cross edge) (hA : Renamed.Along cross edge rev) {reps : List Nat}
    (hR : Reps (nx cross edge) (Finset.range edge.length) reps) :
    Reps (nx cross' edge') (Finset.range edge'.length) (reps.map τ) := by
  have hC' := h.consistent hC
  have hO' := h.oriented hC hO hA
  have hI := injOn_nx hC hO
  have hI' := injOn_nx hC' hO'
  have tl' : ∀ e, e < edge.length → τ e ∈ Finset.range edge'.length := by
    intro e he
    rw [Finset.mem_range, h.elen]
    exact h.tlt e he
  have fol : ∀ e, e < edge.length → Follows cross edge e (nx cross edge e) := fun e he => (follows_iff hC _ _).mpr ⟨he, rfl⟩
  have step : ∀ e, e < edge.length → ∃ k, (nx cross' edge')^[k] (τ e) = τ (nx cross edge e) := by
    intro e he
    have := h.follows hC hO hA (fol e he)
    cases hb : rev e with
    | false =>
      rw [hb] at this
      simp only [Bool.false_eq_true, if_false] at this
      exact ⟨1, ((follows_iff hC' _ _).mp this).2⟩
    | true =>
      rw [hb] at this
      simp only [if_true] at this
      exact hI'.reach_symm (tl' _ (nx_spec hC hO he).1) ⟨1, ((follows_iff hC' _ _).mp this).2⟩
  have fwd : ∀ e, e < edge.length → ∀ k, ∃ m, (nx cross' edge')^[m] (τ e) = τ ((nx cross edge)^[k] e) := by
    intro e he k
    induction k with
    | zero => exact ⟨0, rfl⟩
    | succ k ih =>
      rw [Function.iterate_succ_apply']
      exact reach_trans ih (step _ (Finset.mem_range.mp (hI.iterate_mem (Finset.mem_range.mpr he) k)))
  have bstep : ∀ e, e < edge.length → ∃ f, f < edge.length ∧ nx cross' edge' (τ e) = τ f ∧ ∃ k, (nx cross edge)^[k] e = f := by
    intro e he
    cases hb : rev e with
    | false =>
      have := h.follows hC hO hA (fol e he)
      rw [hb] at this
      simp only [Bool.false_eq_true, if_false] at this
      exact ⟨_, (nx_spec hC hO he).1, ((follows_iff hC' _ _).mp this).2, 1, rfl⟩
    | true =>
      obtain ⟨k, hk⟩ := hI.reach_symm (Finset.mem_range.mpr he) ⟨1, rfl⟩
      -- the edge before `e`
      have hp := Finset.mem_range.mp (hI.iterate_mem (Finset.mem_range.mpr he) k)
      have hnp : nx cross edge ((nx cross edge)^[k] e) = e := by
        rw [← Function.iterate_succ_apply' (nx cross edge), Function.iterate_succ_apply]
        exact hk
      have hf := fol _ hp
      rw [hnp] at hf
      have := h.follows hC hO hA hf
      rw [hA _ _ hf, hb] at this
      simp only [if_true] at this
      exact ⟨_, hp, ((follows_iff hC' _ _).mp this).2, k, rfl⟩
  have bwd : ∀ k, ∀ e, e < edge.length → ∃ f, f < edge.length ∧ (nx cross' edge')^[k] (τ e) = τ f ∧ ∃ m, (nx cross edge)^[m] e = f := by
    intro k
    induction k with
    | zero => exact fun e he => ⟨e, he, rfl, 0, rfl⟩
    | succ k ih =>
      intro e he
      obtain ⟨f, h1, h2, h3⟩ := ih e he
      obtain ⟨g, g1, g2, g3⟩ := bstep f h1
      exact ⟨g, g1, by rw [Function.iterate_succ_apply', h2, g2], reach_trans h3 g3⟩
  have lt : ∀ e ∈ reps, e < edge.length := fun e he => Finset.mem_range.mp (hR.mem e he)
  refine ⟨?_, ?_, ?_⟩
  · intro x hx
    obtain ⟨e, he, rfl⟩ := List.mem_map.mp hx
    exact tl' e (lt e he)
  · rw [List.pairwise_map]
    refine List.Pairwise.imp_of_mem ?_ hR.sep
    intro a b ha hb hab hc
    rw [hI'.mem_cyc (tl' a (lt a ha))] at hc
    obtain ⟨k, hk⟩ := hc
    obtain ⟨f, f1, f2, f3⟩ := bwd k a (lt a ha)
    rw [hk] at f2
    rw [h.tinj _ _ (lt b hb) f1 f2, hI.mem_cyc (hR.mem a ha)] at hab
    exact hab f3
  · intro e' he'
    rw [Finset.mem_range, h.elen] at he'
    obtain ⟨e, he, rfl⟩ := surj_of_inj h.tlt h.tinj he'
    obtain ⟨r, r1, r2⟩ := hR.cover e (Finset.mem_range.mpr he)
    refine ⟨_, List.mem_map_of_mem r1, ?_⟩
    rw [hI.mem_cyc (hR.mem r r1)] at r2
    obtain ⟨k, rfl⟩ := r2
    rw [hI'.mem_cyc (tl' r (lt r r1))]
    exact fwd r (lt r r1) k

/-! ### Joining two strands -/

open Plc.HeadsSwapped in
theorem swapped_nx {i j : Nat} (h : HeadsSwapped cross edge i j cross' edge') (hC : Consistent cross edge) (hO : Oriented cross edge)
    (hi : i < edge.length) (hj : j < edge.length) {e : Nat} (he : e < edge.length) :
    nx cross' edge' e = nx cross edge (sw i j e) := by
  have hs := sw_lt hi hj he
  have n := nx_spec hC hO hs
  have t := tl_mem hC n.1
  unfold nx
  rw [(hdtl h he).1, eslots h (turn_mem 2 (hd_mem hC hs).1), if_neg, if_neg]
  · rw [← n.2]; exact (hd_tl hC hj n.1).symm
  · rw [← n.2]; exact (hd_tl hC hi n.1).symm

open Plc.HeadsSwapped in
/-- Two strands become one. -/
theorem swapped_merge {i j : Nat} (h : HeadsSwapped cross edge i j cross' edge') (hC : Consistent cross edge) (hO : Oriented cross edge)
    (hi : i < edge.length) (hj : j < edge.length) (hij : j ∉ cyc (nx cross edge) i) {reps : List Nat}
    (hR : Reps (nx cross edge) (Finset.range edge.length) reps) :
    ∃ reps', Reps (nx cross' edge') (Finset.range edge'.length) reps' ∧ reps'.length + 1 = reps.length := by
  have hI' := injOn_nx (h.consistent hC hi hj) (h.oriented hO hi hj)
  rw [h.elen] at hI' ⊢
  have x := exchanged_swap (injOn_nx hC hO) hI' (Finset.mem_range.mpr hi) (Finset.mem_range.mpr hj) (by
    intro p hp
    rw [swapped_nx h hC hO hi hj (Finset.mem_range.mp hp), Equiv.swap_apply_def]
    rfl)
  exact x.reps hij hR

open Plc.Beside

variable {cA cB : List Cross} {eA eB : List Edge}

theorem nx_left (hA : Consistent cA eA) (hB : Consistent cB eB) {e : Nat} (he : e < eA.length) :
    nx (besideCross cA eA.length cB) (besideEdge eA cA.length eB) e = nx cA eA e := by
  have hm := turn_mem 2 (hd_mem hA he).1
  unfold nx
  rw [left_ends he]
  unfold eslot
  rw [slot_left (mem_P.mp hm).1]

theorem nx_right (hA : Consistent cA eA) (hB : Consistent cB eB) {e : Nat} (he : e < eB.length) :
    nx (besideCross cA eA.length cB) (besideEdge eA cA.length eB) (eA.length + e) = eA.length + nx cB eB e := by
  have hm := turn_mem 2 (hd_mem hB he).1
  have hs := slot_eslot hm
  unfold nx
  rw [right_ends he, hd_shift, turn_sh]
  unfold eslot sh
  simp only
  rw [Nat.add_comm _ cA.length, slot_right, hs]
  simp only [Option.map_some, Option.getD_some]
  omega

theorem strands_left (hA : Consistent cA eA) (hB : Consistent cB eB) (oA : Oriented cA eA) (oB : Oriented cB eB) {e f : Nat}
    (he : e < eA.length) (hf : f ∈ cyc (nx (besideCross cA eA.length cB) (besideEdge eA cA.length eB)) e) : f < eA.length := by
  rw [(injOn_nx (consistent hA hB) (oriented oA oB)).mem_cyc (by rw [Finset.mem_range, edge_len]; omega)] at hf
  obtain ⟨k, rfl⟩ := hf
  induction k with
  | zero => exact he
  | succ k ih =>
    rw [Function.iterate_succ_apply', nx_left hA hB ih]
    exact (nx_spec hA oA ih).1

theorem beside_reps (hA : Consistent cA eA) (hB : Consistent cB eB) (oA : Oriented cA eA) (oB : Oriented cB eB) {R S : List Nat}
    (hR : Reps (nx cA eA) (Finset.range eA.length) R) (hS : Reps (nx cB eB) (Finset.range eB.length) S) :
    Reps (nx (besideCross cA eA.length cB) (besideEdge eA cA.length eB)) (Finset.range (besideEdge eA cA.length eB).length)
      (R ++ S.map (eA.length + ·)) := by
  have hI := injOn_nx (consistent hA hB) (oriented oA oB)
  have rl : Return (nx cA eA) (Finset.range eA.length) (nx (besideCross cA eA.length cB) (besideEdge eA cA.length eB))
      (Finset.range (besideEdge eA cA.length eB).length) id := {
    maps := fun p hp => by rw [Finset.mem_range] at *; rw [edge_len]; simp only [id]; omega
    inj := fun p _ q _ h => h
    back := fun p hp => ⟨0, by
      rw [Function.iterate_succ_apply, Function.iterate_zero, id, id, nx_left hA hB (Finset.mem_range.mp hp)]; rfl, by omega⟩ }
  have rr : Return (nx cB eB) (Finset.range eB.length) (nx (besideCross cA eA.length cB) (besideEdge eA cA.length eB))
      (Finset.range (besideEdge eA cA.length eB).length) (eA.length + ·) := {
    maps := fun p hp => by rw [Finset.mem_range] at *; rw [edge_len]; omega
    inj := fun p _ q _ h => Nat.add_left_cancel h
    back := fun p hp => ⟨0, by
      rw [Function.iterate_succ_apply, Function.iterate_zero, id, nx_right hA hB (Finset.mem_range.mp hp)], by omega⟩ }
  have key := rl.reps (injOn_nx hA oA) hI hR (X := S.map (eA.length + ·))
    (by
      intro x hx
      obtain ⟨p, hp, rfl⟩ := List.mem_map.mp hx
      exact rr.maps p (hS.mem p hp))
    (by
      rw [List.pairwise_map]
      refine List.Pairwise.imp_of_mem ?_ hS.sep
      intro a b ha hb hab
      rw [rr.cyc_iff (injOn_nx hB oB) hI (hS.mem a ha) (hS.mem b hb)]
      exact hab)
    (by
      intro x hx s hs hc
      obtain ⟨p, hp, rfl⟩ := List.mem_map.mp hx
      have := strands_left hA hB oA oB (Finset.mem_range.mp hs) hc
      omega)
    (by
      intro t ht
      rw [Finset.mem_range, edge_len] at ht
      rcases Nat.lt_or_ge t eA.length with hlt | hge
      · exact .inl ⟨t, Finset.mem_range.mpr hlt, hI.self_mem_cyc (show t ∈ _ by rw [Finset.mem_range, edge_len]; omega)⟩
      · right
        obtain ⟨q, rfl⟩ := Nat.exists_eq_add_of_le hge
        have hq : q ∈ Finset.range eB.length := Finset.mem_range.mpr (by omega)
        obtain ⟨r, h1, h2⟩ := hS.cover q hq
        exact ⟨_, List.mem_map_of_mem h1, (rr.cyc_iff (injOn_nx hB oB) hI (hS.mem r h1) hq).mpr h2⟩)
  rwa [List.map_id] at key

end Plc.StrandCount
