import Verif.Proofs.Planar
import Verif.Props.Comps
import Mathlib.Combinatorics.SimpleGraph.Acyclic
import Mathlib.Algebra.Order.BigOperators.Group.Finset
import Mathlib.Tactic.Tauto

/-! A connected plane diagram with `n` crossings has at most `n/2 + 1` components. -/

namespace Plc

namespace Orbit

/-- Starting points on pairwise different cycles can be completed to one point on every cycle. -/
theorem InjOn.extend_reps {α : Type} [DecidableEq α] {f : α → α} {S : Finset α} (h : InjOn f S) :
    ∀ (k : Nat) (es : List α), (∀ x ∈ es, x ∈ S) → es.Pairwise (fun x y => y ∉ cyc f x) →
      S.card ≤ es.length + k →
      ∃ starts : List α, es.length ≤ starts.length ∧ (∀ x ∈ starts, x ∈ S) ∧
        starts.Pairwise (fun x y => y ∉ cyc f x) ∧ ∀ s ∈ S, ∃ r ∈ starts, s ∈ cyc f r := by
  have hbig : ∀ es : List α, (∀ x ∈ es, x ∈ S) → es.Pairwise (fun x y => y ∉ cyc f x) →
      ∀ s ∈ S, (∀ r ∈ es, s ∉ cyc f r) → es.length < S.card := by
    intro es h1 h2 s hs hr
    have hn : (es ++ [s]).Nodup := by
      rw [List.nodup_append]
      refine ⟨?_, by simp, ?_⟩
      · exact h2.imp_of_mem (fun {x y} hx _ hxy e => hxy (by rw [← e]; exact h.self_mem_cyc (h1 x hx)))
      · intro a ha b hb e
        rw [List.mem_singleton] at hb
        subst hb; subst e
        exact hr a ha (h.self_mem_cyc hs)
    have : (es ++ [s]).toFinset ⊆ S := by
      intro x hx
      rw [List.mem_toFinset, List.mem_append, List.mem_singleton] at hx
      rcases hx with hx | rfl
      · exact h1 x hx
      · exact hs
    have h3 := Finset.card_le_card this
    rw [List.toFinset_card_of_nodup hn] at h3
    simp at h3
    omega
  intro k
  induction k with
  | zero =>
    intro es h1 h2 h3
    refine ⟨es, Nat.le_refl _, h1, h2, ?_⟩
    intro s hs
    by_contra hc
    push Not at hc
    have := hbig es h1 h2 s hs hc
    omega
  | succ k ih =>
    intro es h1 h2 h3
    by_cases hc : ∀ s ∈ S, ∃ r ∈ es, s ∈ cyc f r
    · exact ⟨es, Nat.le_refl _, h1, h2, hc⟩
    · push Not at hc
      obtain ⟨s, hs, hr⟩ := hc
      obtain ⟨st, t1, t2, t3, t4⟩ := ih (es ++ [s]) (by
        intro x hx
        rw [List.mem_append, List.mem_singleton] at hx
        rcases hx with hx | rfl
        · exact h1 x hx
        · exact hs) (by
        rw [List.pairwise_append]
        refine ⟨h2, by simp, ?_⟩
        intro a ha b hb
        rw [List.mem_singleton] at hb
        subst hb
        exact hr a ha) (by simp; omega)
      refine ⟨st, ?_, t2, t3, t4⟩
      simp at t1
      omega

end Orbit

namespace CompBound

open Plc.Core Plc.Cmp Plc.Places Plc.Orbit Plc.Faces Plc.Strands Plc.Planar Plc.Comps

variable {cross : List Cross} {edge : List Edge} (hC : Consistent cross edge) (hO : Oriented cross edge)

include hC hO in
/-- Edges on pairwise different strands extend to a list of all components. -/
theorem exists_comps {es : List Nat} (h1 : ∀ e ∈ es, e < edge.length)
    (h2 : es.Pairwise (fun x y => ¬ Relation.ReflTransGen (Follows cross edge) x y)) :
    ∃ comps : List Comp, es.length ≤ comps.length ∧ CompsOf cross edge comps ∧ ∀ c ∈ comps, c.edge ≠ [] := by
  have hI := injOn_nx hC hO
  have reach : ∀ x, x < edge.length → ∀ k, Relation.ReflTransGen (Follows cross edge) x ((nx cross edge)^[k] x) := by
    intro x hx k
    induction k with
    | zero => exact .refl
    | succ k ih =>
      rw [Function.iterate_succ_apply']
      refine ih.tail ?_
      exact (follows_iff hC _ _).mpr ⟨Finset.mem_range.mp (hI.iterate_mem (Finset.mem_range.mpr hx) k), rfl⟩
  obtain ⟨st, t1, t2, t3, t4⟩ := hI.extend_reps edge.length es
    (fun x hx => Finset.mem_range.mpr (h1 x hx))
    (h2.imp_of_mem (fun {x y} hx _ hxy hm => by
      obtain ⟨k, rfl⟩ := (hI.mem_cyc (Finset.mem_range.mpr (h1 x hx))).mp hm
      exact hxy (reach x (h1 x hx) k)))
    (by simp)
  refine ⟨st.map (fun s => ⟨cyc (nx cross edge) s, 0⟩), by simpa using t1, ⟨?_, ?_⟩, ?_⟩
  · have e : (st.map (fun s => (⟨cyc (nx cross edge) s, 0⟩ : Comp))).flatMap (·.edge) =
        st.flatMap (cyc (nx cross edge)) := by
      rw [List.flatMap_map]
    rw [e, List.perm_ext_iff_of_nodup (hI.flat_nodup t2 t3) List.nodup_range]
    intro a
    rw [List.mem_flatMap, List.mem_range]
    constructor
    · rintro ⟨s, hs, ha⟩
      exact Finset.mem_range.mp (hI.cyc_subset (t2 s hs) ha)
    · intro ha
      exact t4 a (Finset.mem_range.mpr ha)
  · intro c hc e e' he hf
    rw [List.mem_map] at hc
    obtain ⟨s, hs, rfl⟩ := hc
    simp only at he ⊢
    rw [follows_iff hC] at hf
    obtain ⟨k, rfl⟩ := (hI.mem_cyc (t2 s hs)).mp he
    exact (hI.mem_cyc (t2 s hs)).mpr ⟨k + 1, by rw [Function.iterate_succ_apply']; exact hf.2⟩
  · intro c hc
    rw [List.mem_map] at hc
    obtain ⟨s, hs, rfl⟩ := hc
    exact List.ne_nil_of_mem (hI.self_mem_cyc (t2 s hs))

include hC hO in
/-- A connected plane diagram with at least one crossing has at most `n/2 + 1` components. -/
theorem comps_le {comps : List Comp} (hne : cross ≠ []) (hcon : Connected cross edge)
    (hP : PlaneFaces cross edge) (hK : CompsOf cross edge comps) (hnon : ∀ c ∈ comps, c.edge ≠ []) :
    2 * comps.length ≤ cross.length + 2 := by
  classical
  have hn : 0 < cross.length := List.length_pos_iff.mpr hne
  have hmem : ∀ i : Fin comps.length, comps[i] ∈ comps := fun i => List.getElem_mem _
  -- the component of an edge
  have hex : ∀ e, e < edge.length → ∃ i : Fin comps.length, e ∈ comps[i].edge := by
    intro e he
    obtain ⟨j, p, c, _, h2, h3⟩ := compAndPos_ok hK he
    obtain ⟨hj, rfl⟩ := List.getElem?_eq_some_iff.mp h2
    exact ⟨⟨j, hj⟩, h3⟩
  have huniq : ∀ (i j : Fin comps.length) (e : Nat), e ∈ comps[i].edge → e ∈ comps[j].edge → i = j := by
    intro i j e h1 h2
    exact Fin.ext (comp_unique hK (List.getElem?_eq_getElem i.2) (List.getElem?_eq_getElem j.2) h1 h2)
  have h0 : 0 < comps.length := by
    obtain ⟨i, _⟩ := hex 0 (by rw [hC.count]; omega)
    exact Nat.lt_of_le_of_lt (Nat.zero_le _) i.2
  have helt : ∀ c k, c < cross.length → k < 4 → (eslot cross (c, k)) < edge.length := by
    intro c k hc hk
    exact hC.slot_edge_lt (slot_eslot (mem_P.mpr ⟨hc, hk⟩))
  let κ : Nat → Fin comps.length := fun e => if h : e < edge.length then (hex e h).choose else ⟨0, h0⟩
  have hκ : ∀ e, e < edge.length → e ∈ comps[κ e].edge := by
    intro e he
    simp only [κ, dif_pos he]
    exact (hex e he).choose_spec
  have hκi : ∀ e (i : Fin comps.length), e ∈ comps[i].edge → κ e = i := by
    intro e i hi
    exact huniq _ _ e (hκ e (comp_lt hK (hmem i) hi)) hi
  let φ : Nat → Sym2 (Fin comps.length) := fun c => s(κ (eslot cross (c, 0)), κ (eslot cross (c, 1)))
  let G : SimpleGraph (Fin comps.length) :=
    { Adj := fun i j => i ≠ j ∧ ∃ c < cross.length, φ c = s(i, j)
      symm := ⟨fun i j ⟨h1, c, h2, h3⟩ => ⟨h1.symm, c, h2, by rw [h3]; exact Sym2.eq_swap⟩⟩
      loopless := ⟨fun i h => h.1 rfl⟩ }
  -- the four edges of a crossing
  have four : ∀ c k l, c < cross.length → k < 4 → l < 4 →
      G.Reachable (κ (eslot cross (c, k))) (κ (eslot cross (c, l))) := by
    intro c k l hc hk hl
    have opp : ∀ k, k < 4 → κ (eslot cross (c, k)) = κ (eslot cross (c, k % 2)) := by
      intro k hk
      by_cases h2 : k < 2
      · rw [Nat.mod_eq_of_lt h2]
      · symm
        apply hκi
        have s1 := slot_eslot (mem_P.mpr ⟨hc, hk⟩ : (c, k) ∈ P cross)
        have s2 := slot_eslot (mem_P.mpr ⟨hc, (by omega : k % 2 < 4)⟩ : (c, k % 2) ∈ P cross)
        refine (opp_comp hC hO hK (hmem _) s1 ?_).mp (hκ _ (helt c k hc hk))
        have : (k + 2) % 4 = k % 2 := by omega
        simp only [this]
        exact s2
    have base : G.Reachable (κ (eslot cross (c, 0))) (κ (eslot cross (c, 1))) := by
      by_cases he : κ (eslot cross (c, 0)) = κ (eslot cross (c, 1))
      · rw [he]
      · exact SimpleGraph.Adj.reachable ⟨he, c, hc, rfl⟩
    rw [opp k hk, opp l hl]
    have hk2 : k % 2 = 0 ∨ k % 2 = 1 := by omega
    have hl2 : l % 2 = 0 ∨ l % 2 = 1 := by omega
    rcases hk2 with h1 | h1 <;> rcases hl2 with h2 | h2 <;> rw [h1, h2]
    · exact base
    · exact base.symm
  have hj : ∀ c d, c < cross.length → Relation.ReflTransGen (Joined edge) c d →
      d < cross.length ∧ G.Reachable (κ (eslot cross (c, 0))) (κ (eslot cross (d, 0))) := by
    intro c d hc hcd
    induction hcd with
    | refl => exact ⟨hc, SimpleGraph.Reachable.refl _⟩
    | tail _ hs ih =>
      obtain ⟨r, hr, hrr⟩ := hs
      obtain ⟨e, he, rfl⟩ := List.mem_iff_getElem.mp hr
      have g := List.getElem?_eq_getElem he
      have sh := hC.head e _ g
      have st := hC.tail e _ g
      have e1 := eslot_of_slot (p := (edge[e].head, edge[e].headpos)) sh
      have e2 := eslot_of_slot (p := (edge[e].tail, edge[e].tailpos)) st
      have l1 := slot_lt sh
      have l2 := slot_lt st
      have f1 := four _ 0 _ l1.1 (by decide) l1.2
      have f2 := four _ 0 _ l2.1 (by decide) l2.2
      rw [e1] at f1
      rw [e2] at f2
      rcases hrr with ⟨rfl, rfl⟩ | ⟨rfl, rfl⟩
      · exact ⟨l2.1, ih.2.trans (f1.trans f2.symm)⟩
      · exact ⟨l1.1, ih.2.trans (f2.trans f1.symm)⟩
  have hedge : ∀ i : Fin comps.length, ∃ c, c < cross.length ∧ G.Reachable i (κ (eslot cross (c, 0))) := by
    intro i
    obtain ⟨e, he⟩ := List.exists_mem_of_ne_nil _ (hnon _ (hmem i))
    have hlt := comp_lt hK (hmem i) he
    have sh := hC.head e _ (List.getElem?_eq_getElem hlt)
    have l1 := slot_lt sh
    refine ⟨_, l1.1, ?_⟩
    have f1 := four _ _ 0 l1.1 l1.2 (by decide)
    rw [eslot_of_slot (p := (edge[e].head, edge[e].headpos)) sh, hκi e i he] at f1
    exact f1
  have hGc : G.Connected := by
    haveI : Nonempty (Fin comps.length) := ⟨⟨0, h0⟩⟩
    refine ⟨?_⟩
    intro i j
    obtain ⟨c, hc, h1⟩ := hedge i
    obtain ⟨d, hd, h2⟩ := hedge j
    exact h1.trans ((hj c d hc (hcon c d hc hd)).2.trans h2.symm)
  have hcard := hGc.card_vert_le_card_edgeSet_add_one
  rw [Nat.card_eq_fintype_card, Fintype.card_fin, Nat.card_eq_fintype_card, ← SimpleGraph.edgeFinset_card] at hcard
  -- every edge of the graph is at least two crossings
  have htwo : ∀ g ∈ G.edgeFinset, 2 ≤ ((Finset.range cross.length).filter (fun c => φ c = g)).card := by
    intro g hg
    rw [SimpleGraph.mem_edgeFinset] at hg
    induction g using Sym2.ind with
    | _ i j =>
      rw [SimpleGraph.mem_edgeSet] at hg
      obtain ⟨hij, c, hc, hcφ⟩ := hg
      have hm : ∀ c, c < cross.length → (φ c = s(i, j) ↔ Meets cross comps[i] comps[j] c) := by
        intro c hc
        have s0 := slot_eslot (mem_P.mpr ⟨hc, (by decide : 0 < 4)⟩ : (c, 0) ∈ P cross)
        have s1 := slot_eslot (mem_P.mpr ⟨hc, (by decide : 1 < 4)⟩ : (c, 1) ∈ P cross)
        have on : ∀ (m : Fin comps.length) k, slot cross c k = some (eslot cross (c, k)) →
            (OnComp cross comps[m] c k ↔ κ (eslot cross (c, k)) = m) := by
          intro m k hs
          constructor
          · rintro ⟨e, he, h⟩
            rw [hs] at h
            cases h
            exact hκi _ m he
          · intro h
            refine ⟨_, ?_, hs⟩
            rw [← h]
            exact hκ _ (hC.slot_edge_lt hs)
        unfold Meets
        rw [on i 0 s0, on j 1 s1, on i 1 s1, on j 0 s0]
        simp only [φ, Sym2.eq_iff]
        tauto
      have hev := even_meet hC hO hcon hP hK (List.getElem?_eq_getElem i.2) (List.getElem?_eq_getElem j.2)
        (fun h => hij (Fin.ext h))
      have hcnt : ((Finset.range cross.length).filter (fun c => φ c = s(i, j))).card =
          meetCount cross comps[i] comps[j] := by
        unfold meetCount
        rw [List.countP_eq_length_filter]
        rw [Finset.filter_congr (fun c hc => hm c (Finset.mem_range.mp hc))]
        rfl
      have hpos : 0 < ((Finset.range cross.length).filter (fun c => φ c = s(i, j))).card :=
        Finset.card_pos.mpr ⟨c, Finset.mem_filter.mpr ⟨Finset.mem_range.mpr hc, hcφ⟩⟩
      rw [hcnt] at hpos ⊢
      obtain ⟨m, hm2⟩ := hev
      change meetCount cross comps[i] comps[j] = 2 * m at hm2
      omega
  have hsum := Finset.card_nsmul_le_sum G.edgeFinset _ 2 htwo
  rw [Finset.sum_card_fiberwise_eq_card_filter] at hsum
  have hle := Finset.card_filter_le (Finset.range cross.length) (fun c => φ c ∈ G.edgeFinset)
  rw [Finset.card_range] at hle
  simp only [smul_eq_mul] at hsum
  omega

include hC hO in
/-- The components of a connected plane diagram fit in the component buffer of a diagram with
room for its crossings. -/
theorem strands_le (hne : cross ≠ []) (hcon : Connected cross edge) (hP : PlaneFaces cross edge) {k : Nat}
    (hk : cross.length + 2 ≤ 2 * k + 1) : AtMostStrands cross edge k := by
  intro es h1 h2
  obtain ⟨comps, c1, c2, c3⟩ := exists_comps hC hO h1 h2
  have := comps_le hC hO hne hcon hP c2 c3
  omega

end CompBound
end Plc
