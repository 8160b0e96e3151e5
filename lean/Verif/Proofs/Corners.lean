import Verif.Proofs.EraseFaces

/-! Sets of faces around a crossing, and how their boundaries run. -/

namespace Plc.Planar

open Plc.Core Plc.Cmp Plc.Places Plc.Orbit Plc.Faces Plc.Comps

variable {cross : List Cross} {edge : List Edge}

theorem bang {e : Nat} (h : e < edge.length) : edge[e]? = some edge[e]! := by
  rw [List.getElem?_eq_getElem h]
  simp [h]

/-- Edge `u` comes in from the right of edge `x`. -/
def Rt (edge : List Edge) (x u : Nat) : Prop := hd edge[u]! = turn 1 (hd edge[x]!)

section

variable (hC : Consistent cross edge)

include hC in
theorem dartAt_hd {e : Nat} (he : e < edge.length) : dartAt cross edge (hd edge[e]!) = (e, .neg) := by
  apply begp_inj hC (dartAt_mem hC (hd_mem hC he).1) (mem_D.mpr ⟨he, .inr rfl⟩)
  rw [begp_dartAt hC (hd_mem hC he).1]
  simp [begp]

include hC in
theorem dartAt_tl {e : Nat} (he : e < edge.length) : dartAt cross edge (tl edge[e]!) = (e, .pos) := by
  apply begp_inj hC (dartAt_mem hC (tl_mem hC he).1) (mem_D.mpr ⟨he, .inl rfl⟩)
  rw [begp_dartAt hC (tl_mem hC he).1]
  simp [begp]

include hC in
/-- The four corners. -/
theorem corners {f : Dart → K} (hf : FaceFn cross edge f) {e : Nat} (he : e < edge.length) :
    f (e, .pos) = f (dartAt cross edge (turn 3 (hd edge[e]!))) ∧ f (e, .neg) = f (dartAt cross edge (turn 3 (tl edge[e]!))) ∧
    f (e, .neg) = f (dartAt cross edge (hd edge[e]!)) ∧ f (e, .pos) = f (dartAt cross edge (tl edge[e]!)) := by
  have h1 := hf (e, .pos) (mem_D.mpr ⟨he, .inl rfl⟩)
  have h2 := hf (e, .neg) (mem_D.mpr ⟨he, .inr rfl⟩)
  refine ⟨h1.symm, h2.symm, ?_, ?_⟩
  · rw [dartAt_hd hC he]
  · rw [dartAt_tl hC he]

variable (hO : Oriented cross edge)

include hC hO in
/-- The sides which meet in the corners of a crossing. -/
theorem right_of {x u : Nat} (hx : x < edge.length) (hu : u < edge.length) (h : Rt edge x u) {f : Dart → K}
    (hf : FaceFn cross edge f) : f (x, .neg) = f (u, .pos) ∧ f (x, .pos) = f (nx cross edge u, .pos) ∧
      f (nx cross edge x, .pos) = f (nx cross edge u, .neg) ∧ f (nx cross edge x, .neg) = f (u, .neg) := by
  obtain ⟨x1, x2⟩ := nx_spec hC hO hx
  obtain ⟨u1, u2⟩ := nx_spec hC hO hu
  unfold Rt at h
  have hp := (hd_mem hC hx).1
  obtain ⟨a1, a2, a3, a4⟩ := corners hC hf hx
  obtain ⟨b1, b2, b3, b4⟩ := corners hC hf hu
  obtain ⟨c1, c2, c3, c4⟩ := corners hC hf x1
  obtain ⟨d1, d2, d3, d4⟩ := corners hC hf u1
  rw [x2] at c2 c4
  rw [u2] at d2 d4
  rw [h] at b1 b3 d2 d4
  have e1 : turn 3 (turn 1 (hd edge[x]!)) = hd edge[x]! := turn_turn hp 3 1 (by decide)
  have e2 : turn 2 (turn 1 (hd edge[x]!)) = turn 3 (hd edge[x]!) := by
    unfold turn; simp only [Prod.mk.injEq, true_and]; omega
  have e3 : turn 3 (turn 3 (hd edge[x]!)) = turn 2 (hd edge[x]!) := by
    unfold turn; simp only [Prod.mk.injEq, true_and]; omega
  have e4 : turn 3 (turn 2 (hd edge[x]!)) = turn 1 (hd edge[x]!) := by
    unfold turn; simp only [Prod.mk.injEq, true_and]; omega
  rw [e1] at b1
  rw [e2] at d2 d4
  rw [e3] at d2
  rw [e4] at c2
  exact ⟨a3.trans b1.symm, a1.trans d4.symm, c4.trans d2.symm, c2.trans b3.symm⟩

include hC hO in
/-- Two edges which come in at the same crossing. -/
theorem two_in {x u : Nat} (hx : x < edge.length) (hu : u < edge.length) (hne : x ≠ u)
    (h : (hd edge[x]!).1 = (hd edge[u]!).1) : Rt edge x u ∨ Rt edge u x := by
  obtain ⟨p1, p2⟩ := hd_mem hC hx
  obtain ⟨q1, q2⟩ := hd_mem hC hu
  obtain ⟨x1, x2⟩ := nx_spec hC hO hx
  have l1 := (mem_P.mp p1).2
  have l2 := (mem_P.mp q1).2
  unfold Rt
  generalize hpe : hd edge[x]! = p at *
  generalize hqe : hd edge[u]! = q at *
  obtain ⟨c, k⟩ := p
  obtain ⟨c', j⟩ := q
  simp only at h l1 l2
  subst h
  have h0 : k ≠ j := by
    rintro rfl
    exact hne (p2.symm.trans q2)
  have h2 : j ≠ (k + 2) % 4 := by
    intro hj
    have ht : tl edge[nx cross edge x]! = (c, j) := by
      rw [x2, hj]
      rfl
    have : nx cross edge x = u := by
      rw [← (tl_mem hC x1).2, ht, q2]
    rw [this] at ht
    exact hd_ne_tl hC hu (by rw [ht, hqe])
  unfold turn
  simp only [Prod.mk.injEq, true_and]
  omega

include hC hO in
/-- There are no more than two edges which come in at a crossing. -/
theorem third_in {x u y : Nat} (hx : x < edge.length) (hu : u < edge.length) (hy : y < edge.length) (hne : x ≠ u)
    (h : (hd edge[x]!).1 = (hd edge[u]!).1) (h' : (hd edge[y]!).1 = (hd edge[u]!).1) : y = x ∨ y = u := by
  by_contra hcon
  push Not at hcon
  have inj : ∀ {a b : Nat}, a < edge.length → b < edge.length → hd edge[a]! = hd edge[b]! → a = b := by
    intro a b ha hb hh
    rw [← (hd_mem hC ha).2, ← (hd_mem hC hb).2, hh]
  have turn1 : ∀ {a b c : Nat}, a < edge.length → b < edge.length → c < edge.length → Rt edge a b → Rt edge a c → b = c := by
    intro a b c ha hb hc h1 h2
    exact inj hb hc (by rw [h1, h2])
  have back1 : ∀ {a b c : Nat}, a < edge.length → b < edge.length → c < edge.length → Rt edge b a → Rt edge c a → b = c := by
    intro a b c ha hb hc h1 h2
    apply inj hb hc
    unfold Rt at h1 h2
    have e1 := turn_turn (hd_mem hC hb).1 3 1 (by decide)
    have e2 := turn_turn (hd_mem hC hc).1 3 1 (by decide)
    rw [← e1, ← e2, ← h1, ← h2]
  have cyc2 : ∀ {a b c : Nat}, a < edge.length → b < edge.length → c < edge.length → Rt edge a b → Rt edge b c → a ≠ c →
      (hd edge[a]!).1 = (hd edge[c]!).1 → False := by
    intro a b c ha hb hc h1 h2 hac hh
    unfold Rt at h1 h2
    rw [h1] at h2
    rcases two_in hC hO ha hc hac hh with h3 | h3
    · unfold Rt at h3
      rw [h3] at h2
      unfold turn at h2
      simp only [Prod.mk.injEq, true_and] at h2
      omega
    · unfold Rt at h3
      rw [h2] at h3
      have := (mem_P.mp (hd_mem hC ha).1).2
      unfold turn at h3
      rw [Prod.ext_iff] at h3
      simp only [true_and] at h3
      omega
  rcases two_in hC hO hx hu hne h with a | a <;> rcases two_in hC hO hx hy (Ne.symm hcon.1) (h.trans h'.symm) with b | b
  · exact hcon.2 (turn1 hx hu hy a b).symm
  · exact cyc2 hy hx hu b a hcon.2 h'
  · exact cyc2 hu hx hy a b (Ne.symm hcon.2) h'.symm
  · exact hcon.2 (back1 hx hu hy a b).symm

include hC hO in
/-- A set of edges which contains the next edge of each of its edges contains the one before, too. -/
theorem closed_back {S : Nat → Prop} (hS : ∀ e, e < edge.length → S e → S (nx cross edge e)) {e : Nat} (he : e < edge.length)
    (h : S (nx cross edge e)) : S e := by
  have hI := injOn_nx hC hO
  have heR : e ∈ Finset.range edge.length := Finset.mem_range.mpr he
  obtain ⟨k, hk⟩ := hI.reach_symm heR ⟨1, rfl⟩
  have key : ∀ j, S ((nx cross edge)^[j] (nx cross edge e)) := by
    intro j
    induction j with
    | zero => exact h
    | succ j ih =>
      rw [Function.iterate_succ_apply']
      exact hS _ (Finset.mem_range.mp (hI.iterate_mem (hI.maps e heR) j)) ih
  have := key k
  rw [Function.iterate_one] at hk
  rwa [hk] at this

include hC hO in
theorem nx_inj {a b : Nat} (ha : a < edge.length) (hb : b < edge.length) (h : nx cross edge a = nx cross edge b) : a = b :=
  (injOn_nx hC hO).inj a (Finset.mem_range.mpr ha) b (Finset.mem_range.mpr hb) h

include hC hO in
theorem tl_nx {e : Nat} (he : e < edge.length) : (tl edge[nx cross edge e]!).1 = (hd edge[e]!).1 := by
  rw [(nx_spec hC hO he).2]
  rfl

include hC hO in
/-- Away from the boundary the colour on the left of a strand stays the same. -/
theorem col_away {f : Dart → K} (hf : FaceFn cross edge f) {z : Nat → K}
    (hz : ∀ e, e < edge.length → z e = f (e, .pos) + f (e, .neg)) {e : Nat} (he : e < edge.length)
    (h : ∀ x, x < edge.length → z x ≠ 0 → (hd edge[x]!).1 ≠ (hd edge[e]!).1 ∧ (tl edge[x]!).1 ≠ (hd edge[e]!).1) :
    f (nx cross edge e, .pos) = f (e, .pos) := by
  rw [cross_over hC hO hf hz he]
  have hp := turn_mem 3 (hd_mem hC he).1
  have hlt := eslot_lt hC hp
  by_cases h0 : z (eslot cross (turn 3 (hd edge[e]!))) = 0
  · rw [h0, add_zero]
  · obtain ⟨h1, h2⟩ := h _ hlt h0
    rcases ends_at hC hp with q | q
    · exact absurd (by rw [q]; rfl) h1
    · exact absurd (by rw [q]; rfl) h2

/-- Two edges with the same ends are a cycle. -/
theorem cycle_two {x y : Nat} (hx : x < edge.length) (hy : y < edge.length) (hne : x ≠ y)
    (h : ((hd edge[x]!).1 = (hd edge[y]!).1 ∧ (tl edge[x]!).1 = (tl edge[y]!).1) ∨
      ((hd edge[x]!).1 = (tl edge[y]!).1 ∧ (tl edge[x]!).1 = (hd edge[y]!).1)) :
    IsCycle cross edge (fun e => if e = x ∨ e = y then 1 else 0) := by
  intro c _
  have h1 : ∑ e ∈ Finset.range edge.length, inc edge c e * (if e = x ∨ e = y then (1 : K) else 0) =
      ∑ e ∈ ({x, y} : Finset Nat), inc edge c e := by
    have hsub : ({x, y} : Finset Nat) ⊆ Finset.range edge.length := by
      intro e he
      rw [Finset.mem_insert, Finset.mem_singleton] at he
      rcases he with rfl | rfl <;> exact Finset.mem_range.mpr (by assumption)
    rw [← Finset.sum_subset hsub]
    · apply Finset.sum_congr rfl
      intro e he
      rw [Finset.mem_insert, Finset.mem_singleton] at he
      rw [if_pos he, mul_one]
    · intro e _ he
      rw [Finset.mem_insert, Finset.mem_singleton] at he
      rw [if_neg he, mul_zero]
  rw [h1, Finset.sum_pair hne]
  unfold inc
  rcases h with ⟨a, b⟩ | ⟨a, b⟩
  · rw [a, b]
    exact CharTwo.add_self_eq_zero _
  · rw [a, b, add_comm (if (hd edge[y]!).1 = c then (1 : K) else 0)]
    exact CharTwo.add_self_eq_zero _

theorem ne_iff_add {a b : K} : a ≠ b ↔ a = b + 1 := by revert a b; decide

theorem _root_.Plc.PlaneDiagram.trap (h : PlaneDiagram cross edge) {i : Nat} (hi : i < edge.length)
    (h1 : (hd edge[nx cross edge (nx cross edge i)]!).1 = (hd edge[i]!).1)
    (h2 : (hd edge[nx cross edge i]!).1 ≠ (hd edge[i]!).1) : nx cross edge (nx cross edge i) = i := by
  have hC := h.consistent
  have hO := h.oriented
  by_contra hne
  obtain ⟨ho, -⟩ := nx_spec hC hO hi
  have t1 := tl_nx hC hO hi
  generalize hoe : nx cross edge i = o at *
  obtain ⟨hu, -⟩ := nx_spec hC hO ho
  have t2 := tl_nx hC hO ho
  generalize hue : nx cross edge o = u at *
  obtain ⟨hv, -⟩ := nx_spec hC hO hu
  have t3 := tl_nx hC hO hu
  -- the other edge at the second crossing
  have hou : o ≠ u := fun q => h2 (by rw [q, h1])
  have hoi : o ≠ i := fun q => h2 (by rw [q])
  obtain ⟨f, f1, f2⟩ := h.exact _ (cycle_two (cross := cross) ho hu hou (.inr ⟨t2.symm, by rw [t1, h1]⟩))
  have zo : f (o, .pos) + f (o, .neg) = 1 := by rw [← f2 o ho]; simp
  have zu : f (u, .pos) + f (u, .neg) = 1 := by rw [← f2 u hu]; simp
  have z0 : ∀ e, e < edge.length → e ≠ o → e ≠ u → f (e, .pos) = f (e, .neg) := by
    intro e he n1 n2
    have := f2 e he
    rw [if_neg (by push Not; exact ⟨n1, n2⟩)] at this
    exact CharTwo.add_eq_zero.mp this.symm
  have hvo : nx cross edge u ≠ o := fun q => hne (nx_inj hC hO hu hi (q.trans hoe.symm))
  have hvu : nx cross edge u ≠ u := fun q => hou (nx_inj hC hO ho hu (hue.trans q.symm))
  -- after the trap
  have hv' : f (nx cross edge u, .pos) = f (i, .pos) := by
    rcases two_in hC hO hi hu (Ne.symm hne) h1.symm with r | r
    · exact (right_of hC hO hi hu r f1).2.1.symm
    · have q := (right_of hC hO hu hi r f1).2.2.2
      rw [z0 _ hv hvo hvu, q, z0 i hi (Ne.symm hoi) (Ne.symm hne)]
  have hex : ∃ g, g < edge.length ∧ g ≠ o ∧ (hd edge[g]!).1 = (hd edge[o]!).1 := by
    have hp := turn_mem 1 (hd_mem hC ho).1
    have hq := turn_mem 3 (hd_mem hC ho).1
    rcases ends_at hC hp with q | q
    · refine ⟨_, eslot_lt hC hp, ?_, by rw [q]; rfl⟩
      intro hh
      rw [hh] at q
      exact turn_ne (hd_mem hC ho).1 1 (by decide) q.symm
    · -- the strand through a place where an edge begins
      obtain ⟨w, s, w1, w2, w3⟩ := hO.through_tail (eslot cross (turn 1 (hd edge[o]!))) edge[eslot cross (turn 1 (hd edge[o]!))]!
        (bang (eslot_lt hC hp))
      have hsw := (getBang w1)
      have q' : (edge[eslot cross (turn 1 (hd edge[o]!))]!.tail, edge[eslot cross (turn 1 (hd edge[o]!))]!.tailpos) =
        turn 1 (hd edge[o]!) := q
      have e1 : hd edge[w]! = turn 3 (hd edge[o]!) := by
        rw [hsw.1]
        unfold hd
        rw [w2, w3]
        rw [Prod.ext_iff] at q'
        simp only at q'
        rw [q'.1, q'.2]
        unfold turn hd
        simp only [Prod.mk.injEq, true_and]
        omega
      refine ⟨w, hsw.2, ?_, by rw [e1]; rfl⟩
      rintro rfl
      exact turn_ne (hd_mem hC ho).1 3 (by decide) e1.symm
  obtain ⟨g, hg, hgo, hgd⟩ := hex
  have hgu : g ≠ u := by
    rintro rfl
    exact h2 (hgd.symm.trans h1)
  have hgi : g ≠ i := by
    rintro rfl
    exact h2 hgd.symm
  obtain ⟨hh, -⟩ := nx_spec hC hO hg
  have hno : nx cross edge g ≠ o := fun q => hgi (nx_inj hC hO hg hi (q.trans hoe.symm))
  have hnu : nx cross edge g ≠ u := fun q => hgo (nx_inj hC hO hg ho (q.trans hue.symm))
  have hstep : f (g, .pos) ≠ f (nx cross edge g, .pos) := by
    rcases two_in hC hO ho hg (Ne.symm hgo) hgd.symm with r | r
    · obtain ⟨q1, q2, -⟩ := right_of hC hO ho hg r f1
      rw [← q1, ← q2]
      intro q
      rw [q, CharTwo.add_self_eq_zero] at zo
      exact zero_ne_one zo
    · obtain ⟨-, q2, q3, -⟩ := right_of hC hO hg ho r f1
      rw [hue] at q2 q3
      rw [q2, q3]
      intro q
      rw [q, CharTwo.add_self_eq_zero] at zu
      exact zero_ne_one zu
  let col : Nat → K := fun e => if e = o ∨ e = u then f (i, .pos) else f (e, .pos)
  have cne : ∀ e, e ≠ o → e ≠ u → col e = f (e, .pos) := by
    intro e n1 n2
    exact if_neg (by push Not; exact ⟨n1, n2⟩)
  have co : col o = f (i, .pos) := if_pos (.inl rfl)
  have cu : col u = f (i, .pos) := if_pos (.inr rfl)
  have hcl : ∀ e, e < edge.length → col e = col (nx cross edge g) → col (nx cross edge e) = col (nx cross edge g) := by
    intro e he hce
    rw [← hce]
    by_cases e1 : e = i
    · rw [e1, hoe, co, cne i (Ne.symm hoi) (Ne.symm hne)]
    · by_cases e2 : e = o
      · rw [e2, hue, cu, co]
      · by_cases e3 : e = u
        · rw [e3, cu, cne _ hvo hvu, hv']
        · have n1 : nx cross edge e ≠ o := fun q => e1 (nx_inj hC hO he hi (q.trans hoe.symm))
          have n2 : nx cross edge e ≠ u := fun q => e2 (nx_inj hC hO he ho (q.trans hue.symm))
          by_cases e4 : e = g
          · rw [e4, cne g hgo hgu, cne _ hno hnu] at hce
            exact absurd hce hstep
          · rw [cne e e2 e3, cne _ n1 n2]
            have a1 : (hd edge[e]!).1 ≠ (hd edge[i]!).1 := by
              intro q
              rcases third_in hC hO hu hi he hne h1 q with q | q
              · exact e3 q
              · exact e1 q
            have a2 : (hd edge[e]!).1 ≠ (hd edge[o]!).1 := by
              intro q
              rcases third_in hC hO hg ho he hgo hgd q with q | q
              · exact e4 q
              · exact e2 q
            apply col_away hC hO f1 f2 he
            intro x _ hx
            have : x = o ∨ x = u := by
              by_contra hn
              exact hx (if_neg hn)
            rcases this with rfl | rfl
            · exact ⟨Ne.symm a2, by rw [t1]; exact Ne.symm a1⟩
            · exact ⟨by rw [h1]; exact Ne.symm a1, by rw [t2]; exact Ne.symm a2⟩
  have := closed_back hC hO (S := fun e => col e = col (nx cross edge g)) hcl hg rfl
  rw [cne g hgo hgu, cne _ hno hnu] at this
  exact hstep this

end

/-- What is orthogonal to the boundaries of faces is a coboundary, if cycles bound. -/
theorem coexact (hE : Exact cross edge) (hC : Consistent cross edge) {k : Nat → K}
    (hk : ∀ f, FaceFn cross edge f → ∑ e ∈ Finset.range edge.length, k e * (f (e, .pos) + f (e, .neg)) = 0) :
    ∃ h : Nat → K, ∀ e, e < edge.length → k e = h (hd edge[e]!).1 + h (tl edge[e]!).1 := by
  let M : Matrix (Fin cross.length) (Fin edge.length) K := fun c e => inc edge c e
  have hmem : (Fintype.linearCombination K (fun e : Fin edge.length => k e) : (Fin edge.length → K) →ₗ[K] K) ∈
      (LinearMap.ker M.mulVecLin).dualAnnihilator := by
    rw [Submodule.mem_dualAnnihilator]
    intro y hy
    rw [LinearMap.mem_ker] at hy
    let z : Nat → K := fun e => if h : e < edge.length then y ⟨e, h⟩ else 0
    have hyz : ∀ e : Fin edge.length, y e = z e := fun e => by simp only [z, e.2, dif_pos]
    obtain ⟨f, f1, f2⟩ := hE z (by
      intro c hc
      have := congrFun hy ⟨c, hc⟩
      rw [Matrix.mulVecLin_apply, Matrix.mulVec, dotProduct] at this
      rw [← Fin.sum_univ_eq_sum_range (fun e => inc edge c e * z e)]
      rw [show (0 : Fin cross.length → K) ⟨c, hc⟩ = 0 from rfl] at this
      rw [← this]
      apply Finset.sum_congr rfl
      intro e _
      rw [hyz])
    have := hk f f1
    rw [← Fin.sum_univ_eq_sum_range (fun e => k e * (f (e, .pos) + f (e, .neg)))] at this
    rw [Fintype.linearCombination_apply, ← this]
    apply Finset.sum_congr rfl
    intro e _
    rw [hyz, f2 e e.2, smul_eq_mul, mul_comm]
  rw [← LinearMap.range_dualMap_eq_dualAnnihilator_ker] at hmem
  obtain ⟨φ, hφ⟩ := hmem
  let h : Nat → K := fun c => if hc : c < cross.length then φ (Pi.single ⟨c, hc⟩ 1) else 0
  refine ⟨h, ?_⟩
  intro e he
  have h1 := congrArg (fun ψ => ψ (Pi.single (⟨e, he⟩ : Fin edge.length) (1 : K))) hφ
  simp only [LinearMap.dualMap_apply] at h1
  have e1 : (Fintype.linearCombination K (fun e : Fin edge.length => k e)) (Pi.single (⟨e, he⟩ : Fin edge.length) (1 : K)) = k e := by
    rw [Fintype.linearCombination_apply_single, one_smul]
  rw [e1] at h1
  rw [← h1]
  have hm : M.mulVecLin (Pi.single (⟨e, he⟩ : Fin edge.length) (1 : K)) =
      Pi.single ⟨(hd edge[e]!).1, (mem_P.mp (hd_mem hC he).1).1⟩ 1 + Pi.single ⟨(tl edge[e]!).1, (mem_P.mp (tl_mem hC he).1).1⟩ 1 := by
    rw [Matrix.mulVecLin_apply, Matrix.mulVec_single_one]
    funext c
    show inc edge c e = _
    unfold inc
    rw [Pi.add_apply, Pi.single_apply, Pi.single_apply]
    simp only [Fin.ext_iff, eq_comm (a := (c : Nat))]
  rw [hm, map_add]
  simp only [h, (mem_P.mp (hd_mem hC he).1).1, (mem_P.mp (tl_mem hC he).1).1, dif_pos]

end Plc.Planar
