import Verif.Proofs.Faces
import Verif.Props.Faces
import Verif.Props.Linking
import Mathlib.LinearAlgebra.Matrix.Rank
import Mathlib.Algebra.Field.ZMod
import Mathlib.Algebra.CharP.Two
import Mathlib.Data.ZMod.Basic

/-! Cycles modulo 2 on a plane diagram bound sets of faces. -/

namespace Plc

/-- Two crossings are joined by an edge. -/
def Joined (edge : List Edge) (c d : Nat) : Prop :=
  ∃ r ∈ edge, (r.head = c ∧ r.tail = d) ∨ (r.head = d ∧ r.tail = c)

/-- One can get from every crossing to every other along edges. -/
def Connected (cross : List Cross) (edge : List Edge) : Prop :=
  ∀ c d, c < cross.length → d < cross.length → Relation.ReflTransGen (Joined edge) c d

/-- The diagram has two more faces than crossings: there is a list of sides, one from each face,
of this length. For a connected diagram this says that it can be drawn in the plane. -/
def PlaneFaces (cross : List Cross) (edge : List Edge) : Prop :=
  ∃ reps : List (Nat × Or), reps.length = cross.length + 2 ∧
    (∀ s ∈ reps, s ∈ allSides edge.length) ∧
    reps.Pairwise (fun x y => ¬ Relation.ReflTransGen (Turns edge) x y) ∧
    ∀ s ∈ allSides edge.length, ∃ r ∈ reps, Relation.ReflTransGen (Turns edge) r s

namespace Planar

open Plc.Core Plc.Cmp Plc.Places Plc.Orbit Plc.Faces Plc.Strands

abbrev K := ZMod 2

theorem mem_all {m : Nat} {edge : List Edge} (hm : m = edge.length) (d : Dart) : d ∈ allSides m ↔ d ∈ D edge := by
  subst hm
  rw [mem_D]
  unfold allSides
  obtain ⟨e, o⟩ := d
  rw [List.mem_append, List.mem_map, List.mem_map]
  constructor
  · rintro (⟨x, hx, h⟩ | ⟨x, hx, h⟩) <;>
    · simp only [Prod.mk.injEq] at h
      obtain ⟨rfl, rfl⟩ := h
      simpa using hx
  · rintro ⟨h1, rfl | rfl⟩
    · exact Or.inl ⟨e, List.mem_range.mpr h1, rfl⟩
    · exact Or.inr ⟨e, List.mem_range.mpr h1, rfl⟩

/-- Number of ends of edge `e` at crossing `c`. -/
def inc (edge : List Edge) (c e : Nat) : K :=
  (if (hd edge[e]!).1 = c then 1 else 0) + (if (tl edge[e]!).1 = c then 1 else 0)

/-- A set of edges, modulo 2, with an even number of ends at each crossing. -/
def IsCycle (cross : List Cross) (edge : List Edge) (z : Nat → K) : Prop :=
  ∀ c, c < cross.length → ∑ e ∈ Finset.range edge.length, inc edge c e * z e = 0

section

variable {cross : List Cross} {edge : List Edge} (hC : Consistent cross edge)

theorem sum_D (g : Dart → K) : ∑ d ∈ D edge, g d =
    ∑ e ∈ Finset.range edge.length, (g (e, .pos) + g (e, .neg)) := by
  unfold D
  rw [Finset.sum_product]
  apply Finset.sum_congr rfl
  intro e _
  rw [Finset.sum_pair (by decide)]

include hC in
theorem nd_surj {d : Dart} (h : d ∈ D edge) : ∃ d' ∈ D edge, nd cross edge d' = d := by
  have hI := injOn_nd hC
  have := Finset.surjOn_of_injOn_of_card_le (s := D edge) (t := D edge) (nd cross edge)
    (fun x hx => hI.maps x hx) (fun x hx y hy e => hI.inj x hx y hy e) (Nat.le_refl _)
  obtain ⟨d', h1, h2⟩ := this h
  exact ⟨d', h1, h2⟩

include hC in
theorem begp_nd {d : Dart} (h : d ∈ D edge) : begp edge (nd cross edge d) = turn 3 (endp edge d) :=
  begp_dartAt hC (turn_mem 3 (endp_mem hC h).1)

include hC in
/-- Boundaries of sets of faces are cycles. -/
theorem bdry_cycle {f : Dart → K} (hf : ∀ d ∈ D edge, f (nd cross edge d) = f d) :
    IsCycle cross edge (fun e => f (e, .pos) + f (e, .neg)) := by
  have hI := injOn_nd hC
  intro c _
  have h1 : ∑ e ∈ Finset.range edge.length, inc edge c e * (f (e, .pos) + f (e, .neg)) =
      ∑ d ∈ D edge, (if (endp edge d).1 = c then f d else 0) + ∑ d ∈ D edge, (if (begp edge d).1 = c then f d else 0) := by
    rw [sum_D, sum_D, ← Finset.sum_add_distrib]
    apply Finset.sum_congr rfl
    intro e _
    unfold inc endp begp
    simp only [if_true, reduceCtorEq, if_false]
    split <;> split <;> ring
  have h2 : ∑ d ∈ D edge, (if (begp edge d).1 = c then f d else 0) =
      ∑ d ∈ D edge, (if (endp edge d).1 = c then f d else 0) := by
    symm
    refine Finset.sum_nbij (nd cross edge) (fun d hd => hI.maps d hd) (fun x hx y hy e => hI.inj x hx y hy e) ?_ ?_
    · intro d hd
      obtain ⟨d', h3, h4⟩ := nd_surj hC hd
      exact ⟨d', h3, h4⟩
    · intro d hd
      rw [begp_nd hC hd, hf d hd]
      rfl
  rw [h1, h2]
  exact CharTwo.add_self_eq_zero _

/-- Functions on crossings that agree along edges. -/
theorem const_of_joined {α : Type} (hcon : Connected cross edge) {g : Nat → α}
    (hg : ∀ r ∈ edge, g r.head = g r.tail) {c d : Nat} (hc' : c < cross.length) (hd' : d < cross.length) :
    g c = g d := by
  have := hcon c d hc' hd'
  clear hc' hd'
  induction this with
  | refl => rfl
  | tail _ hs ih =>
    obtain ⟨r, hr, ⟨h1, h2⟩ | ⟨h1, h2⟩⟩ := hs
    · rw [ih, ← h1, ← h2]; exact hg r hr
    · rw [ih, ← h1, ← h2]; exact (hg r hr).symm

/-- The other side of an edge. -/
def rev (d : Dart) : Dart := (d.1, if d.2 = .pos then .neg else .pos)

theorem rev_mem {d : Dart} (h : d ∈ D edge) : rev d ∈ D edge := by
  rw [mem_D] at *
  refine ⟨h.1, ?_⟩
  unfold rev
  rcases h.2 with h | h <;> simp [h]

theorem endp_rev {d : Dart} (h : d ∈ D edge) : endp edge (rev d) = begp edge d := by
  have := (mem_D.mp h).2
  unfold endp begp rev
  rcases this with h | h <;> simp [h]

theorem begp_rev {d : Dart} (h : d ∈ D edge) : begp edge (rev d) = endp edge d := by
  have := (mem_D.mp h).2
  unfold endp begp rev
  rcases this with h | h <;> simp [h]

include hC in
/-- A function on sides that agrees on the two sides of an edge and along faces is constant. -/
theorem const_of_faces {α : Type} (hcon : Connected cross edge) {f : Dart → α}
    (h1 : ∀ d ∈ D edge, f (nd cross edge d) = f d) (h2 : ∀ d ∈ D edge, f (rev d) = f d) {d d' : Dart}
    (hd' : d ∈ D edge) (hd'' : d' ∈ D edge) : f d = f d' := by
  -- as a function of the place where a side begins
  have step : ∀ p ∈ P cross, f (dartAt cross edge (turn 3 p)) = f (dartAt cross edge p) := by
    intro p hp
    have hm := dartAt_mem hC hp
    rw [← h2 _ hm, ← h1 _ (rev_mem hm)]
    unfold nd
    rw [endp_rev hm, begp_dartAt hC hp]
  have all : ∀ c k, c < cross.length → k < 4 → f (dartAt cross edge (c, k)) = f (dartAt cross edge (c, 0)) := by
    intro c k hc hk
    have s1 := step (c, 1) (mem_P.mpr ⟨hc, show 1 < 4 by decide⟩)
    have s2 := step (c, 2) (mem_P.mpr ⟨hc, show 2 < 4 by decide⟩)
    have s3 := step (c, 3) (mem_P.mpr ⟨hc, show 3 < 4 by decide⟩)
    simp only [turn] at s1 s2 s3
    match k, hk with
    | 0, _ => rfl
    | 1, _ => exact s1.symm
    | 2, _ => rw [← s2]; exact s1.symm
    | 3, _ => rw [← s3, ← s2]; exact s1.symm
  have back : ∀ d ∈ D edge, f d = f (dartAt cross edge ((begp edge d).1, 0)) := by
    intro d hd
    have hb := begp_mem hC hd
    have hp := mem_P.mp hb.1
    rw [← all _ _ hp.1 hp.2]
    congr 1
    exact begp_inj hC hd (dartAt_mem hC hb.1) (begp_dartAt hC hb.1).symm
  have hg : ∀ r ∈ edge, f (dartAt cross edge (r.head, 0)) = f (dartAt cross edge (r.tail, 0)) := by
    intro r hr
    obtain ⟨e, he, rfl⟩ := List.getElem_of_mem hr
    have hm : ((e, .pos) : Dart) ∈ D edge := mem_D.mpr ⟨he, Or.inl rfl⟩
    have a := back _ hm
    have b := back _ (rev_mem hm)
    rw [begp_rev hm, h2 _ hm] at b
    unfold begp at a
    unfold endp at b
    simp only [if_true] at a b
    rw [getElem!_pos edge e he] at a b
    rw [← show (hd edge[e]).1 = edge[e].head from rfl, ← show (tl edge[e]).1 = edge[e].tail from rfl, ← a, ← b]
  rw [back d hd', back d' hd'']
  exact const_of_joined (g := fun c => f (dartAt cross edge (c, 0))) hcon hg
    (mem_P.mp (begp_mem hC hd').1).1 (mem_P.mp (begp_mem hC hd'').1).1

include hC in
/-- On a connected plane diagram every cycle is the boundary of a set of faces. -/
theorem exact (hcon : Connected cross edge) {reps : List Dart} (hr1 : reps.length = cross.length + 2)
    (hr2 : ∀ s ∈ reps, s ∈ D edge) (hr3 : reps.Pairwise (fun x y => y ∉ cyc (nd cross edge) x))
    (hr4 : ∀ s ∈ D edge, ∃ r ∈ reps, s ∈ cyc (nd cross edge) r) {z : Nat → K} (hz : IsCycle cross edge z) :
    ∃ f : Dart → K, (∀ d ∈ D edge, f (nd cross edge d) = f d) ∧
      ∀ e, e < edge.length → z e = f (e, .pos) + f (e, .neg) := by
  have hI := injOn_nd hC
  have hm := hC.count
  -- the number of the face of a side
  have hex : ∀ d : Dart, ∃ i : Fin reps.length, d ∈ D edge → d ∈ cyc (nd cross edge) reps[i] := by
    intro d
    by_cases h : d ∈ D edge
    · obtain ⟨r, h1, h2⟩ := hr4 d h
      obtain ⟨i, hi, rfl⟩ := List.getElem_of_mem h1
      exact ⟨⟨i, hi⟩, fun _ => h2⟩
    · exact ⟨⟨0, by omega⟩, fun h' => absurd h' h⟩
  choose fi hfi using hex
  have huniq : ∀ (i j : Fin reps.length) d, d ∈ cyc (nd cross edge) reps[i] → d ∈ cyc (nd cross edge) reps[j] → i = j := by
    intro i j d h1 h2
    have hp := List.pairwise_iff_getElem.mp hr3
    have mi := hr2 reps[i] (List.getElem_mem _)
    have mj := hr2 reps[j] (List.getElem_mem _)
    rcases Nat.lt_trichotomy i.val j.val with h | h | h
    · exact absurd (hI.cyc_meet mi mj h1 h2) (hp i j i.2 j.2 h)
    · exact Fin.ext h
    · exact absurd (hI.cyc_meet mj mi h2 h1) (hp j i j.2 i.2 h)
  have hnd : ∀ d ∈ D edge, fi (nd cross edge d) = fi d := by
    intro d hd
    apply huniq _ _ (nd cross edge d) (hfi _ (hI.maps d hd))
    have h1 := hfi d hd
    have hmr : reps[fi d] ∈ D edge := hr2 reps[fi d] (List.getElem_mem _)
    rw [hI.mem_cyc hmr] at h1 ⊢
    obtain ⟨k, hk⟩ := h1
    exact ⟨k + 1, by rw [Function.iterate_succ_apply', hk]⟩
  have hrep : ∀ i : Fin reps.length, fi reps[i] = i := by
    intro i
    have mi := hr2 reps[i] (List.getElem_mem _)
    exact huniq _ _ reps[i] (hfi _ mi) (hI.self_mem_cyc mi)
  -- the two boundary maps
  let M : Matrix (Fin cross.length) (Fin edge.length) K := fun c e => inc edge c e
  let B : (Fin reps.length → K) →ₗ[K] (Fin edge.length → K) :=
    { toFun := fun f e => f (fi (e, .pos)) + f (fi (e, .neg))
      map_add' := by intro f g; funext e; simp only [Pi.add_apply]; ring
      map_smul' := by intro a f; funext e; simp only [Pi.smul_apply, smul_eq_mul, RingHom.id_apply]; ring }
  have hmul : ∀ (y : Fin edge.length → K) (z : Nat → K), (∀ e : Fin edge.length, y e = z e) → ∀ c : Fin cross.length,
      M.mulVecLin y c = ∑ e ∈ Finset.range edge.length, inc edge c e * z e := by
    intro y z hyz c
    rw [Matrix.mulVecLin_apply, Matrix.mulVec, dotProduct, ← Fin.sum_univ_eq_sum_range (fun e => inc edge c e * z e)]
    apply Finset.sum_congr rfl
    intro e _
    rw [hyz]
  -- boundaries are cycles
  have hle : LinearMap.range B ≤ LinearMap.ker M.mulVecLin := by
    rintro _ ⟨f, rfl⟩
    rw [LinearMap.mem_ker]
    funext c
    rw [hmul (B f) (fun e => f (fi (e, .pos)) + f (fi (e, .neg))) (fun e => rfl)]
    exact bdry_cycle hC (f := fun d => f (fi d)) (fun d hd => by simp only [hnd d hd]) c c.2
  -- the kernel of B
  have hkB : Module.finrank K (LinearMap.ker B) ≤ 1 := by
    have : LinearMap.ker B ≤ Submodule.span K {(fun _ => 1 : Fin reps.length → K)} := by
      intro f hf
      rw [LinearMap.mem_ker] at hf
      have hsame : ∀ d ∈ D edge, f (fi (rev d)) = f (fi d) := by
        intro d hd
        have h1 := (mem_D.mp hd).1
        have h2 := congrFun hf ⟨d.1, h1⟩
        have h3 : f (fi (d.1, .pos)) + f (fi (d.1, .neg)) = 0 := h2
        rw [CharTwo.add_eq_zero] at h3
        obtain ⟨e, o⟩ := d
        rcases (mem_D.mp hd).2 with h | h
        · simp only at h; subst h; exact h3.symm
        · simp only at h; subst h; exact h3
      have hconst := fun i j : Fin reps.length => const_of_faces hC hcon (f := fun d => f (fi d))
        (fun d hd => by simp only [hnd d hd]) hsame (hr2 reps[i] (List.getElem_mem _)) (hr2 reps[j] (List.getElem_mem _))
      rw [Submodule.mem_span_singleton]
      refine ⟨f ⟨0, by omega⟩, ?_⟩
      funext i
      have := hconst ⟨0, by omega⟩ i
      rw [hrep, hrep] at this
      simp [this]
    refine (Submodule.finrank_mono this).trans ?_
    exact (finrank_span_le_card _).trans (by simp)
  -- the rank of M
  have hrM : cross.length ≤ M.rank + 1 := by
    rw [← Matrix.rank_transpose]
    have hk : Module.finrank K (LinearMap.ker M.transpose.mulVecLin) ≤ 1 := by
      by_cases hn0 : cross.length = 0
      · have h1 := (LinearMap.ker M.transpose.mulVecLin).finrank_le
        rw [Module.finrank_fin_fun] at h1
        omega
      have : LinearMap.ker M.transpose.mulVecLin ≤ Submodule.span K {(fun _ => 1 : Fin cross.length → K)} := by
        intro g hg
        rw [LinearMap.mem_ker] at hg
        let g' : Nat → K := fun c => if h : c < cross.length then g ⟨c, h⟩ else 0
        have hg' : ∀ r ∈ edge, g' r.head = g' r.tail := by
          intro r hr
          obtain ⟨e, he, rfl⟩ := List.getElem_of_mem hr
          have hh := (slot_lt (hC.head e edge[e] (List.getElem?_eq_getElem he))).1
          have ht := (slot_lt (hC.tail e edge[e] (List.getElem?_eq_getElem he))).1
          have h1 := congrFun hg ⟨e, he⟩
          rw [Matrix.mulVecLin_apply, Matrix.mulVec, dotProduct] at h1
          have h2 : ∑ c : Fin cross.length, M.transpose ⟨e, he⟩ c * g c =
              g ⟨edge[e].head, hh⟩ + g ⟨edge[e].tail, ht⟩ := by
            have : ∀ c : Fin cross.length, M.transpose ⟨e, he⟩ c * g c =
                (if c = ⟨edge[e].head, hh⟩ then g c else 0) + (if c = ⟨edge[e].tail, ht⟩ then g c else 0) := by
              intro c
              show inc edge c e * g c = _
              unfold inc hd tl
              rw [getElem!_pos edge e he]
              simp only [Fin.ext_iff, eq_comm (a := (c : Nat))]
              split <;> split <;> ring
            simp only [this, Finset.sum_add_distrib, Finset.sum_ite_eq', Finset.mem_univ, if_true]
          rw [h2] at h1
          have h3 := CharTwo.add_eq_zero.mp h1
          simp only [g', hh, ht, dif_pos]
          exact h3
        rw [Submodule.mem_span_singleton]
        refine ⟨g ⟨0, by omega⟩, ?_⟩
        funext c
        have := const_of_joined hcon hg' (show 0 < cross.length by omega) c.2
        simp only [g', c.2, dif_pos, show 0 < cross.length by omega] at this
        simp [this]
      refine (Submodule.finrank_mono this).trans ?_
      exact (finrank_span_le_card _).trans (by simp)
    have := LinearMap.finrank_range_add_finrank_ker M.transpose.mulVecLin
    rw [Module.finrank_fin_fun] at this
    unfold Matrix.rank
    omega
  -- dimensions
  have d1 := LinearMap.finrank_range_add_finrank_ker B
  have d2 := LinearMap.finrank_range_add_finrank_ker M.mulVecLin
  rw [Module.finrank_fin_fun] at d1 d2
  have d3 : Module.finrank K (LinearMap.range M.mulVecLin) = M.rank := rfl
  have heq : LinearMap.range B = LinearMap.ker M.mulVecLin := by
    apply Submodule.eq_of_le_of_finrank_le hle
    omega
  have hzk : (fun e : Fin edge.length => z e) ∈ LinearMap.ker M.mulVecLin := by
    rw [LinearMap.mem_ker]
    funext c
    rw [hmul _ z (fun e => rfl)]
    exact hz c c.2
  rw [← heq] at hzk
  obtain ⟨f, hf⟩ := hzk
  refine ⟨fun d => f (fi d), fun d hd => by simp only [hnd d hd], ?_⟩
  intro e he
  exact (congrFun hf ⟨e, he⟩).symm

section

variable (hO : Oriented cross edge)

include hC hO in
/-- A set of whole strands is a cycle. -/
theorem strand_cycle {z : Nat → K} (hz : ∀ e, e < edge.length → z (Comps.nx cross edge e) = z e) :
    IsCycle cross edge z := by
  have hI := Comps.injOn_nx hC hO
  intro c _
  have h1 : ∑ e ∈ Finset.range edge.length, inc edge c e * z e =
      ∑ e ∈ Finset.range edge.length, (if (hd edge[e]!).1 = c then z e else 0) +
      ∑ e ∈ Finset.range edge.length, (if (tl edge[e]!).1 = c then z e else 0) := by
    rw [← Finset.sum_add_distrib]
    apply Finset.sum_congr rfl
    intro e _
    unfold inc
    split <;> split <;> ring
  have h2 : ∑ e ∈ Finset.range edge.length, (if (tl edge[e]!).1 = c then z e else 0) =
      ∑ e ∈ Finset.range edge.length, (if (hd edge[e]!).1 = c then z e else 0) := by
    symm
    refine Finset.sum_nbij (Comps.nx cross edge) (fun d hd => hI.maps d hd) (fun x hx y hy e => hI.inj x hx y hy e) ?_ ?_
    · exact Finset.surjOn_of_injOn_of_card_le (Comps.nx cross edge)
        (fun x hx => hI.maps x hx) (fun x hx y hy e => hI.inj x hx y hy e) (Nat.le_refl _)
    · intro e he
      rw [Finset.mem_range] at he
      rw [(Comps.nx_spec hC hO he).2, hz e he]
      rfl
  rw [h1, h2]
  exact CharTwo.add_self_eq_zero _

include hC hO in
/-- Going straight on changes the face on the left by the strand that is crossed. -/
theorem cross_over {f : Dart → K} (hf : ∀ d ∈ D edge, f (nd cross edge d) = f d) {z : Nat → K}
    (hz : ∀ e, e < edge.length → z e = f (e, .pos) + f (e, .neg)) {e : Nat} (he : e < edge.length) :
    f (Comps.nx cross edge e, .pos) = f (e, .pos) + z (eslot cross (turn 3 (hd edge[e]!))) := by
  have hm : ((e, .pos) : Dart) ∈ D edge := mem_D.mpr ⟨he, Or.inl rfl⟩
  have hI := injOn_nd hC
  have hn := hI.maps _ hm
  have hr := rev_mem hn
  have hb := begp_nd hC hm
  have hend : endp edge (e, .pos) = hd edge[e]! := by unfold endp; rw [if_pos rfl]
  rw [hend] at hb
  obtain ⟨nlt, ntl⟩ := Comps.nx_spec hC hO he
  have hx : nd cross edge (rev (nd cross edge (e, .pos))) = (Comps.nx cross edge e, .pos) := by
    apply begp_inj hC (hI.maps _ hr) (mem_D.mpr ⟨nlt, Or.inl rfl⟩)
    rw [begp_nd hC hr, endp_rev hn, hb]
    unfold begp
    rw [if_pos rfl, ntl]
    unfold turn
    simp only [Prod.mk.injEq, true_and]
    omega
  rw [← hx, hf _ hr, ← hf _ hm]
  have hfst : (nd cross edge (e, .pos)).1 = eslot cross (turn 3 (hd edge[e]!)) := by
    rw [← hb]; exact ((begp_mem hC hn).2).symm
  have hlt := (mem_D.mp hn).1
  rw [← hfst, hz _ hlt]
  generalize nd cross edge (e, .pos) = d at hn
  obtain ⟨a, o⟩ := d
  rcases (mem_D.mp hn).2 with h | h
  · simp only at h
    subst h
    simp only [rev, if_true]
    rw [← add_assoc, CharTwo.add_self_eq_zero, zero_add]
  · simp only at h
    subst h
    simp only [rev, reduceCtorEq, if_false]
    rw [add_comm (f (a, .pos)), ← add_assoc, CharTwo.add_self_eq_zero, zero_add]

include hC in
/-- Faces given by a list of sides, as cycles of `nd`. -/
theorem reps_of_plane (hP : PlaneFaces cross edge) : ∃ reps : List Dart, reps.length = cross.length + 2 ∧
    (∀ s ∈ reps, s ∈ D edge) ∧ reps.Pairwise (fun x y => y ∉ cyc (nd cross edge) x) ∧
    (∀ s ∈ D edge, ∃ r ∈ reps, s ∈ cyc (nd cross edge) r) := by
  obtain ⟨reps, r1, r2, r3, r4⟩ := hP
  have r2' : ∀ s ∈ reps, s ∈ D edge := fun s hs => (mem_all rfl s).mp (r2 s hs)
  refine ⟨reps, r1, r2', ?_, ?_⟩
  · refine List.Pairwise.imp_of_mem ?_ r3
    intro x y hx _ h hc
    exact h ((reach_iff hC (r2' x hx)).mpr hc)
  · intro s hs
    obtain ⟨r, hr, h⟩ := r4 s ((mem_all rfl s).mpr hs)
    exact ⟨r, hr, (reach_iff hC (r2' r hr)).mp h⟩

include hC hO in
/-- Two different components of a connected plane diagram meet an even number of times. -/
theorem even_meet {comps : List Comp} (hcon : Connected cross edge) (hP : PlaneFaces cross edge)
    (hK : CompsOf cross edge comps) {c1 c2 : Nat} {A B : Comp} (hA : comps[c1]? = some A)
    (hB : comps[c2]? = some B) (hne : c1 ≠ c2) : 2 ∣ meetCount cross A B := by
  obtain ⟨reps, r1, r2, r3, r4⟩ := reps_of_plane hC hP
  have hmA := List.mem_of_getElem? hA
  have hmB := List.mem_of_getElem? hB
  have hI := Comps.injOn_nx hC hO
  have hiff : ∀ K ∈ comps, ∀ e, e < edge.length → (Comps.nx cross edge e ∈ K.edge ↔ e ∈ K.edge) := by
    intro K hK' e he
    have h1 := hd_mem hC he
    have s1 := slot_eslot h1.1
    have s2 := slot_eslot (turn_mem 2 h1.1)
    rw [h1.2] at s1
    exact (opp_comp hC hO hK hK' s1 s2).symm
  let z : Nat → K := fun e => if e ∈ B.edge then 1 else 0
  obtain ⟨f, f1, f2⟩ := exact hC hcon r1 r2 r3 r4 (strand_cycle hC hO (z := z) (by
    intro e he
    simp only [z, hiff B hmB e he]))
  have hstep : ∀ e, e < edge.length → f (Comps.nx cross edge e, .pos) =
      f (e, .pos) + (if othr cross edge e ∈ B.edge then 1 else 0) := by
    intro e he
    rw [cross_over hC hO f1 f2 he]
    congr 1
    have h1 := hd_mem hC he
    have s1 := slot_eslot (turn_mem 3 h1.1)
    have s2 := othr_slot hC he
    have : eslot cross (turn 3 (hd edge[e]!)) ∈ B.edge ↔ othr cross edge e ∈ B.edge := by
      refine opp_comp hC hO hK hmB s1 ?_
      have e1 : hc edge e = (turn 3 (hd edge[e]!)).1 := rfl
      have e2 : ((turn 3 (hd edge[e]!)).2 + 2) % 4 = (hk edge e + 1) % 4 := by
        unfold turn hk hd
        simp only
        omega
      rw [e2, ← e1]
      exact s2
    simp only [z, this]
  have hsum : ∑ e ∈ A.edge.toFinset, f (Comps.nx cross edge e, .pos) = ∑ e ∈ A.edge.toFinset, f (e, .pos) := by
    refine Finset.sum_nbij (Comps.nx cross edge) ?_ ?_ ?_ (fun _ _ => rfl)
    · intro e he
      rw [List.mem_toFinset] at *
      exact (hiff A hmA e (comp_lt hK hmA he)).mpr he
    · intro x hx y hy e
      exact hI.inj x (Finset.mem_range.mpr (comp_lt hK hmA (List.mem_toFinset.mp hx))) y
        (Finset.mem_range.mpr (comp_lt hK hmA (List.mem_toFinset.mp hy))) e
    · refine Finset.surjOn_of_injOn_of_card_le (Comps.nx cross edge) ?_ ?_ (Nat.le_refl _)
      · intro e he
        rw [Finset.mem_coe, List.mem_toFinset] at *
        exact (hiff A hmA e (comp_lt hK hmA he)).mpr he
      · intro x hx y hy e
        exact hI.inj x (Finset.mem_range.mpr (comp_lt hK hmA (List.mem_toFinset.mp hx))) y
          (Finset.mem_range.mpr (comp_lt hK hmA (List.mem_toFinset.mp hy))) e
  have hzero : ∑ e ∈ A.edge.toFinset, (if othr cross edge e ∈ B.edge then (1 : K) else 0) = 0 := by
    have : ∑ e ∈ A.edge.toFinset, f (Comps.nx cross edge e, .pos) = ∑ e ∈ A.edge.toFinset, f (e, .pos) +
        ∑ e ∈ A.edge.toFinset, (if othr cross edge e ∈ B.edge then (1 : K) else 0) := by
      rw [← Finset.sum_add_distrib]
      apply Finset.sum_congr rfl
      intro e he
      exact hstep e (comp_lt hK hmA (List.mem_toFinset.mp he))
    rw [hsum] at this
    exact left_eq_add.mp this
  have hint := edge_sum hC hO hK hA hB hne (fun _ => 1)
  rw [count_sum, ← List.sum_toFinset _ (comp_nodup hK hmA)] at hint
  have hcast := congrArg (fun v : Int => (v : K)) hint
  simp only [Int.cast_sum, Int.cast_natCast] at hcast
  have : ∑ e ∈ A.edge.toFinset, ((wt cross edge (fun _ => 1) B e : Int) : K) =
      ∑ e ∈ A.edge.toFinset, (if othr cross edge e ∈ B.edge then (1 : K) else 0) := by
    apply Finset.sum_congr rfl
    intro e he
    unfold wt sg
    have h1 := (hc_lt hC (comp_lt hK hmA (List.mem_toFinset.mp he))).1
    rw [List.getElem?_eq_getElem h1]
    split <;> simp
  rw [this, hzero] at hcast
  exact (ZMod.natCast_eq_zero_iff _ _).mp hcast.symm

include hC hO in
/-- The two sides of an edge of a connected plane diagram belong to different faces. -/
theorem sides_differ (hcon : Connected cross edge) (hP : PlaneFaces cross edge) {e : Nat} (he : e < edge.length) :
    (e, .neg) ∉ cyc (nd cross edge) (e, .pos) := by
  obtain ⟨reps, r1, r2, r3, r4⟩ := reps_of_plane hC hP
  have hI := Comps.injOn_nx hC hO
  have hD := injOn_nd hC
  have heR : e ∈ Finset.range edge.length := Finset.mem_range.mpr he
  let z : Nat → K := fun x => if x ∈ cyc (Comps.nx cross edge) e then 1 else 0
  obtain ⟨f, f1, f2⟩ := exact hC hcon r1 r2 r3 r4 (strand_cycle hC hO (z := z) (by
    intro x hx
    have : Comps.nx cross edge x ∈ cyc (Comps.nx cross edge) e ↔ x ∈ cyc (Comps.nx cross edge) e := by
      rw [hI.mem_cyc heR, hI.mem_cyc heR]
      constructor
      · rintro h
        have hxR : x ∈ Finset.range edge.length := Finset.mem_range.mpr hx
        exact reach_trans h (hI.reach_symm hxR ⟨1, rfl⟩)
      · rintro ⟨k, rfl⟩
        exact ⟨k + 1, Function.iterate_succ_apply' _ _ _⟩
    simp only [z, this]))
  have h1 : z e = 1 := by
    have := hI.self_mem_cyc heR
    simp [z, this]
  intro hmem
  have hm : ((e, .pos) : Dart) ∈ D edge := mem_D.mpr ⟨he, Or.inl rfl⟩
  rw [hD.mem_cyc hm] at hmem
  obtain ⟨k, hk⟩ := hmem
  have hit : ∀ k, f ((nd cross edge)^[k] (e, .pos)) = f (e, .pos) := by
    intro k
    induction k with
    | zero => rfl
    | succ k ih => rw [Function.iterate_succ_apply', f1 _ (hD.iterate_mem hm k), ih]
  have h2 := f2 e he
  rw [← hk, hit k, CharTwo.add_self_eq_zero, h1] at h2
  exact one_ne_zero h2

include hC hO in
/-- No face of a connected plane diagram has more sides than there are edges. -/
theorem per_le_edges (hcon : Connected cross edge) (hP : PlaneFaces cross edge) {d : Dart} (hd' : d ∈ D edge) :
    per (nd cross edge) d ≤ edge.length := by
  have hD := injOn_nd hC
  have hn : ((cyc (nd cross edge) d).map Prod.fst).Nodup := by
    apply List.Nodup.map_on _ (cyc_nodup _ _)
    rintro ⟨x, o⟩ hx ⟨y, o'⟩ hy e
    simp only at e
    subst e
    have mx := hD.cyc_subset hd' hx
    have my := hD.cyc_subset hd' hy
    have key : ∀ x : Nat, (x, Or.pos) ∈ cyc (nd cross edge) d → (x, Or.neg) ∈ cyc (nd cross edge) d → False := by
      intro x h1 h2
      have mx := hD.cyc_subset hd' h1
      rw [hD.mem_cyc hd'] at h1 h2
      apply sides_differ hC hO hcon hP (mem_D.mp mx).1
      rw [hD.mem_cyc mx]
      exact reach_trans (hD.reach_symm hd' h1) h2
    have hx' := (mem_D.mp mx).2
    have hy' := (mem_D.mp my).2
    simp only at hx' hy'
    rcases hx' with rfl | rfl <;> rcases hy' with rfl | rfl
    · rfl
    · exact (key x hx hy).elim
    · exact (key x hy hx).elim
    · rfl
  have hsub : (cyc (nd cross edge) d).map Prod.fst ⊆ List.range edge.length := by
    intro x hx
    obtain ⟨y, hy, rfl⟩ := List.mem_map.mp hx
    exact List.mem_range.mpr (mem_D.mp (hD.cyc_subset hd' hy)).1
  have := (hn.subperm hsub).length_le
  rwa [List.length_map, cyc_length, List.length_range] at this

end

end

end Planar

end Plc
