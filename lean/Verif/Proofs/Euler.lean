import Verif.Proofs.CycleCount
import Verif.Spec.PlaneDiagram

/-! A connected diagram on which cycles bound is plane. -/

namespace Plc.Planar

open Plc.Core Plc.Cmp Plc.Places Plc.Orbit Plc.Faces Plc.Strands

/-- A set of faces, modulo 2, as a function on sides. -/
def FaceFn (cross : List Cross) (edge : List Edge) (f : Dart → K) : Prop := ∀ d ∈ D edge, f (nd cross edge d) = f d

/-- Every cycle is the boundary of a set of faces. -/
def Exact (cross : List Cross) (edge : List Edge) : Prop := ∀ z : Nat → K, IsCycle cross edge z →
  ∃ f, FaceFn cross edge f ∧ ∀ e, e < edge.length → z e = f (e, .pos) + f (e, .neg)

section

variable {cross : List Cross} {edge : List Edge} (hC : Consistent cross edge)

include hC in
theorem exact_of_plane (hcon : Connected cross edge) (hP : PlaneFaces cross edge) : Exact cross edge := by
  intro z hz
  obtain ⟨reps, r1, r2, r3, r4⟩ := reps_of_plane hC hP
  exact exact hC hcon r1 r2 r3 r4 hz

theorem _root_.Plc.PlaneDiagram.exact {cross : List Cross} {edge : List Edge} (h : PlaneDiagram cross edge) : Exact cross edge :=
  exact_of_plane h.consistent h.connected h.plane

include hC in
/-- The number of the face of a side. -/
theorem face_index {reps : List Dart} (hR : Reps (nd cross edge) (D edge) reps) (hne : reps ≠ []) :
    ∃ fi : Dart → Fin reps.length, (∀ d ∈ D edge, fi (nd cross edge d) = fi d) ∧ (∀ i : Fin reps.length, fi reps[i] = i) ∧
      (∀ d ∈ D edge, d ∈ cyc (nd cross edge) reps[fi d]) ∧
      ∀ d ∈ D edge, ∀ d' ∈ D edge, fi d = fi d' → d' ∈ cyc (nd cross edge) d := by
  have hI := injOn_nd hC
  have hpos : 0 < reps.length := List.length_pos_iff.mpr hne
  have hex : ∀ d : Dart, ∃ i : Fin reps.length, d ∈ D edge → d ∈ cyc (nd cross edge) reps[i] := by
    intro d
    by_cases h : d ∈ D edge
    · obtain ⟨r, h1, h2⟩ := hR.cover d h
      obtain ⟨i, hi, rfl⟩ := List.getElem_of_mem h1
      exact ⟨⟨i, hi⟩, fun _ => h2⟩
    · exact ⟨⟨0, hpos⟩, fun h' => absurd h' h⟩
  choose fi hfi using hex
  have huniq : ∀ (i j : Fin reps.length) d, d ∈ cyc (nd cross edge) reps[i] → d ∈ cyc (nd cross edge) reps[j] → i = j := by
    intro i j d h1 h2
    have hp := List.pairwise_iff_getElem.mp hR.sep
    have mi := hR.mem reps[i] (List.getElem_mem _)
    have mj := hR.mem reps[j] (List.getElem_mem _)
    rcases Nat.lt_trichotomy i.val j.val with h | h | h
    · exact absurd (hI.cyc_meet mi mj h1 h2) (hp i j i.2 j.2 h)
    · exact Fin.ext h
    · exact absurd (hI.cyc_meet mj mi h2 h1) (hp j i j.2 i.2 h)
  refine ⟨fi, ?_, ?_, fun d hd => hfi d hd, ?_⟩
  · intro d hd
    apply huniq _ _ (nd cross edge d) (hfi _ (hI.maps d hd))
    have h1 := hfi d hd
    have hmr : reps[fi d] ∈ D edge := hR.mem reps[fi d] (List.getElem_mem _)
    rw [hI.mem_cyc hmr] at h1 ⊢
    obtain ⟨k, hk⟩ := h1
    exact ⟨k + 1, by rw [Function.iterate_succ_apply', hk]⟩
  · intro i
    have mi := hR.mem reps[i] (List.getElem_mem _)
    exact huniq _ _ reps[i] (hfi _ mi) (hI.self_mem_cyc mi)
  · intro d hd d' hd' he
    have hmr : reps[fi d] ∈ D edge := hR.mem reps[fi d] (List.getElem_mem _)
    have h1 := hfi d hd
    have h2 := hfi d' hd'
    rw [← he] at h2
    rw [hI.mem_cyc hmr] at h1 h2
    rw [hI.mem_cyc hd]
    obtain ⟨k, hk⟩ := hI.reach_symm hmr h1
    obtain ⟨j, hj⟩ := h2
    exact ⟨j + k, by rw [Function.iterate_add_apply, hk, hj]⟩

theorem FaceFn.cyc {f : Dart → K} (hf : FaceFn cross edge f) (hC : Consistent cross edge) {d d' : Dart} (hd : d ∈ D edge)
    (h : d' ∈ Orbit.cyc (nd cross edge) d) : f d' = f d := by
  have hI := injOn_nd hC
  obtain ⟨k, rfl⟩ := (hI.mem_cyc hd).mp h
  clear h
  induction k with
  | zero => rfl
  | succ k ih => rw [Function.iterate_succ_apply', hf _ (hI.iterate_mem hd k), ih]

include hC in
/-- A set consisting of one face. -/
theorem face_ind {d : Dart} (hd : d ∈ D edge) : ∃ f, FaceFn cross edge f ∧ f d = 1 ∧
    ∀ d' ∈ D edge, d' ∉ cyc (nd cross edge) d → f d' = 0 := by
  have hI := injOn_nd hC
  refine ⟨fun x => if x ∈ cyc (nd cross edge) d then 1 else 0, ?_, if_pos (hI.self_mem_cyc hd), fun d' _ h => if_neg h⟩
  intro x hx
  have : nd cross edge x ∈ cyc (nd cross edge) d ↔ x ∈ cyc (nd cross edge) d := by
    rw [hI.mem_cyc hd, hI.mem_cyc hd]
    constructor
    · rintro ⟨k, hk⟩
      obtain ⟨j, hj⟩ := hI.reach_symm hx ⟨1, rfl⟩
      exact ⟨j + k, by rw [Function.iterate_add_apply, hk]; exact hj⟩
    · rintro ⟨k, hk⟩
      exact ⟨k + 1, by rw [Function.iterate_succ_apply', hk]⟩
  simp only [this]

include hC in
/-- Sides on which all sets of faces agree are on the same face. -/
theorem same_face {d d' : Dart} (hd : d ∈ D edge) (hd' : d' ∈ D edge) (h : ∀ f, FaceFn cross edge f → f d' = f d) :
    d' ∈ cyc (nd cross edge) d := by
  obtain ⟨f, f1, f2, f3⟩ := face_ind hC hd
  by_contra hn
  have := h f f1
  rw [f2, f3 d' hd' hn] at this
  exact absurd this (by decide)

include hC in
/-- A connected diagram on which cycles bound has two more faces than crossings. -/
theorem reps_of_exact (hcon : Connected cross edge) (hne : cross ≠ []) (hE : Exact cross edge) {reps : List Dart}
    (hR : Reps (nd cross edge) (D edge) reps) : reps.length = cross.length + 2 := by
  have hm := hC.count
  have hV : 0 < cross.length := List.length_pos_iff.mpr hne
  have hr0 : reps ≠ [] := by
    rintro rfl
    obtain ⟨r, h, _⟩ := hR.cover (0, .pos) (mem_D.mpr ⟨by simp only; omega, Or.inl rfl⟩)
    simp at h
  obtain ⟨fi, hnd, hrep, hfi, -⟩ := face_index hC hR hr0
  have hpos : 0 < reps.length := List.length_pos_iff.mpr hr0
  let M : Matrix (Fin cross.length) (Fin edge.length) K := fun c e => inc edge c e
  let B : (Fin reps.length → K) →ₗ[K] (Fin edge.length → K) :=
    { toFun := fun f e => f (fi (e, .pos)) + f (fi (e, .neg))
      map_add' := by intro f g; funext e; simp only [Pi.add_apply]; ring
      map_smul' := by intro a f; funext e; simp only [Pi.smul_apply, smul_eq_mul, RingHom.id_apply]; ring }
  have hmul : ∀ (y : Fin edge.length → K) (z : Nat → K), (∀ e : Fin edge.length, y e = z e) → ∀ c : Fin cross.length,
      M.mulVecLin y c = ∑ e ∈ Finset.range edge.length, inc edge c e * z e := by
    intro y z hyz c
    rw [Matrix.mulVecLin_apply, Matrix.mulVec, dotProduct, ← Fin.sum_univ_eq_sum_range (fun e => inc edge c e * z e)]
    apply Finset.sum_congr rfl
    intro e _
    rw [hyz]
  have hle : LinearMap.range B ≤ LinearMap.ker M.mulVecLin := by
    rintro _ ⟨f, rfl⟩
    rw [LinearMap.mem_ker]
    funext c
    rw [hmul (B f) (fun e => f (fi (e, .pos)) + f (fi (e, .neg))) (fun e => rfl)]
    exact bdry_cycle hC (f := fun d => f (fi d)) (fun d hd => by simp only [hnd d hd]) c c.2
  have hge : LinearMap.ker M.mulVecLin ≤ LinearMap.range B := by
    intro y hy
    rw [LinearMap.mem_ker] at hy
    let z : Nat → K := fun e => if h : e < edge.length then y ⟨e, h⟩ else 0
    have hyz : ∀ e : Fin edge.length, y e = z e := fun e => by simp only [z, e.2, dif_pos]
    obtain ⟨f, f1, f2⟩ := hE z (by
      intro c hc
      rw [← hmul y z hyz ⟨c, hc⟩, hy]
      rfl)
    have hff : ∀ d ∈ D edge, f d = f reps[fi d] := by
      intro d hd
      exact f1.cyc hC (hR.mem _ (List.getElem_mem _)) (hfi d hd)
    refine ⟨fun i => f reps[i], ?_⟩
    funext e
    rw [hyz, f2 e e.2, hff (e, .pos) (mem_D.mpr ⟨e.2, Or.inl rfl⟩), hff (e, .neg) (mem_D.mpr ⟨e.2, Or.inr rfl⟩)]
    rfl
  have hkB : LinearMap.ker B = Submodule.span K {(fun _ => 1 : Fin reps.length → K)} := by
    apply le_antisymm
    · intro f hf
      rw [LinearMap.mem_ker] at hf
      have hsame : ∀ d ∈ D edge, f (fi (rev d)) = f (fi d) := by
        intro d hd
        have h1 := (mem_D.mp hd).1
        have h2 := congrFun hf ⟨d.1, h1⟩
        have h3 : f (fi (d.1, .pos)) + f (fi (d.1, .neg)) = 0 := h2
        rw [CharTwo.add_eq_zero] at h3
        obtain ⟨e, o⟩ := d
        rcases (mem_D.mp hd).2 with h | h
        · simp only at h; subst h; exact h3.symm
        · simp only at h; subst h; exact h3
      have hconst := fun i j : Fin reps.length => const_of_faces hC hcon (f := fun d => f (fi d))
        (fun d hd => by simp only [hnd d hd]) hsame (hR.mem reps[i] (List.getElem_mem _)) (hR.mem reps[j] (List.getElem_mem _))
      rw [Submodule.mem_span_singleton]
      refine ⟨f ⟨0, hpos⟩, ?_⟩
      funext i
      have := hconst ⟨0, hpos⟩ i
      rw [hrep, hrep] at this
      simp [this]
    · rw [Submodule.span_singleton_le_iff_mem, LinearMap.mem_ker]
      funext e
      exact CharTwo.add_self_eq_zero 1
  have hkM : LinearMap.ker M.transpose.mulVecLin = Submodule.span K {(fun _ => 1 : Fin cross.length → K)} := by
    have hsum : ∀ (g : Fin cross.length → K) (e : Nat) (he : e < edge.length) (hh : edge[e].head < cross.length)
        (ht : edge[e].tail < cross.length), ∑ c : Fin cross.length, M.transpose ⟨e, he⟩ c * g c =
          g ⟨edge[e].head, hh⟩ + g ⟨edge[e].tail, ht⟩ := by
      intro g e he hh ht
      have : ∀ c : Fin cross.length, M.transpose ⟨e, he⟩ c * g c =
          (if c = ⟨edge[e].head, hh⟩ then g c else 0) + (if c = ⟨edge[e].tail, ht⟩ then g c else 0) := by
        intro c
        show inc edge c e * g c = _
        unfold inc hd tl
        rw [getElem!_pos edge e he]
        simp only [Fin.ext_iff, eq_comm (a := (c : Nat))]
        split <;> split <;> ring
      simp only [this, Finset.sum_add_distrib, Finset.sum_ite_eq', Finset.mem_univ, if_true]
    have hends : ∀ e (he : e < edge.length), edge[e].head < cross.length ∧ edge[e].tail < cross.length := fun e he =>
      ⟨(slot_lt (hC.head e edge[e] (List.getElem?_eq_getElem he))).1, (slot_lt (hC.tail e edge[e] (List.getElem?_eq_getElem he))).1⟩
    apply le_antisymm
    · intro g hg
      rw [LinearMap.mem_ker] at hg
      let g' : Nat → K := fun c => if h : c < cross.length then g ⟨c, h⟩ else 0
      have hg' : ∀ r ∈ edge, g' r.head = g' r.tail := by
        intro r hr
        obtain ⟨e, he, rfl⟩ := List.getElem_of_mem hr
        obtain ⟨hh, ht⟩ := hends e he
        have h1 := congrFun hg ⟨e, he⟩
        rw [Matrix.mulVecLin_apply, Matrix.mulVec, dotProduct, hsum g e he hh ht] at h1
        have h3 := CharTwo.add_eq_zero.mp h1
        simp only [g', hh, ht, dif_pos]
        exact h3
      rw [Submodule.mem_span_singleton]
      refine ⟨g ⟨0, hV⟩, ?_⟩
      funext c
      have := const_of_joined hcon hg' hV c.2
      simp only [g', c.2, dif_pos, hV] at this
      simp [this]
    · rw [Submodule.span_singleton_le_iff_mem, LinearMap.mem_ker]
      funext e
      rw [Matrix.mulVecLin_apply, Matrix.mulVec, dotProduct]
      have := hsum (fun _ => 1) e e.2 (hends e e.2).1 (hends e e.2).2
      exact this.trans (CharTwo.add_self_eq_zero 1)
  have heq : LinearMap.range B = LinearMap.ker M.mulVecLin := le_antisymm hle hge
  have d1 := LinearMap.finrank_range_add_finrank_ker B
  have d2 := LinearMap.finrank_range_add_finrank_ker M.mulVecLin
  have d4 := LinearMap.finrank_range_add_finrank_ker M.transpose.mulVecLin
  have o1 : Module.finrank K (LinearMap.ker B) = 1 := by
    rw [hkB]
    exact finrank_span_singleton (fun h => absurd (congrFun h ⟨0, hpos⟩) (one_ne_zero (α := K)))
  have o2 : Module.finrank K (LinearMap.ker M.transpose.mulVecLin) = 1 := by
    rw [hkM]
    exact finrank_span_singleton (fun h => absurd (congrFun h ⟨0, hV⟩) (one_ne_zero (α := K)))
  rw [Module.finrank_fin_fun] at d1 d2 d4
  have d3 : Module.finrank K (LinearMap.range M.mulVecLin) = M.rank := rfl
  have d5 : Module.finrank K (LinearMap.range M.transpose.mulVecLin) = M.transpose.rank := rfl
  rw [Matrix.rank_transpose] at d5
  rw [heq] at d1
  omega

include hC in
theorem planeFaces_of_exact (hcon : Connected cross edge) (hne : cross ≠ []) (hE : Exact cross edge) : PlaneFaces cross edge := by
  obtain ⟨R, hR⟩ := exists_reps (injOn_nd hC)
  have := reps_of_exact hC hcon hne hE hR
  refine ⟨R, this, fun s hs => (mem_all rfl s).mpr (hR.mem s hs), ?_, ?_⟩
  · refine List.Pairwise.imp_of_mem ?_ hR.sep
    intro x y hx _ h
    rwa [reach_iff hC (hR.mem x hx)]
  · intro s hs
    obtain ⟨r, q1, q2⟩ := hR.cover s ((mem_all rfl s).mp hs)
    exact ⟨r, q1, (reach_iff hC (hR.mem r q1)).mpr q2⟩

end

end Plc.Planar
