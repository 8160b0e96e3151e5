import Verif.Props.Planar
import Verif.Spec.PlaneDiagram
import Verif.Proofs.Shape

/-! Counting cycles before and after a change. -/

namespace Plc.Orbit

open Function

variable {α β : Type} [DecidableEq α] [DecidableEq β]

/-- One point from each cycle. -/
structure Reps (f : α → α) (S : Finset α) (reps : List α) : Prop where
  mem : ∀ x ∈ reps, x ∈ S
  sep : reps.Pairwise (fun x y => y ∉ cyc f x)
  cover : ∀ x ∈ S, ∃ r ∈ reps, x ∈ cyc f r

theorem Reps.length_eq {f : α → α} {S : Finset α} (hf : InjOn f S) {A B : List α} (hA : Reps f S A) (hB : Reps f S B) :
    A.length = B.length :=
  le_antisymm (Faces.sep_le hf hA.mem hB.mem hA.sep hB.cover) (Faces.sep_le hf hB.mem hA.mem hB.sep hA.cover)

theorem exists_reps {f : α → α} {S : Finset α} (hf : InjOn f S) : ∃ reps, Reps f S reps := by
  have : ∀ l : List α, (∀ x ∈ l, x ∈ S) → ∃ reps : List α, (∀ x ∈ reps, x ∈ S) ∧ reps.Pairwise (fun x y => y ∉ cyc f x) ∧
      ∀ x ∈ l, ∃ r ∈ reps, x ∈ cyc f r := by
    intro l
    induction l with
    | nil => exact fun _ => ⟨[], by simp, by simp, by simp⟩
    | cons x l ih =>
      intro h
      obtain ⟨reps, r1, r2, r3⟩ := ih (fun y hy => h y (by simp [hy]))
      have hx := h x (by simp)
      by_cases hc : ∃ r ∈ reps, x ∈ cyc f r
      · refine ⟨reps, r1, r2, ?_⟩
        intro y hy
        rcases List.mem_cons.mp hy with rfl | hy
        · exact hc
        · exact r3 y hy
      · refine ⟨x :: reps, ?_, ?_, ?_⟩
        · intro y hy
          rcases List.mem_cons.mp hy with rfl | hy
          · exact hx
          · exact r1 y hy
        · refine List.pairwise_cons.mpr ⟨fun y hy hxy => hc ⟨y, hy, ?_⟩, r2⟩
          exact (hf.mem_cyc (r1 y hy)).mpr (hf.reach_symm hx ((hf.mem_cyc hx).mp hxy))
        · intro y hy
          rcases List.mem_cons.mp hy with rfl | hy
          · exact ⟨y, by simp, hf.self_mem_cyc hx⟩
          · obtain ⟨r, q1, q2⟩ := r3 y hy
            exact ⟨r, by simp [q1], q2⟩
  obtain ⟨reps, r1, r2, r3⟩ := this S.toList (by simp)
  exact ⟨reps, r1, r2, fun x hx => r3 x (by simpa using hx)⟩

/-- `f` on `S` is what one sees of `g` on `T` when looking only at the images of points of `S`. -/
structure Return (f : α → α) (S : Finset α) (g : β → β) (T : Finset β) (ι : α → β) : Prop where
  maps : ∀ s ∈ S, ι s ∈ T
  inj : ∀ s ∈ S, ∀ s' ∈ S, ι s = ι s' → s = s'
  back : ∀ s ∈ S, ∃ k, g^[k + 1] (ι s) = ι (f s) ∧ ∀ i, 0 < i → i ≤ k → ∀ s' ∈ S, g^[i] (ι s) ≠ ι s'

theorem Return.cyc_iff {f : α → α} {S : Finset α} {g : β → β} {T : Finset β} {ι : α → β} (h : Return f S g T ι)
    (hf : InjOn f S) (hg : InjOn g T) {s s' : α} (hs : s ∈ S) (hs' : s' ∈ S) : ι s' ∈ cyc g (ι s) ↔ s' ∈ cyc f s := by
  rw [hg.mem_cyc (h.maps s hs), hf.mem_cyc hs]
  constructor
  · rintro ⟨m, hm⟩
    induction m using Nat.strong_induction_on generalizing s with
    | _ m ih =>
      obtain ⟨k, h1, h2⟩ := h.back s hs
      rcases Nat.eq_zero_or_pos m with rfl | hpos
      · exact ⟨0, h.inj s hs s' hs' hm⟩
      · by_cases hk : m ≤ k
        · exact absurd hm (h2 m hpos hk s' hs')
        · have : g^[m - (k + 1)] (ι (f s)) = ι s' := by
            rw [← h1, ← iterate_add_apply, show m - (k + 1) + (k + 1) = m by omega, hm]
          obtain ⟨j, hj⟩ := ih (m - (k + 1)) (by omega) (hf.maps s hs) this
          exact ⟨j + 1, by rw [iterate_succ_apply]; exact hj⟩
  · rintro ⟨j, rfl⟩
    clear hs'
    induction j with
    | zero => exact ⟨0, rfl⟩
    | succ j ih =>
      obtain ⟨m, hm⟩ := ih
      obtain ⟨k, h1, -⟩ := h.back _ (hf.iterate_mem hs j)
      refine ⟨k + 1 + m, ?_⟩
      rw [iterate_add_apply, hm, h1, iterate_succ_apply']

theorem Return.reps {f : α → α} {S : Finset α} {g : β → β} {T : Finset β} {ι : α → β} (h : Return f S g T ι)
    (hf : InjOn f S) (hg : InjOn g T) {R : List α} (hR : Reps f S R) {X : List β} (hX : ∀ x ∈ X, x ∈ T)
    (hsep : X.Pairwise (fun x y => y ∉ cyc g x)) (hnew : ∀ x ∈ X, ∀ s ∈ S, x ∉ cyc g (ι s))
    (hcov : ∀ t ∈ T, (∃ s ∈ S, t ∈ cyc g (ι s)) ∨ ∃ x ∈ X, t ∈ cyc g x) : Reps g T (R.map ι ++ X) where
  mem := by
    intro x hx
    rcases List.mem_append.mp hx with hx | hx
    · obtain ⟨r, hr, rfl⟩ := List.mem_map.mp hx
      exact h.maps r (hR.mem r hr)
    · exact hX x hx
  sep := by
    rw [List.pairwise_append]
    refine ⟨?_, hsep, ?_⟩
    · rw [List.pairwise_map]
      refine List.Pairwise.imp_of_mem ?_ hR.sep
      intro a b ha hb hab
      rwa [h.cyc_iff hf hg (hR.mem a ha) (hR.mem b hb)]
    · intro a ha b hb
      obtain ⟨r, hr, rfl⟩ := List.mem_map.mp ha
      exact hnew b hb r (hR.mem r hr)
  cover := by
    intro t ht
    rcases hcov t ht with ⟨s, hs, hts⟩ | ⟨x, hx, htx⟩
    · obtain ⟨r, hr, hsr⟩ := hR.cover s hs
      refine ⟨ι r, by simpa using .inl ⟨r, hr, rfl⟩, ?_⟩
      have h1 := (h.cyc_iff hf hg (hR.mem r hr) hs).mpr hsr
      rw [hg.mem_cyc (h.maps r (hR.mem r hr))] at h1 ⊢
      exact reach_trans h1 ((hg.mem_cyc (h.maps s hs)).mp hts)
    · exact ⟨x, by simp [hx], htx⟩

end Plc.Orbit

namespace Plc.Planar

open Plc.Core Plc.Cmp Plc.Places Plc.Orbit Plc.Faces

variable {cross : List Cross} {edge : List Edge}

/-- The next corner of a face: along the edge, then to the right. -/
def fnext (cross : List Cross) (edge : List Edge) (p : Nat × Nat) : Nat × Nat := turn 3 (oth cross edge p)

theorem injOn_fnext (hC : Consistent cross edge) : InjOn (fnext cross edge) (P cross) where
  maps := fun p hp => turn_mem 3 (oth_mem hC hp)
  inj := fun p hp q hq h => Shape.oth_inj hC hp hq (Shape.turn_inj (oth_mem hC hp) (oth_mem hC hq) h)

theorem return_begp (hC : Consistent cross edge) : Return (nd cross edge) (D edge) (fnext cross edge) (P cross) (begp edge) where
  maps := fun d hd => (begp_mem hC hd).1
  inj := fun d hd d' hd' h => begp_inj hC hd hd' h
  back := fun d hd => ⟨0, by
    rw [Function.iterate_succ_apply, Function.iterate_zero, id, Shape.begp_nd_oth hC hd]; rfl, by omega⟩

theorem planeFaces_iff (hC : Consistent cross edge) :
    PlaneFaces cross edge ↔ ∃ reps, Reps (fnext cross edge) (P cross) reps ∧ reps.length = cross.length + 2 := by
  have move : ∀ R, Reps (nd cross edge) (D edge) R → Reps (fnext cross edge) (P cross) (R.map (begp edge)) := by
    intro R hR
    have := (return_begp hC).reps (injOn_nd hC) (injOn_fnext hC) hR (X := []) (by simp) (by simp) (by simp) (by
      intro p hp
      refine .inl ⟨dartAt cross edge p, dartAt_mem hC hp, ?_⟩
      rw [begp_dartAt hC hp]
      exact (injOn_fnext hC).self_mem_cyc hp)
    rwa [List.append_nil] at this
  constructor
  · intro h
    obtain ⟨reps, r1, r2, r3, r4⟩ := reps_of_plane hC h
    exact ⟨_, move reps ⟨r2, r3, r4⟩, by rw [List.length_map, r1]⟩
  · rintro ⟨reps, h1, h2⟩
    obtain ⟨R, hR⟩ := exists_reps (injOn_nd hC)
    have := (move R hR).length_eq (injOn_fnext hC) h1
    rw [List.length_map] at this
    refine ⟨R, by omega, fun s hs => (mem_all rfl s).mpr (hR.mem s hs), ?_, ?_⟩
    · refine List.Pairwise.imp_of_mem ?_ hR.sep
      intro x y hx _ h
      rwa [reach_iff hC (hR.mem x hx)]
    · intro s hs
      obtain ⟨r, q1, q2⟩ := hR.cover s ((mem_all rfl s).mp hs)
      exact ⟨r, q1, (reach_iff hC (hR.mem r q1)).mpr q2⟩

theorem planeFaces_iff_all (hC : Consistent cross edge) {reps : List (Nat × Nat)} (h : Reps (fnext cross edge) (P cross) reps) :
    PlaneFaces cross edge ↔ reps.length = cross.length + 2 := by
  rw [planeFaces_iff hC]
  constructor
  · rintro ⟨r, r1, r2⟩
    rw [h.length_eq (injOn_fnext hC) r1, r2]
  · exact fun hl => ⟨reps, h, hl⟩

end Plc.Planar
