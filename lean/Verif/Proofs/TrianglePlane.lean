import Verif.Proofs.HeadsSwapped

/-! Moving a strand across a crossing keeps a diagram plane: the faces outside the triangle are the same. -/

namespace Plc.Orbit

variable {α β : Type} [DecidableEq α] [DecidableEq β]

/-- A first-return map of an injective map is injective. -/
theorem Return.injOn {f : α → α} {S : Finset α} {g : β → β} {T : Finset β} {ι : α → β} (h : Return f S g T ι) (hg : InjOn g T)
    (hm : ∀ s ∈ S, f s ∈ S) : InjOn f S where
  maps := hm
  inj := by
    have key : ∀ s ∈ S, ∀ s' ∈ S, ∀ k k', k ≤ k' → g^[k + 1] (ι s) = g^[k' + 1] (ι s') →
        (∀ i, 0 < i → i ≤ k' → ∀ t ∈ S, g^[i] (ι s') ≠ ι t) → s = s' := by
      intro s hs s' hs' k k' hk he hb
      rw [show k' + 1 = (k + 1) + (k' - k) by omega, Function.iterate_add_apply (f := g) (m := k + 1) (n := k' - k)] at he
      have := hg.iterate_inj (k + 1) (h.maps s hs) (hg.iterate_mem (h.maps s' hs') _) he
      rcases Nat.eq_zero_or_pos (k' - k) with q | q
      · rw [q] at this
        exact h.inj s hs s' hs' this
      · exact absurd this.symm (hb _ q (by omega) s hs)
    intro s hs s' hs' e
    obtain ⟨k, a1, a2⟩ := h.back s hs
    obtain ⟨k', b1, b2⟩ := h.back s' hs'
    rw [e, ← b1] at a1
    rcases Nat.le_total k k' with q | q
    · exact key s hs s' hs' k k' q a1 b2
    · exact (key s' hs' s hs k' k q a1.symm a2).symm

end Plc.Orbit

namespace Plc.Triangle

open Plc.Core Plc.Cmp Plc.Places Plc.Orbit Plc.Faces Plc.Planar

/-- A triangle with corners at the crossings `X 0`, `X 1`, `X 2`: the side from `X j` to `X (j + 1)` leaves at place `k j + 3` and
arrives at place `k (j + 1)`. After the move the end which was at place `p` is at place `π p`. -/
structure Ends (cross : List Cross) (edge : List Edge) (cross' : List Cross) (edge' : List Edge) (X k : Fin 3 → Nat)
    (π : Nat × Nat → Nat × Nat) : Prop where
  hC : Consistent cross edge
  hC' : Consistent cross' edge'
  len : cross'.length = cross.length
  hX : ∀ j, X j < cross.length
  inj : ∀ i j, X i = X j → i = j
  inner : ∀ j, oth cross edge (X j, (k j + 3) % 4) = (X (j + 1), k (j + 1) % 4)
  oth' : ∀ p ∈ P cross, oth cross' edge' (π p) = π (oth cross edge p)
  pq : ∀ j, π (X (j + 1), k (j + 1) % 4) = (X j, (k j + 1) % 4)
  pu : ∀ j, π (X j, (k j + 1) % 4) = (X (j + 1), k (j + 1) % 4)
  pp : ∀ j, π (X j, (k j + 3) % 4) = (X (j + 1), (k (j + 1) + 2) % 4)
  pv : ∀ j, π (X (j + 1), (k (j + 1) + 2) % 4) = (X j, (k j + 3) % 4)
  out : ∀ p ∈ P cross, (∀ j, p.1 ≠ X j) → π p = p

theorem succ3 (j : Fin 3) : j + 2 + 1 = j := by revert j; decide

theorem succ3' (j : Fin 3) : j + 1 + 2 = j := by revert j; decide

theorem succ2 (j : Fin 3) : j + 1 + 1 = j + 2 := by revert j; decide

namespace Ends

variable {cross cross' : List Cross} {edge edge' : List Edge} {X k : Fin 3 → Nat} {π : Nat × Nat → Nat × Nat}

theorem mem (h : Ends cross edge cross' edge' X k π) (j : Fin 3) (a : Nat) : ((X j, a % 4) : Nat × Nat) ∈ P cross :=
  mem_P.mpr ⟨h.hX j, Nat.mod_lt _ (by decide)⟩

theorem sameP (h : Ends cross edge cross' edge' X k π) : P cross' = P cross := by
  unfold P
  rw [h.len]

theorem place (h : Ends cross edge cross' edge' X k π) {p : Nat × Nat} (hp : p ∈ P cross) : (∀ j, p.1 ≠ X j) ∨
    ∃ j, p = (X j, k j % 4) ∨ p = (X j, (k j + 1) % 4) ∨ p = (X j, (k j + 2) % 4) ∨ p = (X j, (k j + 3) % 4) := by
  by_cases q : ∃ j, p.1 = X j
  · obtain ⟨j, q⟩ := q
    have := (mem_P.mp hp).2
    obtain ⟨a, b⟩ := p
    simp only at q this
    subst q
    refine .inr ⟨j, ?_⟩
    simp only [Prod.mk.injEq, true_and]
    omega
  · push Not at q
    exact .inl q

theorem pi_mem (h : Ends cross edge cross' edge' X k π) {p : Nat × Nat} (hp : p ∈ P cross) : π p ∈ P cross ∧ π (π p) = p := by
  rcases h.place hp with q | ⟨j, rfl | rfl | rfl | rfl⟩
  · rw [h.out p hp q]
    exact ⟨hp, h.out p hp q⟩
  · have := h.pq (j + 2)
    have t := h.pu (j + 2)
    rw [succ3] at this t
    rw [this]
    exact ⟨h.mem _ _, t⟩
  · rw [h.pu]
    exact ⟨h.mem _ _, h.pq j⟩
  · have := h.pv (j + 2)
    have t := h.pp (j + 2)
    rw [succ3] at this t
    rw [this]
    exact ⟨h.mem _ _, t⟩
  · rw [h.pp]
    exact ⟨h.mem _ _, h.pv j⟩

/-- The places which are not on the sides of the triangle. -/
def outer (cross : List Cross) (X k : Fin 3 → Nat) : Finset (Nat × Nat) :=
  (P cross).filter (fun p => ∀ j, p ≠ (X j, k j % 4) ∧ p ≠ (X j, (k j + 3) % 4))

/-- From one of these places to the next. -/
def skip (cross : List Cross) (edge : List Edge) (X k : Fin 3 → Nat) (p : Nat × Nat) : Nat × Nat :=
  if fnext cross edge p ∈ outer cross X k then fnext cross edge p else fnext cross edge (fnext cross edge p)

theorem tu (c a : Nat) : turn 3 ((c, a) : Nat × Nat) = (c, (a + 3) % 4) := rfl

theorem out_u (h : Ends cross edge cross' edge' X k π) (j : Fin 3) : ((X j, (k j + 1) % 4) : Nat × Nat) ∈ outer cross X k := by
  refine Finset.mem_filter.mpr ⟨h.mem _ _, ?_⟩
  intro i
  simp only [ne_eq, Prod.mk.injEq, not_and]
  constructor <;> intro q <;> obtain rfl := h.inj _ _ q <;> omega

theorem out_v (h : Ends cross edge cross' edge' X k π) (j : Fin 3) : ((X j, (k j + 2) % 4) : Nat × Nat) ∈ outer cross X k := by
  refine Finset.mem_filter.mpr ⟨h.mem _ _, ?_⟩
  intro i
  simp only [ne_eq, Prod.mk.injEq, not_and]
  constructor <;> intro q <;> obtain rfl := h.inj _ _ q <;> omega

theorem out_far (_h : Ends cross edge cross' edge' X k π) {p : Nat × Nat} (hp : p ∈ P cross) (q : ∀ j, p.1 ≠ X j) : p ∈ outer cross X k := by
  refine Finset.mem_filter.mpr ⟨hp, ?_⟩
  intro i
  constructor <;> rintro rfl <;> exact q i rfl

theorem not_q (k X : Fin 3 → Nat) (j : Fin 3) : ((X j, k j % 4) : Nat × Nat) ∉ outer cross X k :=
  fun q => ((Finset.mem_filter.mp q).2 j).1 rfl

theorem not_p (k X : Fin 3 → Nat) (j : Fin 3) : ((X j, (k j + 3) % 4) : Nat × Nat) ∉ outer cross X k :=
  fun q => ((Finset.mem_filter.mp q).2 j).2 rfl

theorem inner' (h : Ends cross edge cross' edge' X k π) (j : Fin 3) :
    oth cross edge (X (j + 1), k (j + 1) % 4) = (X j, (k j + 3) % 4) := by
  rw [← h.inner j, oth_oth h.hC (h.mem _ _)]

/-- Where the other end of an outer place can be. -/
theorem far (h : Ends cross edge cross' edge' X k π) {s : Nat × Nat} (hs : s ∈ outer cross X k) :
    (∀ j, (oth cross edge s).1 ≠ X j) ∨ (∃ j, oth cross edge s = (X j, (k j + 1) % 4)) ∨
      ∃ j, oth cross edge s = (X j, (k j + 2) % 4) := by
  have hp := (Finset.mem_filter.mp hs).1
  rcases h.place (oth_mem h.hC hp) with q | ⟨j, q | q | q | q⟩
  · exact .inl q
  · have := h.inner' (j + 2)
    rw [succ3, ← q, oth_oth h.hC hp] at this
    exact absurd (this ▸ hs) (not_p k X _)
  · exact .inr (.inl ⟨j, q⟩)
  · exact .inr (.inr ⟨j, q⟩)
  · have := h.inner j
    rw [← q, oth_oth h.hC hp] at this
    exact absurd (this ▸ hs) (not_q k X _)

theorem fn_q (h : Ends cross edge cross' edge' X k π) (j : Fin 3) :
    fnext cross edge (X (j + 1), k (j + 1) % 4) = (X j, (k j + 2) % 4) := by
  unfold fnext
  rw [h.inner', tu]
  simp only [Prod.mk.injEq, true_and]
  omega

theorem fn_p (h : Ends cross edge cross' edge' X k π) (j : Fin 3) :
    fnext cross edge (X j, (k j + 3) % 4) = (X (j + 1), (k (j + 1) + 3) % 4) := by
  unfold fnext
  rw [h.inner, tu]
  simp only [Prod.mk.injEq, true_and]
  omega

theorem fn_u' (h : Ends cross edge cross' edge' X k π) (j : Fin 3) :
    fnext cross' edge' (X j, (k j + 1) % 4) = (X (j + 1), (k (j + 1) + 1) % 4) := by
  unfold fnext
  rw [← h.pq j, h.oth' _ (h.mem _ _), h.inner', h.pp, tu]
  simp only [Prod.mk.injEq, true_and]
  omega

theorem fn_v' (h : Ends cross edge cross' edge' X k π) (j : Fin 3) :
    fnext cross' edge' (X (j + 1), (k (j + 1) + 2) % 4) = (X j, k j % 4) := by
  unfold fnext
  rw [← h.pp j, h.oth' _ (h.mem _ _), h.inner, h.pq, tu]
  simp only [Prod.mk.injEq, true_and]
  omega

/-- What `skip` does. -/
theorem skip_eq (h : Ends cross edge cross' edge' X k π) {s : Nat × Nat} (hs : s ∈ outer cross X k) :
    ((∀ j, (oth cross edge s).1 ≠ X j) ∧ skip cross edge X k s = fnext cross edge s ∧ (∀ j, (fnext cross edge s).1 ≠ X j)) ∨
      (∃ j, oth cross edge s = (X (j + 1), (k (j + 1) + 1) % 4) ∧ skip cross edge X k s = (X j, (k j + 2) % 4)) ∨
      ∃ j, oth cross edge s = (X j, (k j + 2) % 4) ∧ skip cross edge X k s = (X j, (k j + 1) % 4) := by
  have hp := (Finset.mem_filter.mp hs).1
  have hp' := (injOn_fnext h.hC).maps s hp
  unfold skip
  rcases h.far hs with q | ⟨j, q⟩ | ⟨j, q⟩
  · have q' : ∀ j, (fnext cross edge s).1 ≠ X j := q
    rw [if_pos (h.out_far hp' q')]
    exact .inl ⟨q, rfl, q'⟩
  · refine .inr (.inl ⟨j + 2, ?_, ?_⟩)
    · rw [succ3, q]
    · have e : fnext cross edge s = (X j, k j % 4) := by
        unfold fnext
        rw [q, tu]
        simp only [Prod.mk.injEq, true_and]
        omega
      rw [e, if_neg (not_q k X j)]
      have := h.fn_q (j + 2)
      rwa [succ3] at this
  · refine .inr (.inr ⟨j, q, ?_⟩)
    have e : fnext cross edge s = (X j, (k j + 1) % 4) := by
      unfold fnext
      rw [q, tu]
      simp only [Prod.mk.injEq, true_and]
      omega
    rw [e, if_pos (h.out_u j)]

theorem skip_mem (h : Ends cross edge cross' edge' X k π) {s : Nat × Nat} (hs : s ∈ outer cross X k) :
    skip cross edge X k s ∈ outer cross X k := by
  rcases h.skip_eq hs with ⟨-, e, q⟩ | ⟨j, -, e⟩ | ⟨j, -, e⟩ <;> rw [e]
  · exact h.out_far ((injOn_fnext h.hC).maps s (Finset.mem_filter.mp hs).1) q
  · exact h.out_v j
  · exact h.out_u j

theorem return_old (_h : Ends cross edge cross' edge' X k π) :
    Return (skip cross edge X k) (outer cross X k) (fnext cross edge) (P cross) id where
  maps := fun s hs => (Finset.mem_filter.mp hs).1
  inj := fun _ _ _ _ e => e
  back := by
    intro s hs
    unfold skip
    split
    · exact ⟨0, rfl, by omega⟩
    · rename_i q
      refine ⟨1, rfl, ?_⟩
      intro i i1 i2 t ht e
      obtain rfl : i = 1 := by omega
      apply q
      have e' : fnext cross edge s = t := e
      rw [e']
      exact ht

theorem return_new (h : Ends cross edge cross' edge' X k π) :
    Return (skip cross edge X k) (outer cross X k) (fnext cross' edge') (P cross') π where
  maps := fun s hs => h.sameP ▸ (h.pi_mem (Finset.mem_filter.mp hs).1).1
  inj := by
    intro s hs t ht e
    rw [← (h.pi_mem (Finset.mem_filter.mp hs).1).2, e, (h.pi_mem (Finset.mem_filter.mp ht).1).2]
  back := by
    intro s hs
    have hp := (Finset.mem_filter.mp hs).1
    have hp' := (injOn_fnext h.hC).maps s hp
    have f1 : fnext cross' edge' (π s) = turn 3 (π (oth cross edge s)) := by
      unfold fnext
      rw [h.oth' s hp]
    rcases h.skip_eq hs with ⟨q1, e, q2⟩ | ⟨j, q, e⟩ | ⟨j, q, e⟩
    · refine ⟨0, ?_, by omega⟩
      rw [e, h.out _ hp' q2]
      show fnext cross' edge' (π s) = _
      rw [f1, h.out _ (oth_mem h.hC hp) q1]
      rfl
    · refine ⟨0, ?_, by omega⟩
      show fnext cross' edge' (π s) = _
      have pv := h.pv (j + 2)
      rw [succ3] at pv
      rw [f1, q, e, h.pu, pv, tu, succ2]
      simp only [Prod.mk.injEq, true_and]
      omega
    · have pv := h.pv (j + 2)
      rw [succ3] at pv
      have e1 : fnext cross' edge' (π s) = (X (j + 2), (k (j + 2) + 2) % 4) := by
        rw [f1, q, pv, tu]
        simp only [Prod.mk.injEq, true_and]
        omega
      refine ⟨1, ?_, ?_⟩
      · show fnext cross' edge' (fnext cross' edge' (π s)) = _
        have := h.fn_v' (j + 1)
        rw [succ2] at this
        rw [e1, this, e, h.pu]
      · intro i i1 i2 t ht e2
        obtain rfl : i = 1 := by omega
        have e3 : fnext cross' edge' (π s) = π t := e2
        rw [e1] at e3
        have pv' := h.pv (j + 1)
        rw [succ2, e3, (h.pi_mem (Finset.mem_filter.mp ht).1).2] at pv'
        exact not_p k X _ (pv' ▸ ht)

/-- The move changes the number of faces neither way. -/
theorem faces (h : Ends cross edge cross' edge' X k π) (hP : PlaneFaces cross edge) : PlaneFaces cross' edge' := by
  have hI := injOn_fnext h.hC
  have hI' := injOn_fnext h.hC'
  have hg := h.return_old.injOn hI (fun s hs => h.skip_mem hs)
  obtain ⟨R, hR⟩ := exists_reps hg
  have orb : ∀ (f : Nat × Nat → Nat × Nat) (w : Fin 3 → Nat × Nat), (∀ j, f (w j) = w (j + 1)) → ∀ i, ∃ j, f^[i] (w 0) = w j := by
    intro f w hw i
    induction i with
    | zero => exact ⟨0, rfl⟩
    | succ i ih =>
      obtain ⟨j, hj⟩ := ih
      exact ⟨j + 1, by rw [Function.iterate_succ_apply', hj, hw]⟩
  have orb' : ∀ (f : Nat × Nat → Nat × Nat) (w : Fin 3 → Nat × Nat), (∀ j, f (w j) = w (j + 1)) → ∀ j, ∃ i, f^[i] (w 0) = w j := by
    intro f w hw j
    have h1 := hw 0
    have h2 := hw 1
    fin_cases j
    · exact ⟨0, rfl⟩
    · exact ⟨1, h1⟩
    · exact ⟨2, by show f (f (w 0)) = _; rw [h1]; exact h2⟩
  have A := h.return_old.reps hg hI hR (X := [(X 0, (k 0 + 3) % 4)]) (by simpa using h.mem 0 _) (by simp) (by
    intro x hx s hs hc
    rw [List.mem_singleton] at hx
    subst hx
    have hsP := (Finset.mem_filter.mp hs).1
    obtain ⟨i, hi⟩ := hI.reach_symm hsP ((hI.mem_cyc hsP).mp hc)
    obtain ⟨j, hj⟩ := orb _ (fun j => (X j, (k j + 3) % 4)) h.fn_p i
    have : s = (X j, (k j + 3) % 4) := hi.symm.trans hj
    exact not_p k X j (this ▸ hs)) (by
    intro t ht
    by_cases hto : t ∈ outer cross X k
    · exact .inl ⟨t, hto, hI.self_mem_cyc ht⟩
    · have : ∃ j, t = (X j, k j % 4) ∨ t = (X j, (k j + 3) % 4) := by
        by_contra hcon
        push Not at hcon
        exact hto (Finset.mem_filter.mpr ⟨ht, hcon⟩)
      obtain ⟨j, rfl | rfl⟩ := this
      · refine .inl ⟨(X (j + 2), (k (j + 2) + 2) % 4), h.out_v _, ?_⟩
        have e := h.fn_q (j + 2)
        rw [succ3] at e
        exact (hI.mem_cyc (h.mem _ _)).mpr (hI.reach_symm ht ⟨1, e⟩)
      · obtain ⟨i, hi⟩ := orb' _ (fun j => (X j, (k j + 3) % 4)) h.fn_p j
        exact .inr ⟨_, by simp, (hI.mem_cyc (h.mem _ _)).mpr ⟨i, hi⟩⟩)
  have B := h.return_new.reps hg hI' hR (X := [(X 0, (k 0 + 1) % 4)]) (by simpa [h.sameP] using h.mem 0 _) (by simp) (by
    intro x hx s hs hc
    rw [List.mem_singleton] at hx
    subst hx
    have hsP : π s ∈ P cross' := h.return_new.maps s hs
    obtain ⟨i, hi⟩ := hI'.reach_symm hsP ((hI'.mem_cyc hsP).mp hc)
    obtain ⟨j, hj⟩ := orb _ (fun j => (X j, (k j + 1) % 4)) h.fn_u' i
    have e : π s = (X j, (k j + 1) % 4) := hi.symm.trans hj
    have := (h.pi_mem (Finset.mem_filter.mp hs).1).2
    rw [e, h.pu] at this
    exact not_q k X (j + 1) (this ▸ hs)) (by
    intro t ht
    have ht' : t ∈ P cross := h.sameP ▸ ht
    obtain ⟨m1, m2⟩ := h.pi_mem ht'
    by_cases hto : π t ∈ outer cross X k
    · exact .inl ⟨π t, hto, by rw [m2]; exact hI'.self_mem_cyc ht⟩
    · have : ∃ j, π t = (X (j + 1), k (j + 1) % 4) ∨ π t = (X j, (k j + 3) % 4) := by
        by_contra hcon
        push Not at hcon
        refine hto (Finset.mem_filter.mpr ⟨m1, fun j => ⟨?_, (hcon j).2⟩⟩)
        have := (hcon (j + 2)).1
        rwa [succ3] at this
      obtain ⟨j, e | e⟩ := this
      · rw [e, h.pq] at m2
        obtain ⟨i, hi⟩ := orb' _ (fun j => (X j, (k j + 1) % 4)) h.fn_u' j
        refine .inr ⟨(X 0, (k 0 + 1) % 4), by simp, ?_⟩
        rw [← m2]
        exact (hI'.mem_cyc (by rw [h.sameP]; exact h.mem _ _)).mpr ⟨i, hi⟩
      · rw [e, h.pp] at m2
        have e2 := h.fn_v' j
        have e3 := h.pu (j + 2)
        rw [succ3] at e3
        refine .inl ⟨(X (j + 2), (k (j + 2) + 1) % 4), h.out_u _, ?_⟩
        rw [m2, ← e3] at e2
        have m3 := (h.pi_mem (h.mem (j + 2) (k (j + 2) + 1))).1
        rw [← h.sameP] at m3
        exact (hI'.mem_cyc m3).mpr (hI'.reach_symm ht ⟨1, e2⟩))
  rw [planeFaces_iff_all h.hC A] at hP
  rw [planeFaces_iff_all h.hC' B, h.len, ← hP]
  simp

end Ends

end Plc.Triangle
