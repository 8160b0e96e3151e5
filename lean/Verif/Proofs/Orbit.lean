import Mathlib.Dynamics.PeriodicPts.Lemmas
import Mathlib.Data.Finset.Card
import Mathlib.Data.List.Nodup
import Mathlib.Data.Fintype.Card

/-! Cycles of an injective map on a finite set. -/

namespace Plc.Orbit

open Function

variable {α : Type} [DecidableEq α]

/-- `f` maps the finite set `S` into itself, injectively. -/
structure InjOn (f : α → α) (S : Finset α) : Prop where
  maps : ∀ x ∈ S, f x ∈ S
  inj : ∀ x ∈ S, ∀ y ∈ S, f x = f y → x = y

theorem InjOn.iterate_mem {f : α → α} {S : Finset α} (h : InjOn f S) {x : α} (hx : x ∈ S) (k : Nat) :
    f^[k] x ∈ S := by
  induction k with
  | zero => exact hx
  | succ k ih => rw [iterate_succ_apply']; exact h.maps _ ih

theorem InjOn.iterate_inj {f : α → α} {S : Finset α} (h : InjOn f S) (k : Nat) :
    ∀ {x y : α}, x ∈ S → y ∈ S → f^[k] x = f^[k] y → x = y := by
  induction k with
  | zero => intro x y _ _ e; exact e
  | succ k ih =>
    intro x y hx hy e
    rw [iterate_succ_apply, iterate_succ_apply] at e
    exact h.inj x hx y hy (ih (h.maps x hx) (h.maps y hy) e)

theorem InjOn.exists_period {f : α → α} {S : Finset α} (h : InjOn f S) {x : α} (hx : x ∈ S) :
    ∃ k, 0 < k ∧ k ≤ S.card ∧ f^[k] x = x := by
  have : ∃ i ∈ Finset.range (S.card + 1), ∃ j ∈ Finset.range (S.card + 1), i ≠ j ∧
      f^[i] x = f^[j] x :=
    Finset.exists_ne_map_eq_of_card_lt_of_maps_to (t := S) (by simp)
      (fun k _ => h.iterate_mem hx k)
  obtain ⟨i, hi, j, hj, hij, he⟩ := this
  rw [Finset.mem_range] at hi hj
  have key : ∀ i j, i < j → j < S.card + 1 → f^[i] x = f^[j] x →
      ∃ k, 0 < k ∧ k ≤ S.card ∧ f^[k] x = x := by
    intro i j hij hj he
    refine ⟨j - i, by omega, by omega, ?_⟩
    apply (h.iterate_inj i hx (h.iterate_mem hx _) _).symm
    rw [← iterate_add_apply, show i + (j - i) = j by omega, he]
  rcases Nat.lt_or_gt_of_ne hij with hlt | hlt
  · exact key i j hlt hj he
  · exact key j i hlt hi he.symm

/-- Length of the cycle through `x`. -/
noncomputable def per (f : α → α) (x : α) : Nat := minimalPeriod f x

theorem InjOn.per_pos {f : α → α} {S : Finset α} (h : InjOn f S) {x : α} (hx : x ∈ S) :
    0 < per f x := by
  obtain ⟨k, h1, _, h3⟩ := h.exists_period hx
  exact IsPeriodicPt.minimalPeriod_pos h1 h3

theorem InjOn.per_le {f : α → α} {S : Finset α} (h : InjOn f S) {x : α} (hx : x ∈ S) :
    per f x ≤ S.card := by
  obtain ⟨k, h1, h2, h3⟩ := h.exists_period hx
  exact Nat.le_trans (IsPeriodicPt.minimalPeriod_le h1 h3) h2

theorem iterate_per (f : α → α) (x : α) : f^[per f x] x = x := iterate_minimalPeriod

theorem iterate_mod_per (f : α → α) (x : α) (k : Nat) : f^[k % per f x] x = f^[k] x :=
  iterate_mod_minimalPeriod_eq

theorem iterate_inj_lt {f : α → α} {x : α} {i j : Nat} (hi : i < per f x) (hj : j < per f x)
    (h : f^[i] x = f^[j] x) : i = j :=
  (iterate_eq_iterate_iff_of_lt_minimalPeriod hi hj).mp h

theorem ne_of_lt_per {f : α → α} {x : α} {k : Nat} (h0 : 0 < k) (h : k < per f x) : f^[k] x ≠ x := by
  intro e
  have := iterate_inj_lt h (by omega : 0 < per f x) e
  omega

/-- The cycle through `x`, starting there. -/
noncomputable def cyc (f : α → α) (x : α) : List α := (List.range (per f x)).map (fun k => f^[k] x)

theorem cyc_length (f : α → α) (x : α) : (cyc f x).length = per f x := by simp [cyc]

theorem cyc_nodup (f : α → α) (x : α) : (cyc f x).Nodup := by
  unfold cyc
  rw [List.nodup_map_iff_inj_on List.nodup_range]
  intro a ha b hb e
  rw [List.mem_range] at ha hb
  exact iterate_inj_lt ha hb e

theorem cyc_getElem? {f : α → α} {x : α} {k : Nat} (h : k < per f x) : (cyc f x)[k]? = some (f^[k] x) := by
  simp [cyc, h]

theorem InjOn.mem_cyc {f : α → α} {S : Finset α} (h : InjOn f S) {x : α} (hx : x ∈ S) {y : α} :
    y ∈ cyc f x ↔ ∃ k, f^[k] x = y := by
  unfold cyc
  rw [List.mem_map]
  constructor
  · rintro ⟨k, _, e⟩; exact ⟨k, e⟩
  · rintro ⟨k, e⟩
    refine ⟨k % per f x, List.mem_range.mpr (Nat.mod_lt _ (h.per_pos hx)), ?_⟩
    rw [iterate_mod_per, e]

theorem InjOn.self_mem_cyc {f : α → α} {S : Finset α} (h : InjOn f S) {x : α} (hx : x ∈ S) :
    x ∈ cyc f x := (h.mem_cyc hx).mpr ⟨0, rfl⟩

theorem InjOn.cyc_subset {f : α → α} {S : Finset α} (h : InjOn f S) {x : α} (hx : x ∈ S) {y : α}
    (hy : y ∈ cyc f x) : y ∈ S := by
  obtain ⟨k, rfl⟩ := (h.mem_cyc hx).mp hy
  exact h.iterate_mem hx k

/-- Being on the same cycle is symmetric. -/
theorem InjOn.reach_symm {f : α → α} {S : Finset α} (h : InjOn f S) {x y : α} (hx : x ∈ S)
    (hr : ∃ k, f^[k] x = y) : ∃ k, f^[k] y = x := by
  obtain ⟨k, rfl⟩ := hr
  have hp := h.per_pos hx
  refine ⟨per f x - k % per f x, ?_⟩
  have hm := Nat.mod_lt k hp
  rw [← iterate_mod_per f x k, ← iterate_add_apply,
    show per f x - k % per f x + k % per f x = per f x by omega, iterate_per]

omit [DecidableEq α] in
theorem reach_trans {f : α → α} {x y z : α} (h1 : ∃ k, f^[k] x = y) (h2 : ∃ k, f^[k] y = z) :
    ∃ k, f^[k] x = z := by
  obtain ⟨i, rfl⟩ := h1
  obtain ⟨j, rfl⟩ := h2
  exact ⟨j + i, iterate_add_apply _ _ _ _⟩

/-- Two cycles that meet are the same set. -/
theorem InjOn.cyc_meet {f : α → α} {S : Finset α} (h : InjOn f S) {x y z : α} (hx : x ∈ S)
    (hy : y ∈ S) (h1 : z ∈ cyc f x) (h2 : z ∈ cyc f y) : y ∈ cyc f x := by
  rw [h.mem_cyc hx] at h1 ⊢
  rw [h.mem_cyc hy] at h2
  exact reach_trans h1 (h.reach_symm hy h2)


/-- If starting points lie on pairwise different cycles, the cycles together list each of
their elements once. -/
theorem InjOn.flat_nodup {f : α → α} {S : Finset α} (h : InjOn f S) {starts : List α}
    (hs : ∀ x ∈ starts, x ∈ S)
    (hd : starts.Pairwise (fun x y => y ∉ cyc f x)) : (starts.flatMap (cyc f)).Nodup := by
  rw [List.nodup_flatMap]
  refine ⟨fun x _ => cyc_nodup f x, ?_⟩
  refine List.Pairwise.imp_of_mem ?_ hd
  intro x y hx hy hxy
  rw [Function.onFun, List.disjoint_left]
  intro z hz hz'
  exact hxy (h.cyc_meet (hs x hx) (hs y hy) hz hz')

end Plc.Orbit
