import Verif.Proofs.Matrix
import Mathlib.Tactic.IntervalCases

/-! # Matrices -/

namespace Plc.Mat

open Plc.FindCrossings

/-- The three steps of the substitution, forward and back. -/
theorem solve_eq (m : M) (index : Nat → Nat) (b : V3) : ∃ y0 y1 y2, y0 = comp b (index 0) ∧ y1 = comp b (index 1) - m 1 0 * y0 ∧
    y2 = comp b (index 2) - m 2 0 * y0 - m 2 1 * y1 ∧ (solveLinear m index b).z = y2 / m 2 2 ∧
    (solveLinear m index b).y = (y1 - m 1 2 * (solveLinear m index b).z) / m 1 1 ∧
    (solveLinear m index b).x = (y0 - m 0 1 * (solveLinear m index b).y - m 0 2 * (solveLinear m index b).z) / m 0 0 := by
  refine ⟨_, _, _, rfl, rfl, rfl, ?_, ?_, ?_⟩ <;> simp [solveLinear, putV, List.range_succ, List.range'_succ]

private theorem v3ext {a b : V3} (h1 : a.x = b.x) (h2 : a.y = b.y) (h3 : a.z = b.z) : a = b := by
  cases a; cases b; simp_all

theorem mulVec_eq (A : M) (x : V3) : mulVec A x = ⟨A 0 0 * x.x + A 0 1 * x.y + A 0 2 * x.z, A 1 0 * x.x + A 1 1 * x.y + A 1 2 * x.z, A 2 0 * x.x + A 2 1 * x.y + A 2 2 * x.z⟩ := by
  simp [mulVec, comp]

/-- **C98** For every matrix whose determinant is not 0, `lu_decmp` returns a decomposition, and `solve_linear` with it gives the solution of
A x = b, for every b; multiplied by `plc_matrix_vector_multiply` it gives b. -/
theorem C98_solve {A : M} (h : det3 A ≠ 0) : ∃ LU index d, luDecmp A = some (LU, index, d) ∧ ∀ b x : V3, mulVec A x = b ↔ x = solveLinear LU index b := by
  obtain ⟨m, index, d, e, F, _⟩ := lu_factored h
  refine ⟨m, index, d, e, ?_⟩
  have hsol : ∀ b : V3, mulVec A (solveLinear m index b) = b := by
    intro b
    obtain ⟨y0, y1, y2, g0, g1, g2, gz, gy, gx⟩ := solve_eq m index b
    obtain ⟨x, hx⟩ : ∃ x, x = solveLinear m index b := ⟨_, rfl⟩
    rw [← hx] at gx gy gz ⊢
    have fz : m 2 2 * x.z = y2 := by rw [gz]; field_simp [F.p2]
    have fy : m 1 1 * x.y = y1 - m 1 2 * x.z := by rw [gy]; field_simp [F.p1]
    have fx : m 0 0 * x.x = y0 - m 0 1 * x.y - m 0 2 * x.z := by rw [gx]; field_simp [F.p0]
    have r0 : A (index 0) 0 * x.x + A (index 0) 1 * x.y + A (index 0) 2 * x.z = comp b (index 0) := by
      rw [F.r00, F.r01, F.r02, ← g0]; linarith
    have r1 : A (index 1) 0 * x.x + A (index 1) 1 * x.y + A (index 1) 2 * x.z = comp b (index 1) := by
      rw [F.r10, F.r11, F.r12]
      linear_combination m 1 0 * fx + fy + g1
    have r2 : A (index 2) 0 * x.x + A (index 2) 1 * x.y + A (index 2) 2 * x.z = comp b (index 2) := by
      rw [F.r20, F.r21, F.r22]
      linear_combination m 2 0 * fx + m 2 1 * fy + fz + g2
    rw [mulVec_eq]
    have hp := F.perm
    simp only [List.mem_cons, Prod.mk.injEq, List.not_mem_nil, or_false] at hp
    rcases hp with ⟨i0, i1, i2⟩ | ⟨i0, i1, i2⟩ | ⟨i0, i1, i2⟩ | ⟨i0, i1, i2⟩ | ⟨i0, i1, i2⟩ | ⟨i0, i1, i2⟩ <;> rw [i0] at r0 <;> rw [i1] at r1 <;> rw [i2] at r2 <;>
      simp only [comp, if_true, if_false, one_ne_zero, OfNat.ofNat_ne_zero, OfNat.ofNat_ne_one] at r0 r1 r2 <;> refine v3ext ?_ ?_ ?_ <;> assumption
  intro b x
  constructor
  · intro hx
    obtain ⟨y, hy⟩ : ∃ y, y = solveLinear m index b := ⟨_, rfl⟩
    have h2 := hsol b
    rw [← hy] at h2 ⊢
    rw [← hx, mulVec_eq, mulVec_eq, V3.mk.injEq] at h2
    obtain ⟨a1, a2, a3⟩ := h2
    unfold det3 at h
    have k1 : (x.x - y.x) * (A 0 0 * (A 1 1 * A 2 2 - A 1 2 * A 2 1) - A 0 1 * (A 1 0 * A 2 2 - A 1 2 * A 2 0) + A 0 2 * (A 1 0 * A 2 1 - A 1 1 * A 2 0)) = 0 := by
      linear_combination -(A 1 1 * A 2 2 - A 1 2 * A 2 1) * a1 + (A 0 1 * A 2 2 - A 0 2 * A 2 1) * a2 - (A 0 1 * A 1 2 - A 0 2 * A 1 1) * a3
    have k2 : (x.y - y.y) * (A 0 0 * (A 1 1 * A 2 2 - A 1 2 * A 2 1) - A 0 1 * (A 1 0 * A 2 2 - A 1 2 * A 2 0) + A 0 2 * (A 1 0 * A 2 1 - A 1 1 * A 2 0)) = 0 := by
      linear_combination (A 1 0 * A 2 2 - A 1 2 * A 2 0) * a1 - (A 0 0 * A 2 2 - A 0 2 * A 2 0) * a2 + (A 0 0 * A 1 2 - A 0 2 * A 1 0) * a3
    have k3 : (x.z - y.z) * (A 0 0 * (A 1 1 * A 2 2 - A 1 2 * A 2 1) - A 0 1 * (A 1 0 * A 2 2 - A 1 2 * A 2 0) + A 0 2 * (A 1 0 * A 2 1 - A 1 1 * A 2 0)) = 0 := by
      linear_combination -(A 1 0 * A 2 1 - A 1 1 * A 2 0) * a1 + (A 0 0 * A 2 1 - A 0 1 * A 2 0) * a2 - (A 0 0 * A 1 1 - A 0 1 * A 1 0) * a3
    refine v3ext ?_ ?_ ?_
    · have := (mul_eq_zero.mp k1).resolve_right h; linarith
    · have := (mul_eq_zero.mp k2).resolve_right h; linarith
    · have := (mul_eq_zero.mp k3).resolve_right h; linarith
  · intro hx; rw [hx]; exact hsol b

/-- **C98** The decomposition: up to the permutation of rows in `index`, whose sign is `d`, the matrix is the product of a lower triangular
matrix with ones on the diagonal and an upper triangular matrix, and `d` times the product of the pivots is the determinant. -/
theorem C98_decomposition {A : M} (h : det3 A ≠ 0) : ∃ LU index d, luDecmp A = some (LU, index, d) ∧
    (index 0, index 1, index 2) ∈ [(0, 1, 2), (0, 2, 1), (1, 0, 2), (1, 2, 0), (2, 0, 1), (2, 1, 0)] ∧
    (d = if (index 0, index 1, index 2) ∈ [(0, 1, 2), (1, 2, 0), (2, 0, 1)] then 1 else -1) ∧
    (∀ i j, i < 3 → j < 3 → A (index i) j = mulMat (fun i j => if i = j then 1 else if j < i then LU i j else 0) (fun i j => if i ≤ j then LU i j else 0) i j) ∧
    d * (LU 0 0 * LU 1 1 * LU 2 2) = det3 A := by
  obtain ⟨m, index, d, e, F, hd⟩ := lu_factored h
  refine ⟨m, index, d, e, F.perm, F.sign, ?_, hd⟩
  intro i j hi hj
  have hr := F.r00
  have hr01 := F.r01
  have hr02 := F.r02
  have hr10 := F.r10
  have hr11 := F.r11
  have hr12 := F.r12
  have hr20 := F.r20
  have hr21 := F.r21
  have hr22 := F.r22
  interval_cases i <;> interval_cases j <;> simp [mulMat, *]

/-- **C98** The result is NULL exactly if there is a row of zeros. -/
theorem C98_null (A : M) : luDecmp A = none ↔ ∃ i, i < 3 ∧ A i 0 = 0 ∧ A i 1 = 0 ∧ A i 2 = 0 := by
  unfold luDecmp
  constructor
  · intro h
    split at h
    · rename_i hz
      rcases hz with hz | hz | hz
      · exact ⟨0, by omega, rowBig_zero.mp hz⟩
      · exact ⟨1, by omega, rowBig_zero.mp hz⟩
      · exact ⟨2, by omega, rowBig_zero.mp hz⟩
    · simp at h
  · rintro ⟨i, hi, h⟩
    rw [if_pos]
    have := rowBig_zero.mpr h
    interval_cases i <;> simp [this]

/-- **C98** Other singular matrices are not reported: for every matrix of determinant 0 without a row of zeros a decomposition is returned, although
there is a right hand side for which no vector, and so not the one returned, is a solution. -/
theorem C98_singular {A : M} (h : det3 A = 0) (hz : ∀ i, i < 3 → ¬ (A i 0 = 0 ∧ A i 1 = 0 ∧ A i 2 = 0)) :
    ∃ LU index d, luDecmp A = some (LU, index, d) ∧ ∃ b : V3, ∀ x : V3, mulVec A x ≠ b := by
  cases e : luDecmp A with
  | none =>
    obtain ⟨i, hi, hr⟩ := (C98_null A).mp e
    exact absurd hr (hz i hi)
  | some r =>
    refine ⟨r.1, r.2.1, r.2.2, rfl, ?_⟩
    by_contra hc
    push Not at hc
    obtain ⟨p, hp⟩ := hc ⟨1, 0, 0⟩
    obtain ⟨q, hq⟩ := hc ⟨0, 1, 0⟩
    obtain ⟨r, hr⟩ := hc ⟨0, 0, 1⟩
    rw [mulVec_eq, V3.mk.injEq] at hp hq hr
    obtain ⟨p1, p2, p3⟩ := hp
    obtain ⟨q1, q2, q3⟩ := hq
    obtain ⟨r1, r2, r3⟩ := hr
    have key : det3 A * (p.x * (q.y * r.z - q.z * r.y) - p.y * (q.x * r.z - q.z * r.x) + p.z * (q.x * r.y - q.y * r.x)) =
        (A 0 0 * p.x + A 0 1 * p.y + A 0 2 * p.z) * ((A 1 0 * q.x + A 1 1 * q.y + A 1 2 * q.z) * (A 2 0 * r.x + A 2 1 * r.y + A 2 2 * r.z) -
          (A 1 0 * r.x + A 1 1 * r.y + A 1 2 * r.z) * (A 2 0 * q.x + A 2 1 * q.y + A 2 2 * q.z)) -
        (A 0 0 * q.x + A 0 1 * q.y + A 0 2 * q.z) * ((A 1 0 * p.x + A 1 1 * p.y + A 1 2 * p.z) * (A 2 0 * r.x + A 2 1 * r.y + A 2 2 * r.z) -
          (A 1 0 * r.x + A 1 1 * r.y + A 1 2 * r.z) * (A 2 0 * p.x + A 2 1 * p.y + A 2 2 * p.z)) +
        (A 0 0 * r.x + A 0 1 * r.y + A 0 2 * r.z) * ((A 1 0 * p.x + A 1 1 * p.y + A 1 2 * p.z) * (A 2 0 * q.x + A 2 1 * q.y + A 2 2 * q.z) -
          (A 1 0 * q.x + A 1 1 * q.y + A 1 2 * q.z) * (A 2 0 * p.x + A 2 1 * p.y + A 2 2 * p.z)) := by
      unfold det3; ring
    rw [h, p1, p2, p3, q1, q2, q3, r1, r2, r3] at key
    norm_num at key

/-- **C98** `plc_matrix_matrix_multiply` is composition. -/
theorem C98_compose (A B : M) (x : V3) : mulVec (mulMat A B) x = mulVec A (mulVec B x) := by
  rw [mulVec_eq, mulVec_eq, mulVec_eq]
  refine v3ext ?_ ?_ ?_ <;> simp [mulMat] <;> ring

/-- A matrix which needs row interchanges. -/
example : det3 (build ⟨0, 2, 1⟩ ⟨1, 0, 3⟩ ⟨4, 1, 0⟩) ≠ 0 := by
  unfold det3 build
  norm_num

/-- A singular matrix without a row of zeros. -/
example : ∃ LU index d, luDecmp (build ⟨1, 1, 1⟩ ⟨1, 1, 1⟩ ⟨1, 1, 1⟩) = some (LU, index, d) ∧ ∃ b : V3, ∀ x : V3, mulVec (build ⟨1, 1, 1⟩ ⟨1, 1, 1⟩ ⟨1, 1, 1⟩) x ≠ b :=
  C98_singular (by unfold det3 build; norm_num) (by intro i hi h; interval_cases i <;> simp [build] at h)

end Plc.Mat
