import Verif.Model.Matrix
import Mathlib.Tactic.Linarith
import Mathlib.Tactic.Ring
import Mathlib.Tactic.FieldSimp
import Mathlib.Tactic.LinearCombination
import Mathlib.Tactic.NormNum

/-! # Matrices: lemmas -/

namespace Plc.Mat

open Plc.FindCrossings

/-- The determinant. -/
def det3 (A : M) : ℝ :=
  A 0 0 * (A 1 1 * A 2 2 - A 1 2 * A 2 1) - A 0 1 * (A 1 0 * A 2 2 - A 1 2 * A 2 0) + A 0 2 * (A 1 0 * A 2 1 - A 1 1 * A 2 0)

theorem rowBig_ge (m : M) (i : Nat) : 0 ≤ rowBig m i ∧ |m i 0| ≤ rowBig m i ∧ |m i 1| ≤ rowBig m i ∧ |m i 2| ≤ rowBig m i := by
  unfold rowBig
  simp only [List.foldl_cons, List.foldl_nil]
  have h0 := abs_nonneg (m i 0)
  have h1 := abs_nonneg (m i 1)
  have h2 := abs_nonneg (m i 2)
  refine ⟨?_, ?_, ?_, ?_⟩ <;> (repeat' split) <;> linarith

theorem rowBig_le (m : M) (i : Nat) : rowBig m i = 0 ∨ rowBig m i = |m i 0| ∨ rowBig m i = |m i 1| ∨ rowBig m i = |m i 2| := by
  unfold rowBig
  simp only [List.foldl_cons, List.foldl_nil]
  (repeat' split) <;> simp

theorem rowBig_zero {m : M} {i : Nat} : rowBig m i = 0 ↔ m i 0 = 0 ∧ m i 1 = 0 ∧ m i 2 = 0 := by
  constructor
  · intro h
    obtain ⟨_, a, b, c⟩ := rowBig_ge m i
    rw [h] at a b c
    exact ⟨abs_nonpos_iff.mp a, abs_nonpos_iff.mp b, abs_nonpos_iff.mp c⟩
  · rintro ⟨a, b, c⟩
    rcases rowBig_le m i with h | h | h | h
    · exact h
    · rw [h, a, abs_zero]
    · rw [h, b, abs_zero]
    · rw [h, c, abs_zero]

theorem pos_abs {v x : ℝ} (hv : 0 < v) (h : v * |x| ≤ 0) : x = 0 := by
  have h1 := abs_nonneg x
  have : |x| = 0 := by nlinarith
  exact abs_eq_zero.mp this

/-- The pivot in column 0. -/
theorem pivot0 {m : M} {vv : Nat → ℝ} (im : Nat) (h0 : 0 < vv 0) (h1 : 0 < vv 1) (h2 : 0 < vv 2) :
    ∃ p, (pivot m vv 0 im).2 = p ∧ (p = 0 ∨ p = 1 ∨ p = 2) ∧ (m p 0 = 0 → m 0 0 = 0 ∧ m 1 0 = 0 ∧ m 2 0 = 0) := by
  have a0 : 0 ≤ vv 0 * |m 0 0| := mul_nonneg h0.le (abs_nonneg _)
  refine ⟨_, rfl, ?_⟩
  have hr : List.range' 0 (3 - 0) = [0, 1, 2] := rfl
  unfold pivot
  rw [hr]
  simp only [List.foldl_cons, List.foldl_nil]
  rw [if_pos (show vv 0 * |m 0 0| ≥ ((0 : ℝ), im).1 from a0)]
  by_cases c1 : vv 1 * |m 1 0| ≥ vv 0 * |m 0 0|
  · rw [if_pos (show vv 1 * |m 1 0| ≥ (vv 0 * |m 0 0|, 0).1 from c1)]
    by_cases c2 : vv 2 * |m 2 0| ≥ vv 1 * |m 1 0|
    · rw [if_pos (show vv 2 * |m 2 0| ≥ (vv 1 * |m 1 0|, 1).1 from c2)]
      refine ⟨.inr (.inr rfl), fun h => ?_⟩
      have e : |m 2 0| = 0 := abs_eq_zero.mpr h
      rw [e, mul_zero] at c2
      exact ⟨pos_abs h0 (c1.le.trans c2.le), pos_abs h1 c2, h⟩
    · rw [if_neg (show ¬ vv 2 * |m 2 0| ≥ (vv 1 * |m 1 0|, 1).1 from c2)]
      refine ⟨.inr (.inl rfl), fun h => ?_⟩
      have e : |m 1 0| = 0 := abs_eq_zero.mpr h
      rw [e, mul_zero] at c1 c2
      exact ⟨pos_abs h0 c1, h, pos_abs h2 (not_le.mp c2).le⟩
  · rw [if_neg (show ¬ vv 1 * |m 1 0| ≥ (vv 0 * |m 0 0|, 0).1 from c1)]
    by_cases c2 : vv 2 * |m 2 0| ≥ vv 0 * |m 0 0|
    · rw [if_pos (show vv 2 * |m 2 0| ≥ (vv 0 * |m 0 0|, 0).1 from c2)]
      refine ⟨.inr (.inr rfl), fun h => ?_⟩
      have e : |m 2 0| = 0 := abs_eq_zero.mpr h
      rw [e, mul_zero] at c2
      exact ⟨pos_abs h0 c2, pos_abs h1 ((not_le.mp c1).le.trans c2), h⟩
    · rw [if_neg (show ¬ vv 2 * |m 2 0| ≥ (vv 0 * |m 0 0|, 0).1 from c2)]
      refine ⟨.inl rfl, fun h => ?_⟩
      have e : |m 0 0| = 0 := abs_eq_zero.mpr h
      rw [e, mul_zero] at c1 c2
      exact ⟨h, pos_abs h1 (not_le.mp c1).le, pos_abs h2 (not_le.mp c2).le⟩

/-- The pivot in column 1. -/
theorem pivot1 {m : M} {vv : Nat → ℝ} (im : Nat) (h1 : 0 < vv 1) (h2 : 0 < vv 2) :
    ∃ p, (pivot m vv 1 im).2 = p ∧ (p = 1 ∨ p = 2) ∧ (m p 1 = 0 → m 1 1 = 0 ∧ m 2 1 = 0) := by
  have a0 : 0 ≤ vv 1 * |m 1 1| := mul_nonneg h1.le (abs_nonneg _)
  refine ⟨_, rfl, ?_⟩
  have hr : List.range' 1 (3 - 1) = [1, 2] := rfl
  unfold pivot
  rw [hr]
  simp only [List.foldl_cons, List.foldl_nil]
  rw [if_pos (show vv 1 * |m 1 1| ≥ ((0 : ℝ), im).1 from a0)]
  by_cases c2 : vv 2 * |m 2 1| ≥ vv 1 * |m 1 1|
  · rw [if_pos (show vv 2 * |m 2 1| ≥ (vv 1 * |m 1 1|, 1).1 from c2)]
    refine ⟨.inr rfl, fun h => ?_⟩
    have e : |m 2 1| = 0 := abs_eq_zero.mpr h
    rw [e, mul_zero] at c2
    exact ⟨pos_abs h1 c2, h⟩
  · rw [if_neg (show ¬ vv 2 * |m 2 1| ≥ (vv 1 * |m 1 1|, 1).1 from c2)]
    refine ⟨.inl rfl, fun h => ?_⟩
    have e : |m 1 1| = 0 := abs_eq_zero.mpr h
    rw [e, mul_zero] at c2
    exact ⟨h, pos_abs h2 (not_le.mp c2).le⟩

/-- The pivot in column 2. -/
theorem pivot2 {m : M} {vv : Nat → ℝ} (im : Nat) (h2 : 0 < vv 2) : (pivot m vv 2 im).2 = 2 := by
  have a0 : 0 ≤ vv 2 * |m 2 2| := mul_nonneg h2.le (abs_nonneg _)
  have hr : List.range' 2 (3 - 2) = [2] := rfl
  unfold pivot
  rw [hr]
  simp only [List.foldl_cons, List.foldl_nil]
  rw [if_pos (show vv 2 * |m 2 2| ≥ ((0 : ℝ), im).1 from a0)]

/-- The interchange, with equal rows too. -/
theorem interchange_eq (s : St) (j : Nat) : (interchange s j).m = (fun i => s.m (swp s.imax j i)) ∧ (interchange s j).vv = (fun i => s.vv (swp s.imax j i)) ∧
    (interchange s j).index = (fun i => s.index (swp s.imax j i)) ∧ (interchange s j).d = (if j ≠ s.imax then -s.d else s.d) := by
  unfold interchange
  by_cases h : j ≠ s.imax
  · rw [if_pos h, if_pos h]
    exact ⟨rfl, rfl, rfl, rfl⟩
  · rw [if_neg h, if_neg h]
    have hj : j = s.imax := not_not.mp h
    have hid : ∀ i, swp s.imax j i = i := by
      intro i
      unfold swp
      split <;> [(rename_i h'; rw [hj, h']); (split <;> [(rename_i h'; rw [h', hj]); rfl])]
    refine ⟨?_, ?_, ?_, rfl⟩ <;> funext i <;> rw [hid]

/-- The state after a column. -/
theorem column_eq (s : St) (j p : Nat) (hp : (pivot (lower (upper s.m j) j) s.vv j s.imax).2 = p) :
    (column s j).m = divide (tiny (fun i => lower (upper s.m j) j (swp p j i)) j) j ∧ (column s j).vv = (fun i => s.vv (swp p j i)) ∧
      (column s j).index = (fun i => s.index (swp p j i)) ∧ (column s j).d = (if j ≠ p then -s.d else s.d) := by
  obtain ⟨a, b, c, d⟩ := interchange_eq { s with m := lower (upper s.m j) j, imax := (pivot (lower (upper s.m j) j) s.vv j s.imax).2 } j
  subst hp
  unfold column
  refine ⟨?_, b, c, d⟩
  dsimp only
  rw [a]

theorem lower0 (m : M) : lower (upper m 0) 0 = m := by
  have hr : List.range' 0 (3 - 0) = [0, 1, 2] := rfl
  have hp : ∀ (m : M) (i : Nat), put m i 0 (reduced m i 0 0) = m := by
    intro m i
    funext a b
    unfold put reduced
    split
    · rename_i h; rw [h.1, h.2]; rfl
    · rfl
  unfold lower upper
  rw [hr]
  simp only [List.range_zero, List.foldl_cons, List.foldl_nil, hp]

theorem lower1 (m : M) : lower (upper m 1) 1 = fun i c => if c = 1 ∧ (i = 1 ∨ i = 2) then m i 1 - m i 0 * m 0 1 else m i c := by
  have hr : List.range' 1 (3 - 1) = [1, 2] := rfl
  have hr1 : List.range 1 = [0] := rfl
  unfold lower upper
  rw [hr, hr1]
  funext i c
  simp only [List.foldl_cons, List.foldl_nil, put, reduced, hr1, List.range_zero]
  by_cases hc : c = 1
  · subst hc
    by_cases h1 : i = 1
    · subst h1; simp
    · by_cases h2 : i = 2
      · subst h2; simp
      · by_cases h0 : i = 0
        · subst h0; simp
        · simp [h0, h1, h2]
  · simp [hc]

theorem lower2 (m : M) : lower (upper m 2) 2 = fun i c => if c = 2 ∧ i = 1 then m 1 2 - m 1 0 * m 0 2 else
    if c = 2 ∧ i = 2 then m 2 2 - m 2 0 * m 0 2 - m 2 1 * (m 1 2 - m 1 0 * m 0 2) else m i c := by
  have hr : List.range' 2 (3 - 2) = [2] := rfl
  have hr1 : List.range 1 = [0] := rfl
  have hr2 : List.range 2 = [0, 1] := rfl
  unfold lower upper
  rw [hr, hr2]
  funext i c
  simp only [List.foldl_cons, List.foldl_nil, put, reduced, hr1, hr2, List.range_zero]
  by_cases hc : c = 2
  · subst hc
    by_cases h1 : i = 1
    · subst h1; simp
    · by_cases h2 : i = 2
      · subst h2; simp
      · by_cases h0 : i = 0
        · subst h0; simp
        · simp [h0, h1, h2]
  · simp [hc]

theorem tiny_of {m : M} {j : Nat} (h : m j j ≠ 0) : tiny m j = m := by unfold tiny; rw [if_neg h]

theorem divide0 (m : M) : divide m 0 = fun i c => if c = 0 ∧ (i = 1 ∨ i = 2) then m i 0 * (1 / m 0 0) else m i c := by
  have hr : List.range' (0 + 1) (2 - 0) = [1, 2] := rfl
  unfold divide
  rw [hr]
  funext i c
  simp only [List.foldl_cons, List.foldl_nil, put]
  by_cases hc : c = 0
  · subst hc
    by_cases h1 : i = 1
    · subst h1; simp
    · by_cases h2 : i = 2
      · subst h2; simp
      · simp [h1, h2]
  · simp [hc]

theorem divide1 (m : M) : divide m 1 = fun i c => if c = 1 ∧ i = 2 then m 2 1 * (1 / m 1 1) else m i c := by
  have hr : List.range' (1 + 1) (2 - 1) = [2] := rfl
  unfold divide
  rw [hr]
  funext i c
  simp only [List.foldl_cons, List.foldl_nil, put]
  by_cases hc : c = 1
  · subst hc
    by_cases h2 : i = 2
    · subst h2; simp
    · simp [h2]
  · simp [hc]

theorem divide2 (m : M) : divide m 2 = m := rfl

/-- The decomposition of a matrix: the permutation of the rows, factors and pivots. -/
structure Factored (A m : M) (index : Nat → Nat) (d : ℝ) : Prop where
  perm : (index 0, index 1, index 2) ∈ [(0, 1, 2), (0, 2, 1), (1, 0, 2), (1, 2, 0), (2, 0, 1), (2, 1, 0)]
  sign : d = if (index 0, index 1, index 2) ∈ [(0, 1, 2), (1, 2, 0), (2, 0, 1)] then 1 else -1
  p0 : m 0 0 ≠ 0
  p1 : m 1 1 ≠ 0
  p2 : m 2 2 ≠ 0
  r00 : A (index 0) 0 = m 0 0
  r01 : A (index 0) 1 = m 0 1
  r02 : A (index 0) 2 = m 0 2
  r10 : A (index 1) 0 = m 1 0 * m 0 0
  r11 : A (index 1) 1 = m 1 0 * m 0 1 + m 1 1
  r12 : A (index 1) 2 = m 1 0 * m 0 2 + m 1 2
  r20 : A (index 2) 0 = m 2 0 * m 0 0
  r21 : A (index 2) 1 = m 2 0 * m 0 1 + m 2 1 * m 1 1
  r22 : A (index 2) 2 = m 2 0 * m 0 2 + m 2 1 * m 1 2 + m 2 2

theorem det_thin1 {B : M} (h0 : B 0 0 ≠ 0) (h1 : B 1 1 - B 1 0 * (1 / B 0 0) * B 0 1 = 0) (h2 : B 2 1 - B 2 0 * (1 / B 0 0) * B 0 1 = 0) : det3 B = 0 := by
  have e1 : B 1 1 = B 1 0 * (1 / B 0 0) * B 0 1 := by linarith
  have e2 : B 2 1 = B 2 0 * (1 / B 0 0) * B 0 1 := by linarith
  unfold det3
  rw [e1, e2]
  field_simp
  ring

theorem det_pivots {B : M} (h0 : B 0 0 ≠ 0) (h1 : B 1 1 - B 1 0 * (1 / B 0 0) * B 0 1 ≠ 0) : det3 B = B 0 0 * (B 1 1 - B 1 0 * (1 / B 0 0) * B 0 1) *
    (B 2 2 - B 2 0 * (1 / B 0 0) * B 0 2 - (B 2 1 - B 2 0 * (1 / B 0 0) * B 0 1) * (1 / (B 1 1 - B 1 0 * (1 / B 0 0) * B 0 1)) * (B 1 2 - B 1 0 * (1 / B 0 0) * B 0 2)) := by
  obtain ⟨u, hu⟩ : ∃ u, u = B 1 1 - B 1 0 * (1 / B 0 0) * B 0 1 := ⟨_, rfl⟩
  rw [← hu] at h1 ⊢
  have e1 : B 1 1 = u + B 1 0 * (1 / B 0 0) * B 0 1 := by linarith
  unfold det3
  rw [e1]
  field_simp
  ring

theorem det_swap0 (A : M) {p : Nat} (h : p = 0 ∨ p = 1 ∨ p = 2) : det3 (fun i => A (swp p 0 i)) = if 0 ≠ p then -det3 A else det3 A := by
  rcases h with rfl | rfl | rfl <;> simp [det3, swp] <;> ring

theorem det_swap1 (A : M) {p : Nat} (h : p = 1 ∨ p = 2) : det3 (fun i => A (swp p 1 i)) = if 1 ≠ p then -det3 A else det3 A := by
  rcases h with rfl | rfl <;> simp [det3, swp] <;> ring

theorem swp_id (a i : Nat) : swp a a i = i := by
  unfold swp
  split
  · rename_i h; exact h.symm
  · rfl

theorem lu_factored {A : M} (h : det3 A ≠ 0) : ∃ m index d, luDecmp A = some (m, index, d) ∧ Factored A m index d ∧ d * (m 0 0 * m 1 1 * m 2 2) = det3 A := by
  have hb : ∀ i, i = 0 ∨ i = 1 ∨ i = 2 → 0 < rowBig A i := by
    intro i hi
    refine lt_of_le_of_ne (rowBig_ge A i).1 (fun h0 => h ?_)
    obtain ⟨a, b, c⟩ := rowBig_zero.mp h0.symm
    unfold det3
    rcases hi with rfl | rfl | rfl <;> rw [a, b, c] <;> ring
  have b0 := hb 0 (by simp)
  have b1 := hb 1 (by simp)
  have b2 := hb 2 (by simp)
  obtain ⟨s0, hs0⟩ : ∃ s0 : St, s0 = ⟨A, fun i => 1 / rowBig A i, fun i => i, 1, 3⟩ := ⟨_, rfl⟩
  have v0 : ∀ i, i = 0 ∨ i = 1 ∨ i = 2 → 0 < s0.vv i := by
    intro i hi
    rw [hs0]
    exact one_div_pos.mpr (hb i hi)
  have m0 : s0.m = A := by rw [hs0]
  have x0 : s0.index = fun i => i := by rw [hs0]
  have d0 : s0.d = 1 := by rw [hs0]
  have hlu : luDecmp A = some ((column (column (column s0 0) 1) 2).m, (column (column (column s0 0) 1) 2).index, (column (column (column s0 0) 1) 2).d) := by
    unfold luDecmp
    rw [if_neg (by rintro (h | h | h) <;> linarith), hs0]
    rfl
  clear hs0
  -- column 0
  obtain ⟨p, hp, hpc, hpz⟩ := pivot0 (m := A) (vv := s0.vv) s0.imax (v0 0 (by simp)) (v0 1 (by simp)) (v0 2 (by simp))
  obtain ⟨k1, k2, k3, k4⟩ := column_eq s0 0 p (by rw [lower0, m0]; exact hp)
  rw [lower0, m0] at k1
  obtain ⟨B, hB⟩ : ∃ B : M, B = fun i => A (swp p 0 i) := ⟨_, rfl⟩
  have hB0 : B 0 = A p := by rw [hB]; unfold swp; simp only; split <;> [(rename_i h'; rw [h']); rfl]
  have dB : det3 B = if 0 ≠ p then -det3 A else det3 A := by rw [hB]; exact det_swap0 A hpc
  have dB0 : det3 B ≠ 0 := by
    rw [dB]; split
    · exact neg_ne_zero.mpr h
    · exact h
  have hne0 : B 0 0 ≠ 0 := by
    rw [hB0]
    intro hz
    obtain ⟨a, b, c⟩ := hpz hz
    refine h ?_
    unfold det3
    rw [a, b, c]; ring
  rw [← hB, tiny_of hne0, divide0] at k1
  obtain ⟨s1, hs1⟩ : ∃ s1, s1 = column s0 0 := ⟨_, rfl⟩
  rw [← hs1] at k1 k2 k3 k4 hlu
  have v1 : ∀ i, i = 1 ∨ i = 2 → 0 < s1.vv i := by
    intro i hi
    rw [k2]
    refine v0 _ ?_
    unfold swp
    rcases hpc with rfl | rfl | rfl <;> rcases hi with rfl | rfl <;> simp
  clear hs1
  -- column 1
  obtain ⟨q, hq, hqc, hqz⟩ := pivot1 (m := lower (upper s1.m 1) 1) (vv := s1.vv) s1.imax (v1 1 (by simp)) (v1 2 (by simp))
  obtain ⟨l1, l2, l3, l4⟩ := column_eq s1 1 q hq
  obtain ⟨C, hC⟩ : ∃ C : M, C = fun i => B (swp q 1 i) := ⟨_, rfl⟩
  have dC : det3 C = if 1 ≠ q then -det3 B else det3 B := by rw [hC]; exact det_swap1 B hqc
  have dC0 : det3 C ≠ 0 := by
    rw [dC]; split
    · exact neg_ne_zero.mpr dB0
    · exact dB0
  have hlow : lower (upper s1.m 1) 1 = fun i c => if c = 1 ∧ (i = 1 ∨ i = 2) then B i 1 - B i 0 * (1 / B 0 0) * B 0 1 else
      if c = 0 ∧ (i = 1 ∨ i = 2) then B i 0 * (1 / B 0 0) else B i c := by
    rw [lower1, k1]
    funext i c
    by_cases hc : c = 1
    · subst hc
      by_cases hi : i = 1 ∨ i = 2
      · simp [hi]
      · simp [hi]
    · simp [hc]
  have hC0 : C 0 0 = B 0 0 := by rw [hC]; rcases hqc with rfl | rfl <;> rfl
  have hsw : (fun i => lower (upper s1.m 1) 1 (swp q 1 i)) = fun i c => if c = 1 ∧ (i = 1 ∨ i = 2) then C i 1 - C i 0 * (1 / C 0 0) * C 0 1 else
      if c = 0 ∧ (i = 1 ∨ i = 2) then C i 0 * (1 / C 0 0) else C i c := by
    rw [hlow, hC]
    funext i c
    have e : (swp q 1 i = 1 ∨ swp q 1 i = 2) ↔ (i = 1 ∨ i = 2) := by
      unfold swp
      rcases hqc with rfl | rfl
      · split <;> omega
      · split
        · omega
        · split <;> omega
    have e0 : swp q 1 0 = 0 := by rcases hqc with rfl | rfl <;> rfl
    simp only [e, e0]
  have hne1 : C 1 1 - C 1 0 * (1 / C 0 0) * C 0 1 ≠ 0 := by
    intro hz
    have hval : lower (upper s1.m 1) 1 q 1 = 0 := by
      have := congrFun (congrFun hsw 1) 1
      have e1 : swp q 1 1 = q := by rcases hqc with rfl | rfl <;> rfl
      simp only [e1] at this
      rw [this]
      simpa using hz
    obtain ⟨y1, y2⟩ := hqz hval
    rw [hlow] at y1 y2
    exact dB0 (det_thin1 hne0 (by simpa using y1) (by simpa using y2))
  rw [hsw, tiny_of (by simpa using hne1), divide1] at l1
  obtain ⟨s2, hs2⟩ : ∃ s2, s2 = column s1 1 := ⟨_, rfl⟩
  rw [← hs2] at l1 l2 l3 l4 hlu
  have v2 : 0 < s2.vv 2 := by
    rw [l2]
    refine v1 _ ?_
    rcases hqc with rfl | rfl <;> simp [swp]
  clear hs2
  -- column 2
  obtain ⟨n1, n2, n3, n4⟩ := column_eq s2 2 2 (pivot2 _ v2)
  have hid : (fun i => lower (upper s2.m 2) 2 (swp 2 2 i)) = lower (upper s2.m 2) 2 := by funext i; rw [swp_id]
  rw [hid, divide2] at n1
  have e00 : lower (upper s2.m 2) 2 0 0 = C 0 0 := by rw [lower2, l1]; simp
  have e01 : lower (upper s2.m 2) 2 0 1 = C 0 1 := by rw [lower2, l1]; simp
  have e02 : lower (upper s2.m 2) 2 0 2 = C 0 2 := by rw [lower2, l1]; simp
  have e10 : lower (upper s2.m 2) 2 1 0 = C 1 0 * (1 / C 0 0) := by rw [lower2, l1]; simp
  have e11 : lower (upper s2.m 2) 2 1 1 = C 1 1 - C 1 0 * (1 / C 0 0) * C 0 1 := by rw [lower2, l1]; simp
  have e12 : lower (upper s2.m 2) 2 1 2 = C 1 2 - C 1 0 * (1 / C 0 0) * C 0 2 := by rw [lower2, l1]; simp
  have e20 : lower (upper s2.m 2) 2 2 0 = C 2 0 * (1 / C 0 0) := by rw [lower2, l1]; simp
  have e21 : lower (upper s2.m 2) 2 2 1 = (C 2 1 - C 2 0 * (1 / C 0 0) * C 0 1) * (1 / (C 1 1 - C 1 0 * (1 / C 0 0) * C 0 1)) := by rw [lower2, l1]; simp
  have e22 : lower (upper s2.m 2) 2 2 2 = C 2 2 - C 2 0 * (1 / C 0 0) * C 0 2 - (C 2 1 - C 2 0 * (1 / C 0 0) * C 0 1) * (1 / (C 1 1 - C 1 0 * (1 / C 0 0) * C 0 1)) *
      (C 1 2 - C 1 0 * (1 / C 0 0) * C 0 2) := by rw [lower2, l1]; simp
  obtain ⟨m, hm⟩ : ∃ m, m = lower (upper s2.m 2) 2 := ⟨_, rfl⟩
  rw [← hm] at e00 e01 e02 e10 e11 e12 e20 e21 e22 n1
  have hdet : det3 C = m 0 0 * m 1 1 * m 2 2 := by
    rw [e00, e11, e22]
    exact det_pivots (by rw [hC0]; exact hne0) hne1
  have hC0' : C 0 0 ≠ 0 := by rw [hC0]; exact hne0
  have hne2 : m 2 2 ≠ 0 := fun hz => dC0 (by rw [hdet, hz, mul_zero])
  rw [tiny_of hne2] at n1
  have hidx : (column s2 2).index = fun i => swp p 0 (swp q 1 i) := by
    rw [n3, l3, k3, x0]
    funext i
    rw [swp_id]
  have hd : (column s2 2).d = if 1 ≠ q then -(if 0 ≠ p then -1 else 1) else (if 0 ≠ p then -1 else 1) := by
    rw [n4, if_neg (by simp), l4, k4, d0]
  have hCA : ∀ i c, A (swp p 0 (swp q 1 i)) c = C i c := by intro i c; rw [hC, hB]
  refine ⟨_, _, _, hlu, ?_, ?_⟩
  · rw [n1, hidx, hd]
    refine ⟨?_, ?_, ?_, ?_, hne2, ?_, ?_, ?_, ?_, ?_, ?_, ?_, ?_, ?_⟩
    · rcases hpc with rfl | rfl | rfl <;> rcases hqc with rfl | rfl <;> simp [swp]
    · rcases hpc with rfl | rfl | rfl <;> rcases hqc with rfl | rfl <;> simp [swp]
    · rw [e00]; exact hC0'
    · rw [e11]; exact hne1
    · rw [hCA, e00]
    · rw [hCA, e01]
    · rw [hCA, e02]
    · rw [hCA, e10, e00]; field_simp
    · rw [hCA, e10, e01, e11]; ring
    · rw [hCA, e10, e02, e12]; ring
    · rw [hCA, e20, e00]; field_simp
    · rw [hCA, e20, e01, e21, e11, mul_assoc (C 2 1 - _), one_div_mul_cancel hne1]; ring
    · rw [hCA, e20, e02, e21, e12, e22]; ring
  · rw [n1, hd, ← hdet, dC, dB]
    split <;> split <;> ring

end Plc.Mat
