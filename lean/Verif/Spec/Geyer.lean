import Mathlib.Analysis.SpecialFunctions.Pow.Real
import Mathlib.Algebra.BigOperators.Group.Finset.Basic

/-! # The initial positive sequence estimator -/

namespace Plc.Geyer.Spec

open Finset

/-- The mean of the first n values. -/
noncomputable def mean (x : Nat → ℝ) (n : Nat) : ℝ := (∑ i ∈ range n, x i) / n

/-- The autocovariance with lag l, as defined by Geyer: divided by the number of samples. -/
noncomputable def gam (x : Nat → ℝ) (n l : Nat) : ℝ := (∑ j ∈ range (n - l), (x j - mean x n) * (x (j + l) - mean x n)) / n

/-- Sums of adjacent pairs. -/
noncomputable def Gam (x : Nat → ℝ) (n k : Nat) : ℝ := gam x n (2 * k) + gam x n (2 * k + 1)

/-- Γ 1, …, Γ K is the initial sequence of positive ones, up to those with k < top. -/
def Initial (G : Nat → ℝ) (top K : Nat) : Prop :=
  (∀ k, 1 ≤ k → k ≤ K → 0 < G k) ∧ (top ≤ K + 1 ∨ (K + 1 < top ∧ G (K + 1) ≤ 0)) ∧ (K = 0 ∨ K < top)

/-- The estimate of the variance. -/
noncomputable def est (x : Nat → ℝ) (n K : Nat) : ℝ := gam x n 0 + 2 * gam x n 1 + 2 * ∑ k ∈ range K, Gam x n (k + 1)

end Plc.Geyer.Spec
