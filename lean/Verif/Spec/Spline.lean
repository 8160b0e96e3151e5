import Mathlib.Analysis.Calculus.Deriv.Basic

/-! # Cubic splines -/

namespace Plc.Spline.Spec

/-- The pieces `f i`, with first and second derivatives `f' i` and `f'' i`, each defined on the whole line, fit together to a curve through the points
`p i` at parameters `s i`, i ≤ n, with continuous first and second derivatives, and with first derivatives `y0` and `y1` at the ends; the second
derivatives are linear on each piece. -/
structure IsSpline (s : Nat → ℝ) (p : Nat → Fin 3 → ℝ) (n : Nat) (y0 y1 : Fin 3 → ℝ) (f f' f'' : Nat → ℝ → Fin 3 → ℝ) : Prop where
  deriv : ∀ i, i < n → ∀ x c, HasDerivAt (fun x => f i x c) (f' i x c) x
  deriv2 : ∀ i, i < n → ∀ x c, HasDerivAt (fun x => f' i x c) (f'' i x c) x
  linear : ∀ i, i < n → ∀ c, ∃ a b : ℝ, ∀ x, f'' i x c = a + b * x
  left : ∀ i, i < n → f i (s i) = p i
  right : ∀ i, i < n → f i (s (i + 1)) = p (i + 1)
  smooth : ∀ i, i + 1 < n → f' i (s (i + 1)) = f' (i + 1) (s (i + 1))
  smooth2 : ∀ i, i + 1 < n → f'' i (s (i + 1)) = f'' (i + 1) (s (i + 1))
  first : f' 0 (s 0) = y0
  last : f' (n - 1) (s n) = y1

end Plc.Spline.Spec
