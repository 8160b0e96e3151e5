import Verif.Model.RandomPolygon

/-! # Random equilateral polygons (`src/plcRandomPolygon.c` 797-985, `src/vector.c` 175-193)

Doubles are real numbers, without rounding. A result which is not a number (division by 0, square root of a negative number) is the
outcome `ub`. The random numbers are a stream, read from some place on. -/

namespace Plc.Equilateral

open Plc.Core Plc.FindCrossings Plc.RandomPolygon

/-- Division. -/
noncomputable def divC (a b : ℝ) : Res ℝ := if b = 0 then .error .ub else .ok (a / b)

/-- `sqrt`. -/
noncomputable def sqrtC (a : ℝ) : Res ℝ := if a < 0 then .error .ub else .ok (Real.sqrt a)

/-- `plc_normalize_vect` (vector.c 175-193) with its flag not looked at. -/
noncomputable def normalize (v : V3) : Res V3 := do
  let s ← divC 1 (norm3 v)
  .ok (V3.scale s v)

/-- `plc_normalize_vect` followed by `assert(ok)`; `DBL_EPSILON` is 2⁻⁵². -/
noncomputable def normalizeA (v : V3) : Res V3 :=
  if norm3 v < 1 / 2 ^ 52 ∧ -norm3 v < 1 / 2 ^ 52 then .error .die else normalize v

/-- `plc_vlincomb`. -/
noncomputable def lincomb (a : ℝ) (A : V3) (b : ℝ) (B : V3) : V3 := add (V3.scale a A) (V3.scale b B)

/-- The loop of `fantriangulation_action_angle` (826-883), from place `i` with `k` rounds to go; `v` is `vt[i]`. -/
noncomputable def fanLoop (n : Nat) (theta d : List ℝ) : Nat → Nat → V3 → V3 → Res (List V3)
  | 0, _, _, _ => .ok []
  | k + 1, i, v, normal => do
    let d0 ← rd d (i - 1)
    let d1 ← rd d i
    let cosAlpha ← divC (d0 * d0 + d1 * d1 - 1) (2 * d0 * d1)
    let sinAlpha ← sqrtC (1 - cosAlpha * cosAlpha)
    let f1 ← normalizeA v
    let f2 ← normalizeA (normal.crossProd f1)
    let v' := lincomb (d1 * cosAlpha) f1 (d1 * sinAlpha) f2
    if i < n - 2 then do
      let w ← normalizeA v'
      let f3 ← normalize (normal.crossProd w)
      let t ← rd theta (i - 1)
      let normal' ← normalize (lincomb (Real.cos t) normal (Real.sin t) f3)
      let l ← fanLoop n theta d k (i + 1) v' normal'
      .ok (v' :: l)
    else do
      let l ← fanLoop n theta d k (i + 1) v' normal
      .ok (v' :: l)

/-- `fantriangulation_action_angle` (799-888). With fewer than two vertices the second write is outside of the buffer. -/
noncomputable def fan (n : Nat) (theta d : List ℝ) : Res (List V3) :=
  if n < 2 then .error .ub
  else do
    let l ← fanLoop n theta d (n - 2) 1 ⟨1, 0, 0⟩ ⟨0, 0, 1⟩
    let vs := (⟨0, 0, 0⟩ : V3) :: ⟨1, 0, 0⟩ :: l
    let last ← rd vs (n - 1)
    assertC (decide (|dist3 ⟨0, 0, 0⟩ last - 1| < 1e-8))
    .ok vs

/-- The innermost loop (914-937): `k` distances to go after `prev`, random numbers from `pos` on. The distances, `distances_ok`, and the
place of the next random number. -/
noncomputable def genDist (u : Nat → ℝ) : Nat → Nat → ℝ → List ℝ × Bool × Nat
  | 0, pos, _ => ([], true, pos)
  | k + 1, pos, prev =>
    let x := prev + (2 * u pos - 1)
    if x + prev < 1 ∨ x < 1e-12 then ([x], false, pos + 1)
    else
      let r := genDist u k (pos + 1) x
      (x :: r.1, r.2)

/-- The two outer loops (912-948) and the assertion on `safety_check`, with so many rounds to go before it is 10000. A round is the end
when all distances are good and the last one is from 0 to 2; the two loops have the same bound. -/
noncomputable def accept (u : Nat → ℝ) (n : Nat) : Nat → Nat → Res (List ℝ × Nat)
  | 0, _ => .error .die
  | f + 1, pos =>
    let r := genDist u (n - 3) pos 1
    let last := (1 :: r.1).getLast (by simp)
    if r.2.1 = true ∧ ¬ (last < 0 ∨ last > 2) then (if f = 0 then .error .die else .ok (1 :: r.1, r.2.2))
    else accept u n f r.2.2

/-- `plc_random_equilateral_closed_polygon` (891-969). With one or two edges `d` is accessed outside of its bounds; with 0 the size is
so large that there is no memory. -/
noncomputable def closedEquilateral (u : Nat → ℝ) (n : Nat) : Res (List V3) :=
  if n = 0 then .error .die
  else if n < 3 then .error .ub
  else if n > 3000 then .error .die
  else do
    let (d, pos) ← accept u n 10000 0
    let theta := (List.range (n - 3)).map (fun i => 6.2831853071795864769 * u (pos + i))
    fan n theta (d ++ [1])

/-- `plc_random_equilateral_open_polygon` (972-990); `dirs` are the directions drawn. -/
noncomputable def openEquilateral (dirs : List V3) : List V3 :=
  ⟨0, 0, 0⟩ :: path ⟨0, 0, 0⟩ (dirs.map (V3.scale (2 / dirs.length)))

end Plc.Equilateral
