import Verif.Model.Measure

/-! # The closest points of two edges (`find_poca` of `src/octrope.c`)

Doubles and long doubles are real numbers, without rounding. -/

namespace Plc.Poca

open Plc.Core Plc.FindCrossings Plc.RandomPolygon Plc.Equilateral Plc.Motions Plc.Measure

/-- `if (T > 1) { T = 1; } else if (T < 0) { T = 0; }` (1205-1206, 1216-1217, 1225-1226, 1250-1251, 1261-1262, 1270-1271). -/
noncomputable def clamp (x : ℝ) : ℝ := if 1 < x then 1 else if x < 0 then 0 else x

/-- A quotient; `none` if the divisor is zero. This happens for an edge of length zero only, and then the quotient is
0/0, which is not a number, and so are all values computed from it. -/
noncomputable def ratio (a b : ℝ) : Option ℝ := if b = 0 then none else some (a / b)

/-- `*dist` (1231-1234, 1276-1279). -/
noncomputable def gap (d1 d2 d12 : V3) (t u : ℝ) : ℝ :=
  Real.sqrt ((t * d1.x - u * d2.x - d12.x) * (t * d1.x - u * d2.x - d12.x) + (t * d1.y - u * d2.y - d12.y) * (t * d1.y - u * d2.y - d12.y) +
    (t * d1.z - u * d2.z - d12.z) * (t * d1.z - u * d2.z - d12.z))

/-- What follows the choice of `T` (1210-1239 in long double, 1255-1282 in double): `*t`, `*u` and `*dist`. -/
noncomputable def finish (d1 d2 d12 : V3) (T : ℝ) : Option (ℝ × ℝ × ℝ) := do
  let U ← ratio (T * d1.dot d2 - d2.dot d12) (d2.dot d2)
  if 1 < U then do
    let T' ← ratio (1 * d1.dot d2 + d1.dot d12) (d1.dot d1)
    some (clamp T', 1, gap d1 d2 d12 (clamp T') 1)
  else if U < 0 then do
    let T' ← ratio (0 * d1.dot d2 + d1.dot d12) (d1.dot d1)
    some (clamp T', 0, gap d1 d2 d12 (clamp T') 0)
  else some (T, U, gap d1 d2 d12 T U)

/-- `find_poca` (1148-1284). Without rounding the second computation of the denominator, in long double, gives the
same number. -/
noncomputable def findPoca (A0 A1 B0 B1 : V3) : Option (ℝ × ℝ × ℝ) :=
  let d1 := A1.sub A0
  let d2 := B1.sub B0
  let d12 := B0.sub A0
  let denom := d1.dot d1 * d2.dot d2 - d1.dot d2 * d1.dot d2
  let num := d1.dot d12 * d2.dot d2 - d2.dot d12 * d1.dot d2
  if denom < 1e-10 then
    if denom < 1e-25 then finish d1 d2 d12 0
    else finish d1 d2 d12 (clamp (num / denom))
  else finish d1 d2 d12 (clamp (num / denom))

end Plc.Poca
