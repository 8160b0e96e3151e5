import Verif.Model.Basic
import Mathlib.Analysis.SpecialFunctions.Pow.Real

/-! # Splines (`src/splines.c`)

One component of a curve. Doubles are real numbers, without rounding. Constraints are not modelled. -/

namespace Plc.Spline

/-- `plc_vector`. Sums, differences, multiples and the componentwise products and quotients are those of functions. -/
abbrev V := Fin 3 → ℝ

/-- `DBL_EPSILON`. -/
noncomputable def eps : ℝ := 1 / 2 ^ 52

/-- `plc_M_distance`. -/
noncomputable def dist (a b : V) : ℝ := Real.sqrt ((a 0 - b 0) ^ 2 + (a 1 - b 1) ^ 2 + (a 2 - b 2) ^ 2)

/-- The vertices of a component, with vt[nv] as left by `plc_fix_wrap`, and its colors. -/
structure Strand where
  isOpen : Bool
  nv : Nat
  vt : Nat → V
  clr : List ℝ

/-- `plc_spline_strand`. The entries of `vt2` which are not written are `none`. Of the colors one channel is modelled. -/
structure Spl where
  isOpen : Bool
  ns : Nat
  svals : Nat → ℝ
  vt : Nat → V
  vt2 : Nat → Option V
  clr : List ℝ

/-- The arclength of each vertex (276-287). -/
noncomputable def svals (vt : Nat → V) : Nat → ℝ
  | 0 => 0
  | i + 1 => svals vt i + dist (vt i) (vt (i + 1))

/-- `sig` (352-353). -/
noncomputable def sig (s : Nat → ℝ) (i : Nat) : ℝ := (s i - s (i - 1)) / (s (i + 1) - s (i - 1))

/-- `p` (357-358). -/
noncomputable def pOf (s : Nat → ℝ) (i : Nat) (z : V) : V := fun c => sig s i * z c + 1 * 2

/-- The entries i of `vt2` and `u` during the decomposition loop (331-384), each from the entry before. -/
noncomputable def forward (s : Nat → ℝ) (vt : Nat → V) (yp1 : V) : Nat → V × V
  | 0 => (fun _ => -0.5, fun c => 3 / ((s 1 - s 0) * (s 1 - s 0)) * (vt 1 c - vt 0 c) + -3 / (s 1 - s 0) * yp1 c)
  | j + 1 =>
    let z := forward s vt yp1 j
    let i := j + 1
    let p := pOf s i z.1
    (fun c => (sig s i - 1) / p c,
     fun c => (6 / (s (i + 1) - s (i - 1)) * (1 / (s (i + 1) - s i) * (vt (i + 1) c - vt i c) + -1 / (s i - s (i - 1)) * (vt i c - vt (i - 1) c)) - sig s i * z.2 c) / p c)

/-- `vt2[top - j]` after the backsubstitution loop (386-421). -/
noncomputable def backward (s : Nat → ℝ) (vt : Nat → V) (yp1 ypn : V) (top : Nat) : Nat → V
  | 0 =>
    let h := s top - s (top - 1)
    let un : V := fun c => 3 / h * ypn c + -3 / (h * h) * (vt top c - vt (top - 1) c)
    fun c => (1 * un c + -0.5 * (forward s vt yp1 (top - 1)).2 c) / (0.5 * (forward s vt yp1 (top - 1)).1 c + 1 * 1)
  | j + 1 => fun c => (forward s vt yp1 (top - (j + 1))).1 c * backward s vt yp1 ypn top j c + (forward s vt yp1 (top - (j + 1))).2 c

/-- The number of segments (345). -/
def Strand.top (L : Strand) : Nat := if L.isOpen then L.nv - 1 else L.nv

/-- `plc_convert_to_spline` (205-429) for one component; `yp1` and `ypn` are the values of `plc_mean_tangent` at the first and last vertex. -/
noncomputable def toSpline (L : Strand) (yp1 ypn : V) : Res Spl :=
  -- `u[I-1]` would be read before the start of `u`
  if L.top = 0 then throw .ub
  else
    let s := svals L.vt
    let ypn := if L.isOpen then ypn else yp1
    pure ⟨L.isOpen, L.nv, s, L.vt, fun k => if k ≤ L.top then some (backward s L.vt yp1 ypn L.top (L.top - k)) else none, L.clr⟩

/-- An entry of `vt2` is read; one which was not written is undefined. -/
def second (sp : Spl) (k : Nat) : Res V :=
  match sp.vt2 k with
  | some v => .ok v
  | none => .error .ub

open Classical in
/-- `evaluate_poly` (431-455). -/
noncomputable def evalPoly (sp : Spl) (shi slo : Nat) (s : ℝ) : Res V := do
  let h := sp.svals shi - sp.svals slo
  assertC (decide (h > eps))
  let a := (sp.svals shi - s) / h
  let b := (s - sp.svals slo) / h
  let v := sp.vt
  let m ← second sp slo
  let n ← second sp shi
  pure (fun c => a * v slo c + b * v shi c + ((a * a * a - a) * (h * h) / 6 * m c + (b * b * b - b) * (h * h) / 6 * n c))

open Classical in
/-- `evaluate_poly_derivative` (457-501). -/
noncomputable def evalDeriv (sp : Spl) (shi slo : Nat) (s : ℝ) : Res V := do
  let h := sp.svals shi - sp.svals slo
  assertC (decide (h > eps))
  let a := (sp.svals shi - s) / h
  let b := (s - sp.svals slo) / h
  let da := -1 / h
  let db := 1 / h
  let m ← second sp slo
  let n ← second sp shi
  pure (fun c => da * sp.vt slo c + db * sp.vt shi c + ((3 * a * a * da - da) * (h * h) / 6 * m c + (3 * b * b * db - db) * (h * h) / 6 * n c))

open Classical in
/-- The search in `plc_convert_from_spline` (587-593); `slo` is always `shi` - 1. -/
noncomputable def bracket (sp : Spl) (s : ℝ) : Nat → Nat → Nat
  | 0, shi => shi
  | f + 1, shi => if sp.svals shi ≤ s ∧ shi < (if sp.isOpen then sp.ns - 1 else sp.ns) then bracket sp s f (shi + 1) else shi

/-- `s_max` (576-581). -/
noncomputable def sMax (sp : Spl) (nv : Nat) : ℝ := if sp.isOpen then sp.svals (sp.ns - 1) * ((nv : ℝ) / ((nv : ℝ) - 1)) else sp.svals sp.ns

open Classical in
/-- The loop of `plc_convert_from_spline` over the new vertices (583-609): the vertices and colors i, i+1, …. Colors are only interpolated if there is more than one. -/
noncomputable def vertices (sp : Spl) (nv : Nat) : Nat → Nat → Nat → Res (List (V × Option ℝ))
  | 0, _, _ => pure []
  | r + 1, i, shi => do
    let s := sMax sp nv * i / nv
    let shi := bracket sp s (sp.ns + 1) shi
    assertC (decide (sp.svals shi ≥ s))
    assertC (decide (sp.svals (shi - 1) ≤ s))
    let v ← evalPoly sp shi (shi - 1) s
    let h := sp.svals shi - sp.svals (shi - 1)
    let col ← (if sp.clr.length > 1 then do
      let c0 ← rd sp.clr (shi - 1)
      let c1 ← rd sp.clr shi
      pure (some ((sp.svals shi - s) / h * c0 + (s - sp.svals (shi - 1)) / h * c1))
    else pure none)
    let rest ← vertices sp nv r (i + 1) shi
    pure ((v, col) :: rest)

/-- `plc_convert_from_spline` (510-662) for one component. -/
noncomputable def fromSpline (sp : Spl) (nv : Nat) : Res (List (V × Option ℝ)) := vertices sp nv nv 0 1

open Classical in
/-- The search in `plc_sample_spline` (687-700). -/
noncomputable def search (sp : Spl) (s : ℝ) : Nat → Nat → Nat → Nat × Nat
  | 0, klo, khi => (klo, khi)
  | f + 1, klo, khi =>
    if khi - klo > 1 then
      let k := (khi + klo) / 2
      if sp.svals k ≥ s then search sp s f klo k else search sp s f k khi
    else (klo, khi)

/-- The two loops for wraparound (684-685): for positive `len` they end with the one of the values s + k len which is in [0, len). -/
noncomputable def wrap (len s : ℝ) : ℝ := s - len * ⌊s / len⌋

/-- `plc_sample_spline` (667-703). -/
noncomputable def sample (sp : Spl) (s : ℝ) : Res V :=
  let s := wrap (sp.svals sp.ns) s
  let k := search sp s sp.ns 0 sp.ns
  evalPoly sp k.2 k.1 s

/-- `plc_spline_tangent` (707-743). -/
noncomputable def tangent (sp : Spl) (s : ℝ) : Res V :=
  let s := wrap (sp.svals sp.ns) s
  let k := search sp s sp.ns 0 sp.ns
  evalDeriv sp k.2 k.1 s

end Plc.Spline
