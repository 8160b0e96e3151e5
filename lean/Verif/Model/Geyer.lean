import Verif.Model.Basic
import Mathlib.Analysis.SpecialFunctions.Pow.Real
import Mathlib.Algebra.BigOperators.Group.Finset.Basic

/-! # Estimates of the error of Markov chain integration (`src/geyer_estimators.c`)

Doubles are real numbers, without rounding; arrays are functions, with the places where they would be read or written out of bounds marked as
undefined behaviour. `cblas_ddot` is the sum of products. Plain accumulations in a loop are written as sums. -/

namespace Plc.Geyer

open Finset

/-- `cblas_ddot(n,x,1,y,1)`. -/
noncomputable def ddot (n : Nat) (x y : Nat → ℝ) : ℝ := ∑ i ∈ range n, x i * y i

/-- The loop over the Gammas (84-124): the final k, the Gammas computed and the sum of those before the first which is not positive. -/
noncomputable def gammas (m : Nat) (x : Nat → ℝ) : Nat → Nat → List ℝ → ℝ → Nat × List ℝ × ℝ
  | 0, k, gs, sum => (k, gs, sum)
  | f + 1, k, gs, sum =>
    let g := 1 / (m : ℝ) * (ddot (m - 2 * k) x (fun i => x (i + 2 * k)) + ddot (m - (2 * k + 1)) x (fun i => x (i + (2 * k + 1))))
    if g ≤ 0 then (k + 1, gs ++ [g], sum) else gammas m x f (k + 1) (gs ++ [g]) (sum + g)

/-- What `ips_sigma_estimator_with_gammas` returns. `n1` is N + 1 = k - 1. -/
structure Est where
  sigma : ℝ
  gamma0 : ℝ
  gamma1 : ℝ
  gs : List ℝ
  n1 : Nat

open Classical in
/-- `ips_sigma_estimator_with_gammas` (47-164). The buffer of Gammas is doubled before it is full. -/
noncomputable def sigmaEst (x : Nat → ℝ) (m : Nat) : Res Est := do
  assertC (decide (m > 0))
  let gamma0 := 1 / (m : ℝ) * ddot m x x
  let gamma1 := 1 / (m : ℝ) * ddot (m - 1) x (fun i => x (i + 1))
  let r := gammas m x (m / 2 - 1) 1 [] 0
  assertC (decide (r.2.2 ≥ 0))
  assertC (decide (gamma0 ≥ 0))
  let est := gamma0 + 2 * gamma1 + 2 * r.2.2
  pure ⟨if est ≥ 0 then Real.sqrt est else Real.sqrt gamma0, gamma0, gamma1, r.2.1, r.1 - 1⟩

/-- The halving of `sample_mean` (190-198). The entries read are not among those written, so the inner loop is written as one step. -/
noncomputable def halve : Nat → Nat → (Nat → ℝ) → Nat → ℝ
  | 0, _, x => x
  | f + 1, n, x => if n > 1 then halve f (n / 2) (fun i => if i < n / 2 then x i + x (i + n / 2) else x i) else x

/-- `sample_mean` (166-208): `newLen` is the largest power of 2 which is not larger than `dLen` (computed with floating point logarithms, taken as exact). -/
noncomputable def sampleMean (x : Nat → ℝ) (n : Nat) : ℝ :=
  let p := 2 ^ Nat.log 2 n
  let y := fun i => if i < n - p then x i + x (i + p) else x i
  halve n p y 0 / n

/-- `ips_value` (210-228): the mean and the error. -/
noncomputable def ipsValue (x : Nat → ℝ) (n : Nat) : Res (ℝ × ℝ) := do
  let mean := sampleMean x n
  let e ← sigmaEst (fun i => x i - mean) n
  pure (mean, 1.96 * e.sigma / Real.sqrt n)

/-- `lagged_dot` (282-291). -/
noncomputable def laggedDot (lag n : Nat) (v : Nat → ℝ) : ℝ := if lag > n then 0 else ddot (n - lag) v (fun i => v (i + lag))

/-- `split_lagged_dot` (293-326), with `aidx` = sizeA - lag + t and `bidx` = t. -/
noncomputable def splitDot (lag sizeA : Nat) (a : Nat → ℝ) (sizeB : Nat) (b : Nat → ℝ) : ℝ :=
  ∑ t ∈ range (min lag sizeB), if lag ≤ sizeA + t then a (sizeA + t - lag) * b t else 0

/-- `geyer_ips_t` (the fields in use). -/
structure Gips where
  size : Nat
  buf : Nat → ℝ
  used : Nat
  samples : Nat
  initbuf : Nat → ℝ
  finalbuf : Nat → ℝ
  ifsize : Nat
  ldot : Nat → ℝ
  nldots : Nat
  overlap : Nat → ℝ
  sum : ℝ

/-- An entry of an array is set. -/
noncomputable def set (x : Nat → ℝ) (i : Nat) (v : ℝ) : Nat → ℝ := fun j => if j = i then v else x j

/-- `geyer_ips_new` (450-497). `nan` stands for the value the buffer is filled with. -/
noncomputable def new (nan : ℝ) (size : Nat) : Gips := ⟨size, fun _ => nan, 0, 0, fun _ => nan, fun _ => nan, 0, fun _ => nan, 0, fun _ => nan, 0⟩

/-- The last `ifsize` samples are stored where `geyer_ips_add` would have stored them (551-559). -/
noncomputable def fillFinal (g : Gips) (ifsize : Nat) : Nat → ℝ :=
  (List.range' (g.samples - ifsize) ifsize).foldl (fun f i => set f (i % ifsize) (g.buf (i % g.size))) g.finalbuf

/-- The end of both branches with a full buffer (594-606, 645-662). -/
noncomputable def restart (nan : ℝ) (g : Gips) (d : ℝ) : Gips :=
  { g with buf := set (fun _ => nan) 0 d, used := 1, sum := g.sum + d, finalbuf := set g.finalbuf (g.samples % g.ifsize) d, samples := g.samples + 1 }

/-- `geyer_ips_add` (499-664). -/
noncomputable def add (nan : ℝ) (g : Gips) (d : ℝ) : Res Gips :=
  if g.used < g.size then
    pure { g with buf := set g.buf (g.samples % g.size) d, used := g.used + 1, sum := g.sum + d,
                  finalbuf := if g.ifsize > 0 then set g.finalbuf (g.samples % g.ifsize) d else g.finalbuf, samples := g.samples + 1 }
  else if g.samples = g.size then do
    let mean := g.sum / g.size
    let e ← sigmaEst (fun i => g.buf i - mean) g.size
    let nldots := min (max (6 * e.n1) 50) g.size
    pure (restart nan { g with nldots := nldots, ifsize := nldots, initbuf := g.buf, finalbuf := fillFinal g nldots,
                               ldot := fun i => laggedDot i g.size g.buf, overlap := fun i => g.buf (g.size - nldots + i) } d)
  else
    pure (restart nan { g with ldot := fun i => g.ldot i + laggedDot i g.size g.buf + splitDot i g.nldots g.overlap g.used g.buf,
                               overlap := fun i => g.buf (g.size - g.nldots + i) } d)

/-- `geyer_ips_data_val` (336-375). The message for a value which is not stored is printed and 0 returned. -/
noncomputable def dataVal (g : Gips) (i : Nat) : Res ℝ := do
  assertC (decide (i < g.samples))
  if g.samples < g.size then pure (g.buf i)
  else if g.ifsize ≠ 0 then
    if i < g.ifsize then pure (g.initbuf i)
    else if i ≥ g.samples - g.ifsize then pure (g.finalbuf (i % g.ifsize))
    else pure 0
  else throw Fault.die

/-- `zero_meaned_covariance` (378-446). -/
noncomputable def zeroMeaned (g : Gips) (lag : Nat) (dot mean : ℝ) : Res ℝ := do
  assertC (decide (lag < g.ifsize))
  let c ← (List.range lag).foldlM (fun (acc : ℝ × ℝ) i => do
    let a ← dataVal g i
    let b ← dataVal g (g.samples - 1 - i)
    pure (acc.1 + a, acc.2 + b)) (0, 0)
  pure ((dot + mean * (c.1 + c.2) - mean * mean * ((g.samples + lag : Nat) : ℝ)) / g.samples)

/-- The loop over the Gammas in `geyer_ips_value` (783-789): the final N. -/
noncomputable def positives (G : Nat → ℝ) (nldots : Nat) : Nat → Nat → Nat
  | 0, n => n
  | f + 1, n => if G (n - 1) > 0 ∧ 2 * n + 1 < nldots then positives G nldots f (n + 1) else n

/-- What `geyer_ips_value` returns: the mean, the error, which is `none` for NaN (the square root of a negative number), and `*ok`, which is `none` if it
is not set. -/
structure Value where
  mean : ℝ
  error : Option ℝ
  ok : Option Bool

/-- `sqrt`. -/
noncomputable def sqrtC (x : ℝ) : Option ℝ := if x < 0 then none else some (Real.sqrt x)

/-- `geyer_ips_value` with `error` not NULL (667-805). -/
noncomputable def value (g : Gips) : Res Value :=
  if g.samples = 0 then pure ⟨0, some 0, none⟩
  else
    let mean := g.sum / g.samples
    if g.samples ≤ g.size then do
      let e ← sigmaEst (fun i => g.buf i - mean) g.samples
      -- `calloc(0)`, and then `Gamma[0]` is written (715-720)
      if e.n1 = 0 then throw Fault.ub
      pure ⟨mean, some (1.96 * e.sigma / Real.sqrt g.samples), some true⟩
    else do
      let ldots := fun i => (if i < min g.nldots g.used then g.ldot i + laggedDot i g.used g.buf else g.ldot i) + splitDot i g.nldots g.overlap g.used g.buf
      let lg ← (List.range g.nldots).mapM (fun i => zeroMeaned g i (ldots i) mean)
      -- `littlegamma[1]` is read
      if g.nldots < 2 then throw Fault.ub
      let G := fun i => lg.getD (2 * i) 0 + lg.getD (2 * i + 1) 0
      let n := positives G g.nldots g.nldots 1
      let last := G (n - 1)
      let n' := if last < 0 then n - 1 else n
      let var := -(lg.getD 0 0) + ∑ i ∈ range n', 2 * G i
      pure ⟨mean, (sqrtC var).map (fun s => 1.96 * s / Real.sqrt g.samples), some (decide (last < 0))⟩

/-- Samples are added one after the other. -/
noncomputable def addAll (nan : ℝ) (g : Gips) (ds : List ℝ) : Res Gips := ds.foldlM (add nan) g

end Plc.Geyer
