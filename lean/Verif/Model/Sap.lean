import Verif.Model.Equilateral

/-! # Random self-avoiding polygons (`src/plcRandomSap.c` 145-430)

Doubles are real numbers; a result which is not a number is the outcome `ub`. The numbers given by `plc_xoshiro_uniform` are a stream. -/

namespace Plc.Sap

open Plc.Core Plc.FindCrossings Plc.RandomPolygon Plc.Equilateral

/-- `plc_sq_dist`, also written out in the sampler. -/
noncomputable def sqDist (a b : V3) : ℝ :=
  (a.x - b.x) * (a.x - b.x) + (a.y - b.y) * (a.y - b.y) + (a.z - b.z) * (a.z - b.z)

/-- `plc_is_sap_internal` (145-208) for one pair of vertices: is `return false` reached? -/
noncomputable def failsSame (verbose : Bool) (a b : V3) : Bool := decide (sqDist a b < 1 - 1e-10) && verbose

/-- Does some pair `vt2 < vt1` in a component make it return (162-181)? -/
noncomputable def failsIn (verbose : Bool) (vs : List V3) : Bool :=
  (List.range vs.length).any fun i => (List.range i).any fun j =>
    match vs[i]?, vs[j]? with
    | some a, some b => failsSame verbose a b
    | _, _ => false

/-- Does some pair of vertices of two components make it return (183-200)? There is no comparison there. -/
def failsBetween (verbose : Bool) (vs ws : List V3) : Bool := vs.any fun _ => ws.any fun _ => verbose

/-- `plc_is_sap_internal` (145-208). -/
noncomputable def isSapInternal (verbose : Bool) (L : List (List V3)) : Bool :=
  !((List.range L.length).any fun i => (List.range (i + 1)).any fun j =>
    match L[i]?, L[j]? with
    | some a, some b => if i = j then failsIn verbose a else failsBetween verbose a b
    | _, _ => false)

/-- `plc_is_sap` (210-214). -/
noncomputable def isSap (L : List (List V3)) : Bool := isSapInternal false L

/-- The two frame vectors at the vertex `v` (306-322, 367-383). -/
noncomputable def frameAt (v normal : V3) : Res (V3 × V3) := do
  let f1 ← normalize v
  let f2 ← normalize (normal.crossProd f1)
  .ok (f1, f2)

/-- Is the new vertex too near to one before (347-356, 397-404)? -/
noncomputable def near (x : V3) (X : List V3) : Bool := X.any fun y => decide (sqDist x y < 1 - 1e-9)

/-- What a trial ends with: a restart, or all vertices; and the place of the next random number. -/
abbrev Trial := Res (Option (List V3) × Nat)

/-- The last vertex (361-404); `X` are the vertices so far, the last one `v` first. -/
noncomputable def lastVertex (X : List V3) (v normal : V3) (lastDiag : ℝ) (pos : Nat) : Trial :=
  if lastDiag ≤ 0 ∨ lastDiag ≥ 2 then .ok (none, pos)
  else do
    let (f1, f2) ← frameAt v normal
    let cosPhi := lastDiag / 2
    let sinPhi ← sqrtC (1 - cosPhi * cosPhi)
    let x := lincomb cosPhi f1 sinPhi f2
    if near x X then .ok (none, pos) else .ok (some (x :: X), pos)

/-- The loop of a trial (299-358), with `k` rounds to go, and the last vertex. -/
noncomputable def trialLoop (u : Nat → ℝ) : Nat → List V3 → V3 → V3 → ℝ → Nat → Trial
  | 0, X, v, normal, lastDiag, pos => lastVertex X v normal lastDiag pos
  | k + 1, X, v, normal, lastDiag, pos =>
    let thisDiag := lastDiag + 2 * (u pos - 0.5)
    if thisDiag + lastDiag < 1 ∨ thisDiag ≤ 0 then .ok (none, pos + 1)
    else do
      let (f1, f2) ← frameAt v normal
      let cosPhi ← divC (thisDiag * thisDiag + lastDiag * lastDiag - 1) (2 * thisDiag * lastDiag)
      let sinPhi ← sqrtC (1 - cosPhi * cosPhi)
      let x := V3.scale thisDiag (lincomb cosPhi f1 sinPhi f2)
      let f3 := lincomb (-sinPhi) f1 cosPhi f2
      let theta := 6.2831853071795864769 * u (pos + 1)
      let normal' := lincomb (Real.cos theta) normal (Real.sin theta) f3
      if near x X then .ok (none, pos + 2) else trialLoop u k (x :: X) x normal' thisDiag (pos + 2)

/-- One trial (290-404). -/
noncomputable def trial (u : Nat → ℝ) (n pos : Nat) : Trial :=
  trialLoop u (n - 3) [⟨1, 0, 0⟩, ⟨0, 0, 0⟩] ⟨1, 0, 0⟩ ⟨0, 0, 1⟩ 1 pos

/-- The trials; so many may still be made before `trials` is `max_trials`. -/
noncomputable def trials (u : Nat → ℝ) (n : Nat) : Nat → Nat → Res (List V3)
  | 0, _ => .error .die
  | f + 1, pos => do
    let (r, pos') ← trial u n pos
    match r with
    | some X => .ok X.reverse
    | none => trials u n f pos'

/-- `plc_random_equilateral_closed_self_avoiding_polygon` (217-430). -/
noncomputable def sapPolygon (u : Nat → ℝ) (n : Nat) : Res (List V3) :=
  if n < 5 then .error .die
  else if n > 25 then .error .die
  else trials u n 49999999 0

end Plc.Sap
