import Verif.Model.FindCrossings

/-! # Random polygons of the symmetric measure (`src/plcRandomPolygon.c` 57-505, 994-1160)

Doubles are real numbers, without rounding. Random numbers are given: an array of Gaussians is any list of real numbers. `none` as a
result is the null pointer, and also a curve whose coordinates are not numbers (after a division by zero); the two are told apart. -/

namespace Plc.RandomPolygon

open Plc.Core Plc.FindCrossings

/-- `plc_vect_sum`. -/
noncomputable def add (a b : V3) : V3 := ⟨a.x + b.x, a.y + b.y, a.z + b.z⟩

/-- What a call gives: the null pointer, coordinates which are not numbers, or a curve of one component with these vertices. -/
inductive Poly where
  | null
  | nan
  | curve (vs : List V3)

/-- `hopfImap` (75-82). -/
noncomputable def hopf (a b : ℂ) : V3 :=
  let q0 := a.re; let q1 := a.im; let q2 := b.re; let q3 := b.im
  ⟨q0 * q0 + q1 * q1 - q2 * q2 - q3 * q3, 2 * q1 * q2 - 2 * q0 * q3, 2 * q0 * q2 + 2 * q1 * q3⟩

/-- `HermitianDot` (84-89). -/
noncomputable def hdot (A B : List ℂ) : ℂ := (List.zipWith (fun a b => a * (starRingEnd ℂ) b) A B).sum

/-- `ComplexScalarMultiply` (91-95). -/
noncomputable def cscale (s : ℂ) (A : List ℂ) : List ℂ := A.map (fun a => a * s)

/-- Two numbers make one complex number (112-115). -/
def toComplex : List ℝ → List ℂ
  | x :: y :: l => ⟨x, y⟩ :: toComplex l
  | _ => []

/-- The numbers at even places and at odd places, as complex numbers (240-243). -/
def evens : List ℝ → List ℂ
  | x :: _ :: l => (x : ℂ) :: evens l
  | _ => []

/-- See `evens`. -/
def odds : List ℝ → List ℂ
  | _ :: y :: l => (y : ℂ) :: odds l
  | _ => []

/-- Dividing by the norm (119-121); `none` if it is 0. `sqrt` takes the real part of its complex argument. -/
noncomputable def unit (A : List ℂ) : Option (List ℂ) :=
  let norm := Real.sqrt (hdot A A).re
  if norm = 0 then none else some (cscale (1 / (norm : ℂ)) A)

/-- Steps 3 to 5 (117-132). -/
noncomputable def frame (A B : List ℂ) : Option (List ℂ × List ℂ) :=
  match unit A with
  | none => none
  | some A =>
    let s := (starRingEnd ℂ) (hdot A B)
    match unit (List.zipWith (fun b a => b - s * a) B A) with
    | none => none
    | some B => some (A, B)

/-- The edges. -/
noncomputable def edges (A B : List ℂ) : List V3 := List.zipWith hopf A B

/-- The points reached from `p` by going along the vectors. -/
noncomputable def path : V3 → List V3 → List V3
  | _, [] => []
  | p, e :: l => add p e :: path (add p e) l

/-- The sum of the edges (162-168). -/
noncomputable def total (es : List V3) : V3 := es.foldl add ⟨0, 0, 0⟩

/-- `plc_M_norm`. -/
noncomputable def norm3 (a : V3) : ℝ := Real.sqrt (a.x * a.x + a.y * a.y + a.z * a.z)

/-- The self check of the frame (138-158). -/
noncomputable def frameOk (A B : List ℂ) : Bool :=
  decide (¬ (|(hdot A A).re - 1| > 1e-10 ∨ |(hdot A A).im| > 1e-10)) && decide (¬ (|(hdot B B).re - 1| > 1e-10 ∨ |(hdot B B).im| > 1e-10)) &&
    decide (¬ (|(hdot A B).re| > 1e-10 ∨ |(hdot A B).im| > 1e-10))

/-- Making the closed polygon (134-206) from two complex vectors. Comparisons with numbers which are not numbers are false, so then the
self check finds nothing. There must be an edge. -/
noncomputable def closedFrom (selfcheck : Bool) (A B : List ℂ) : Res Poly :=
  if A = [] then .error .ub
  else
    match frame A B with
    | none => .ok .nan
    | some (A, B) => do
      assertC (!selfcheck || (frameOk A B && decide (¬ norm3 (total (edges A B)) > 1e-10)))
      match edges A B with
      | [] => .error .ub
      | e :: l => .ok (.curve (e :: path e l))

/-- `plc_random_closed_polygon_internal` (97-206). -/
noncomputable def closedPolygon (selfcheck : Bool) (Araw Braw : List ℝ) : Res Poly := closedFrom selfcheck (toComplex Araw) (toComplex Braw)

/-- `plc_random_closed_plane_polygon_internal` (222-331). -/
noncomputable def closedPlane (selfcheck : Bool) (raw : List ℝ) : Res Poly := closedFrom selfcheck (evens raw) (odds raw)

/-- `plc_random_open_polygon_internal` (347-414) from two complex vectors. -/
noncomputable def openFrom (selfcheck : Bool) (A B : List ℂ) : Res Poly :=
  let norm := Real.sqrt ((hdot A A).re + (hdot B B).re)
  if A = [] then (if selfcheck then .error .die else .ok (.curve [⟨0, 0, 0⟩]))
  else if norm = 0 then .ok .nan
  else do
    let A := cscale ((Real.sqrt 2 : ℂ) / (norm : ℂ)) A
    let B := cscale ((Real.sqrt 2 : ℂ) / (norm : ℂ)) B
    assertC (!selfcheck || decide (¬ (|(hdot A A).re + (hdot B B).re - 2| > 1e-10 ∨ |(hdot A A).im| > 1e-10 ∨ |(hdot B B).im| > 1e-10)))
    .ok (.curve (⟨0, 0, 0⟩ :: path ⟨0, 0, 0⟩ (edges A B)))

/-- `plc_random_open_polygon_internal` (347-414). -/
noncomputable def openPolygon (selfcheck : Bool) (Araw Braw : List ℝ) : Res Poly := openFrom selfcheck (toComplex Araw) (toComplex Braw)

/-- `plc_random_open_plane_polygon_internal` (428-492). -/
noncomputable def openPlane (selfcheck : Bool) (raw : List ℝ) : Res Poly := openFrom selfcheck (evens raw) (odds raw)

/-- `plc_random_ftc_internal` (994-1160): an open polygon with the number of edges of `Araw`, a given length and a given distance
of its ends. -/
noncomputable def ftcPolygon (selfcheck : Bool) (Araw Braw : List ℝ) (length ftc : ℝ) : Res Poly :=
  if length < ftc then .ok .null
  else
    let length := if length < ftc + 1e-8 then ftc else length
    let A := toComplex Araw
    let B := toComplex Braw
    if A = [] then (if selfcheck then .error .die else .ok (.curve [⟨0, 0, 0⟩]))
    else if A.length = 1 ∧ |length - ftc| < 1e-10 then .ok (.curve [⟨0, 0, 0⟩, ⟨length, 0, 0⟩])
    else if A.length = 1 ∧ |length - ftc| > 1e-10 then .ok .null
    else
      match frame A B with
      | none => .ok .nan
      | some (A, B) =>
        if length = 0 then .ok .nan
        else do
          assertC (!selfcheck || frameOk A B)
          let ell := 2 * (ftc / length)
          if 1 + ell / 2 < 0 ∨ 1 - ell / 2 < 0 then .ok .nan
          else do
            let A := cscale (Real.sqrt (1 + ell / 2) : ℂ) A
            let B := cscale (Real.sqrt (1 - ell / 2) : ℂ) B
            let sum := total (edges A B)
            assertC (!selfcheck || decide (¬ |norm3 sum - ell| > 1e-8) && decide (¬ (|sum.x - ell| > 1e-8 ∨ |sum.y| > 1e-8 ∨ |sum.z| > 1e-8)))
            .ok (.curve (⟨0, 0, 0⟩ :: path ⟨0, 0, 0⟩ ((edges A B).map (V3.scale (length / 2)))))

end Plc.RandomPolygon
