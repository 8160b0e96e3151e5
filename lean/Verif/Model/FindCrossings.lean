import Verif.Model.FromCurve
import Mathlib.Analysis.SpecialFunctions.Complex.Arg

/-! # Finding the crossings of a projection (`src/plcTopology.c` 400-441, 517-594, 756-893, `src/vector.c` 124-167)

Doubles are real numbers here, so there is no rounding; the tolerances are those of the code, and the constant 3.141592653589793 is π. -/

namespace Plc.FindCrossings

open Plc.Core Plc.FromCurve

/-- `plc_vector`. -/
structure V3 where
  x : ℝ
  y : ℝ
  z : ℝ

/-- `plc_vect_diff` (vector.c). -/
noncomputable def V3.sub (a b : V3) : V3 := ⟨a.x - b.x, a.y - b.y, a.z - b.z⟩

/-- `plc_scale_vect`. -/
noncomputable def V3.scale (s : ℝ) (a : V3) : V3 := ⟨s * a.x, s * a.y, s * a.z⟩

/-- `plc_dot_prod`. -/
noncomputable def V3.dot (a b : V3) : ℝ := a.x * b.x + a.y * b.y + a.z * b.z

/-- `plc_cross_prod`. -/
noncomputable def V3.crossProd (a b : V3) : V3 := ⟨a.y * b.z - a.z * b.y, a.z * b.x - a.x * b.z, a.x * b.y - a.y * b.x⟩

/-- `plc_distance`. -/
noncomputable def dist3 (a b : V3) : ℝ := Real.sqrt ((a.sub b).dot (a.sub b))

/-- `atan2` of the C library. -/
noncomputable def atan2 (y x : ℝ) : ℝ := Complex.arg ⟨x, y⟩

/-- `plc_angle` (vector.c 124-167): the angle, and whether it is defined. -/
noncomputable def angle (a b : V3) : ℝ × Bool :=
  let L := Real.sqrt ((a.x * b.y - a.y * b.x) ^ 2 + (a.x * b.z - a.z * b.x) ^ 2 + (a.y * b.z - a.z * b.y) ^ 2)
  let D := a.dot b
  (atan2 L D, decide (|L| > 1e-12 ∨ |D| > 1e-12))

/-- `segment_side` (plcTopology.c 517-531). -/
noncomputable def side (A0 A1 B : V3) : Int :=
  let c := ((A1.sub A0).crossProd (B.sub A0)).z
  if c > 1e-10 then 1 else if c < -1e-10 then -1 else 0

/-- `locate_crossing` (plcTopology.c 533-594). `none` if `ok` is false. -/
noncomputable def locate (A0 A1 B0 B1 : V3) : Option (ℝ × ℝ) :=
  let (angle1, ok1) := angle (A0.sub B1) (B0.sub B1)
  let (angle3, ok3) := angle (B1.sub A0) (A1.sub A0)
  if !ok1 || !ok3 then none
  else if angle1 < 1e-8 ∨ angle3 < 1e-8 then none
  else
    let angle2 := Real.pi - angle1 - angle3
    let s2 := dist3 A0 B1
    if s2 < 1e-8 ∨ angle2 < 1e-8 then none
    else
      let s1 := Real.sin angle1 * s2 / Real.sin angle2
      let s3 := Real.sin angle3 * s2 / Real.sin angle2
      some (s1 / dist3 A0 A1, 1 - s3 / dist3 B0 B1)

/-- A vertex in `plc_project(Lproj, (0,0,1))` (plCurve.c 2707-2733); normalising the vector (0,0,1) is left out. -/
noncomputable def project (v : V3) : V3 := v.sub (V3.scale (v.dot ⟨0, 0, 1⟩) ⟨0, 0, 1⟩)

/-- A component: open or not, and its vertices. -/
abbrev Strand3 := Bool × List V3

/-- Vertex `i` of component `c`; vertex `nv` is vertex 0 (`plc_fix_wrap`). -/
noncomputable def vtx (L : List Strand3) (c i : Nat) : V3 :=
  match L[c]? with
  | none => ⟨0, 0, 0⟩
  | some s => (s.2[i % s.2.length]?).getD ⟨0, 0, 0⟩

/-- The number of vertices. -/
def nv (L : List Strand3) (c : Nat) : Nat := ((L[c]?).map (fun s => s.2.length)).getD 0

/-- The pairs of edges which are compared (plcTopology.c 780-806), as component and vertex of the first and of the second one. -/
def pairs (L : List Strand3) : List ((Nat × Nat) × (Nat × Nat)) :=
  (List.range L.length).flatMap (fun a => (List.range' a (L.length - a)).flatMap (fun b => (List.range (nv L a)).flatMap (fun i =>
    let first := if a = b then i + 2 else 0
    let last := if a = b then (if i = 0 then nv L b - 1 else nv L b) else nv L b
    (List.range' first (last - first)).map (fun j => ((a, i), (b, j))))))

/-- One pair of edges (plcTopology.c 817-880). `none` if the place cannot be computed. -/
noncomputable def visit (L : List Strand3) (p : (Nat × Nat) × (Nat × Nat)) : Option (List (Crossing ℝ)) :=
  let A0 := project (vtx L p.1.1 p.1.2)
  let A1 := project (vtx L p.1.1 (p.1.2 + 1))
  let B0 := project (vtx L p.2.1 p.2.2)
  let B1 := project (vtx L p.2.1 (p.2.2 + 1))
  if side A0 A1 B0 * side A0 A1 B1 = -1 ∧ side B0 B1 A0 * side B0 B1 A1 = -1 then
    match locate A0 A1 B0 B1 with
    | none => none
    | some (sA, sB) =>
      let htA := (1 - sA) * (vtx L p.1.1 p.1.2).z + sA * (vtx L p.1.1 (p.1.2 + 1)).z
      let htB := (1 - sB) * (vtx L p.2.1 p.2.2).z + sB * (vtx L p.2.1 (p.2.2 + 1)).z
      if htA > htB then
        some [⟨p.2.1, p.1.1, p.2.2 + sB, p.1.2 + sA, if ((A1.sub A0).crossProd (B1.sub B0)).z > 0 then 1 else -1⟩]
      else
        some [⟨p.1.1, p.2.1, p.1.2 + sA, p.2.2 + sB, if ((B1.sub B0).crossProd (A1.sub A0)).z > 0 then 1 else -1⟩]
  else some []

/-- The loop over the pairs. -/
noncomputable def collect (L : List Strand3) : List ((Nat × Nat) × (Nat × Nat)) → Option (List (Crossing ℝ))
  | [] => some []
  | p :: l =>
    match visit L p with
    | none => none
    | some c =>
      match collect L l with
      | none => none
      | some cc => some (c ++ cc)

/-- Component and parameter which `crossing_compare` uses (plcTopology.c 400-425). -/
noncomputable def sortKey (x : Crossing ℝ) : Nat × ℝ := if x.lowerCmp < x.upperCmp then (x.lowerCmp, x.lowerS) else (x.upperCmp, x.upperS)

/-- `crossing_compare` (plcTopology.c 400-441) without its assertion. -/
noncomputable def crossingCmp (x y : Crossing ℝ) : Int :=
  if (sortKey x).1 ≠ (sortKey y).1 then ((sortKey x).1 : Int) - (sortKey y).1
  else if (sortKey x).2 < (sortKey y).2 then -1 else 1

/-- `findcrossings` (plcTopology.c 756-893). The assertion of `crossing_compare` is checked for all entries, here before sorting. -/
noncomputable def findCrossings (qs : QSort) (L : List Strand3) : Res (Option (List (Crossing ℝ))) :=
  if L.any (fun s => s.1) then .error .die
  else
    match collect L (pairs L) with
    | none => .ok none
    | some cc => do
      assertC (cc.all (fun x => decide ((sortKey x).2 > 0)))
      .ok (some (qs.sort (fun x y => decide (0 < crossingCmp y x)) cc))

/-- `tag_as_trouble` (plcTopology.c 596-637). -/
noncomputable def trouble (A0 A1 B0 B1 : V3) : Bool :=
  if dist3 A0 A1 < 1e-8 ∨ dist3 B0 B1 < 1e-8 then true
  else if dist3 A0 B0 < 1e-8 ∨ dist3 A0 B1 < 1e-8 ∨ dist3 A1 B0 < 1e-8 ∨ dist3 A1 B1 < 1e-8 then true
  else
    let a := side A0 A1 B0 * side A0 A1 B1
    let b := side B0 B1 A0 * side B0 B1 A1
    if a = -1 ∧ b = -1 then (locate A0 A1 B0 B1).isNone
    else decide ((a = 0 ∧ b ≠ 1) ∨ (a ≠ 1 ∧ b = 0))

/-- Whether a pair of edges is trouble in the projection (plcTopology.c 711-712). -/
noncomputable def bad (L : List Strand3) (p : (Nat × Nat) × (Nat × Nat)) : Bool :=
  trouble (project (vtx L p.1.1 p.1.2)) (project (vtx L p.1.1 (p.1.2 + 1))) (project (vtx L p.2.1 p.2.2)) (project (vtx L p.2.1 (p.2.2 + 1)))

/-- Adding a vector to vertex `i` of component `c`. The vertex after the last one gets overwritten by `plc_fix_wrap`, so nothing happens
for it. -/
noncomputable def moveVertex (L : List Strand3) (c i : Nat) (d : V3) : List Strand3 :=
  L.modify c (fun s => (s.1, s.2.modify i (fun v => ⟨v.x + d.x, v.y + d.y, v.z + d.z⟩)))

/-- Moving the four vertices of every pair which is trouble (plcTopology.c 711-724). `rnd k` is the vector added by call `k` of
`plc_perturb_vect`, already scaled by the radius; the number of the next call is threaded through. -/
noncomputable def shake (rnd : Nat → V3) : List ((Nat × Nat) × (Nat × Nat)) → Nat → List Strand3 → Nat × List Strand3
  | [], k, L => (k, L)
  | p :: l, k, L =>
    shake rnd l (k + 4) (moveVertex (moveVertex (moveVertex (moveVertex L p.1.1 p.1.2 (rnd k)) p.1.1 (p.1.2 + 1) (rnd (k + 1)))
      p.2.1 p.2.2 (rnd (k + 2))) p.2.1 (p.2.2 + 1) (rnd (k + 3)))

/-- The passes of `make_zprojection_generic` (plcTopology.c 646-752); `thin L` is that the curve is numerically singular
(`octrope_thickness`, another library). A pass looks at the projection taken before it. -/
noncomputable def passes (thin : List Strand3 → Bool) (rnd : Nat → V3) : Nat → Nat → List Strand3 → Nat × Option (List Strand3)
  | 0, k, _ => (k, none)
  | fuel + 1, k, L =>
    if thin L then (k, none)
    else if (pairs L).any (bad L) then passes thin rnd fuel (shake rnd ((pairs L).filter (bad L)) k L).1 (shake rnd ((pairs L).filter (bad L)) k L).2
    else (k, some L)

/-- `make_zprojection_generic` (plcTopology.c 646-752). -/
noncomputable def makeGeneric (thin : List Strand3 → Bool) (rnd : Nat → V3) (k : Nat) (L : List Strand3) : Nat × Option (List Strand3) :=
  passes thin rnd 5 k L

/-- `plc_random_rotate` (plCurve.c 2735-2770). -/
noncomputable def rotate (axis : V3) (L : List Strand3) : List Strand3 :=
  let t := Real.sqrt (1 - axis.z * axis.z)
  if t > 2 ^ (-52 : ℤ) then
    L.map (fun s => (s.1, s.2.map (fun v => ⟨-v.x * (axis.y * (1 / t)) + v.y * (axis.x * (1 / t)),
      -v.x * (axis.x * axis.z * (1 / t)) - v.y * (axis.y * axis.z * (1 / t)) + v.z * t, v.x * axis.x + v.y * axis.y + v.z * axis.z⟩)))
  else L

/-- `fabs(a - b) < 1e-8` (plcTopology.c 984-999). -/
noncomputable def nearR (a b : ℝ) : Bool := decide (|a - b| < 1e-8)

/-- The attempts of `pd_code_from_plCurve` (plcTopology.c 1332-1508): `working` is the copy which gets rotated, `axis k` the random axis
of attempt `k`. The rotated copy is not used after that. -/
noncomputable def attempts (qs : QSort) (thin : List Strand3 → Bool) (axis : Nat → V3) (rnd : Nat → V3) (L : List Strand3) :
    Nat → Nat → Nat → List Strand3 → Res (Option (Io.Caps × Io.Pd))
  | 0, _, _, _ => .ok none
  | fuel + 1, n, k, working =>
    let working := rotate (axis n) working
    match makeGeneric thin rnd k L with
    | (k, none) => attempts qs thin axis rnd L fuel (n + 1) k working
    | (k, some G) => do
      match ← findCrossings qs G with
      | none => attempts qs thin axis rnd L fuel (n + 1) k working
      | some cc =>
        match ← fromCrossings nearR qs G.length (0.33, 0.66) cc with
        | none => attempts qs thin axis rnd L fuel (n + 1) k working
        | some pd => .ok (some pd)

/-- `pd_code_from_plCurve` (plcTopology.c 1332-1520). -/
noncomputable def fromPlCurve (qs : QSort) (thin : List Strand3 → Bool) (axis : Nat → V3) (rnd : Nat → V3) (L : List Strand3) :
    Res (Option (Io.Caps × Io.Pd)) :=
  attempts qs thin axis rnd L 9 0 0 L

end Plc.FindCrossings
