import Verif.Model.Measure

/-! # The nearest point of a buffer and the nearest vertex of a curve (`src/nearest_neighbor.c`)

Doubles are real numbers, without rounding; `big` stands for `DBL_MAX`. A pointer is a number. The two global
variables used to hand the buffer to the comparison function are arguments here, so two searches at the same time are
not modelled. -/

namespace Plc.Nearest

open Plc.Core Plc.FindCrossings Plc.RandomPolygon Plc.Equilateral Plc.Motions Plc.Measure

/-- `plc_M_sq_dist` (plCurve.h). -/
noncomputable def sqDist (a b : V3) : ℝ := (a.sub b).dot (a.sub b)

/-- The coordinate `c[d]`. -/
def coord (v : V3) (d : Nat) : ℝ := if d = 0 then v.x else if d = 1 then v.y else v.z

/-- The loop of `exhaustive_nearest_neighbor` (34-39), with stride 1, `k` rounds from `pos` on. -/
noncomputable def exLoop (q : V3) (buf : List V3) : Nat → Nat → ℝ → Nat → Res Nat
  | 0, _, _, bp => .ok bp
  | k + 1, pos, best, bp => do
    let v ← rd buf pos
    if sqDist q v < best then exLoop q buf k (pos + 1) (sqDist q v) pos
    else exLoop q buf k (pos + 1) best bp

/-- `exhaustive_nearest_neighbor` (23-43); every call in the library has stride 1. -/
noncomputable def exhaustive (big : ℝ) (q : V3) (n : Nat) (buf : List V3) : Res Nat :=
  exLoop q buf n 0 big 0

/-- The loop of `max_dimension` (54-63) for one coordinate. -/
noncomputable def boxLoop (buf : List V3) (d : Nat) : Nat → Nat → ℝ → ℝ → Res (ℝ × ℝ)
  | 0, _, lo, hi => .ok (lo, hi)
  | k + 1, i, lo, hi => do
    let v ← rd buf i
    boxLoop buf d k (i + 1) (if lo < coord v d then lo else coord v d) (if coord v d < hi then hi else coord v d)

/-- A double assigned to an `int` (66): the fraction is dropped; undefined if the value does not fit. -/
noncomputable def toInt (r : ℝ) : Res Int :=
  let t := if 0 ≤ r then ⌊r⌋ else ⌈r⌉
  if -(2 ^ 31) ≤ t ∧ t < 2 ^ 31 then .ok t else .error .ub

/-- The size of the bounding box in one coordinate, as an `int` (54-66). -/
noncomputable def boxDim (n : Nat) (buf : List V3) (d : Nat) : Res Int := do
  let v ← rd buf 0
  let (lo, hi) ← boxLoop buf d n 0 (coord v d) (coord v d)
  toInt (hi - lo)

/-- `max_dimension` (45-79). -/
noncomputable def maxDimension (n : Nat) (buf : List V3) : Res Nat := do
  let b0 ← boxDim n buf 0
  let b1 ← boxDim n buf 1
  let b2 ← boxDim n buf 2
  if b1 < b0 then .ok (if b2 < b0 then 0 else 2) else .ok (if b2 < b1 then 1 else 2)

/-- `nn_cmp` (81-87) as the order used by `qsort`: not greater. `nn_cmp` never answers 0: of two entries with equal
coordinates each is reported before the other, so the answer `≤ 0` is what is kept here. -/
noncomputable def nnLe (buf : List V3) (d : Nat) (i j : Nat) : Bool :=
  match buf[i]?, buf[j]? with
  | some a, some b => decide (coord a d ≤ coord b d)
  | _, _ => true

/-- `struct plc_nearest_neighbor_pc_data` (plCurve.h 577-583). -/
structure Pc where
  check : Nat
  dim : Nat
  sorted : Option (List Nat)

/-- The data computed for a buffer (183-197). -/
noncomputable def precompute (qs : QSort) (n addr : Nat) (buf : List V3) : Res Pc := do
  let d ← maxDimension n buf
  .ok ⟨addr, d, some (qs.sort (nnLe buf d) (List.range n))⟩

/-- `buffer[sorted_buffer[k]]`. A missing `sorted_buffer` is a NULL pointer. -/
def entry (buf : List V3) (s : Option (List Nat)) (k : Nat) : Res (Nat × V3) :=
  match s with
  | none => .error .ub
  | some l => do
    let i ← rd l k
    let v ← rd buf i
    .ok (i, v)

/-- The bisection (226-240). -/
noncomputable def bisect (pt : V3) (buf : List V3) (s : Option (List Nat)) (d : Nat) : Nat → Nat → Nat → Res Nat
  | 0, low, _ => .ok low
  | f + 1, low, high =>
    if high - low > 1 then do
      let (_, v) ← entry buf s ((high + low) / 2)
      if coord v d < coord pt d then bisect pt buf s d f ((high + low) / 2) high
      else bisect pt buf s d f low ((high + low) / 2)
    else .ok low

/-- Where the search starts (214-244). -/
noncomputable def startAt (pt : V3) (n : Nat) (buf : List V3) (s : Option (List Nat)) (d : Nat) : Res Nat := do
  let (_, first) ← entry buf s 0
  if coord pt d < coord first d then .ok 0
  else do
    let (_, last) ← entry buf s (n - 1)
    if coord last d < coord pt d then .ok (n - 1)
    else bisect pt buf s d n 0 (n - 1)

/-- The search upwards (255-266), at most `k` rounds from `up` on. -/
noncomputable def scanUp (pt : V3) (buf : List V3) (s : Option (List Nat)) (d : Nat) :
    Nat → Nat → ℝ → Nat → Res (ℝ × Nat)
  | 0, _, bd, bi => .ok (bd, bi)
  | k + 1, up, bd, bi => do
    let (i, v) ← entry buf s up
    if coord v d - coord pt d < bd then
      if dist3 pt v < bd then scanUp pt buf s d k (up + 1) (dist3 pt v) i
      else scanUp pt buf s d k (up + 1) bd bi
    else .ok (bd, bi)

/-- The search downwards (268-279): the first argument is `down + 1`. -/
noncomputable def scanDown (pt : V3) (buf : List V3) (s : Option (List Nat)) (d : Nat) :
    Nat → ℝ → Nat → Res (ℝ × Nat)
  | 0, bd, bi => .ok (bd, bi)
  | k + 1, bd, bi => do
    let (i, v) ← entry buf s k
    if coord pt d - coord v d < bd then
      if dist3 pt v < bd then scanDown pt buf s d k (dist3 pt v) i
      else scanDown pt buf s d k bd bi
    else .ok (bd, bi)

/-- The search with the sorted buffer (205-279). -/
noncomputable def search (pt : V3) (n : Nat) (buf : List V3) (p : Pc) : Res Nat := do
  let start ← startAt pt n buf p.sorted p.dim
  let (i, v) ← entry buf p.sorted start
  let (bd, bi) ← scanUp pt buf p.sorted p.dim (n - start) start (dist3 pt v) i
  let (_, bi') ← scanDown pt buf p.sorted p.dim (start + 1) bd bi
  .ok bi'

/-- `plc_nearest_neighbor` (90-299): the index, what `*pc_data` is afterwards, and whether `PLC_E_STALE_PCDATA` was
reported. `none` for the argument is `pc_data == NULL`, `some none` is `*pc_data == NULL`. -/
noncomputable def nearest (qs : QSort) (big : ℝ) (pt : V3) (n addr : Nat) (buf : List V3)
    (pc : Option (Option Pc)) : Res (Nat × Option (Option Pc) × Bool) :=
  let stale := match pc with
    | some (some p) => p.check != addr
    | _ => false
  let cur := if stale then some none else pc
  if n < 5000 then do
    let i ← exhaustive big pt n buf
    .ok (i, (match cur with
      | some none => some (some ⟨addr, 0, none⟩)
      | _ => cur), stale)
  else
    match cur with
    | some (some p) => do
      let i ← search pt n buf p
      .ok (i, cur, stale)
    | _ => do
      let p ← precompute qs n addr buf
      let i ← search pt n buf p
      .ok (i, (match cur with
        | none => none
        | some _ => some (some p)), stale)

/-- A component of a curve, as this file sees it: where its vertices are, and the vertices. -/
structure Part where
  addr : Nat
  vt : List V3

/-- `struct plc_nearest_vertex_pc_data` (plCurve.h 585-590). -/
structure VPc where
  check : Nat
  comps : List (Option Pc)

/-- The loop of `plc_nearest_vertex` over the components (403-408): for each the index and the vertex, and the new data
of the components. -/
noncomputable def partLoop (qs : QSort) (big : ℝ) (pt : V3) : List Part → List (Option Pc) →
    Res (List Nat × List V3 × List (Option Pc) × Bool)
  | [], pcs => .ok ([], [], pcs, false)
  | _ :: _, [] => .error .ub
  | c :: cs, p :: pcs => do
    let (i, p', st) ← nearest qs big pt c.vt.length c.addr c.vt (some p)
    let v ← rd c.vt i
    let (is, vs, ps, st') ← partLoop qs big pt cs pcs
    .ok (i :: is, v :: vs, p'.getD none :: ps, st || st')

/-- `plc_nearest_vertex` (355-447): the vertex, its component and its index, what `*pc_data` is afterwards, and whether
`PLC_E_STALE_PCDATA` was reported. Freeing data of another curve reads that curve's number of components (325): it is
assumed to be still there. -/
noncomputable def nearestVertex (qs : QSort) (big : ℝ) (pt : V3) (addr : Nat) (L : List Part)
    (pc : Option (Option VPc)) : Res (V3 × Nat × Nat × Option (Option VPc) × Bool) := do
  let stale := match pc with
    | some (some p) => p.check != addr
    | _ => false
  let old := match pc with
    | some (some p) => if stale then List.replicate L.length none else p.comps
    | _ => List.replicate L.length none
  let (is, vs, ps, st) ← partLoop qs big pt L old
  let cp ← exhaustive big pt L.length vs
  let vt ← rd is cp
  let c ← rd L cp
  let v ← rd c.vt vt
  .ok (v, cp, vt, (match pc with
    | none => none
    | some _ => some (some ⟨addr, ps⟩)), stale || st)

end Plc.Nearest
