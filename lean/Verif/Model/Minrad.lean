import Verif.Model.Measure

/-! # The minimal radius of a curve (`src/minrad.c`)

Doubles are real numbers, without rounding; `big` stands for `DBL_MAX`. -/

namespace Plc.Minrad

open Plc.Core Plc.FindCrossings Plc.RandomPolygon Plc.Equilateral Plc.Motions Plc.Measure

/-- `octrope_mrloc` (octrope.h 47-56), without the multiplier. -/
structure Loc where
  comp : Nat
  vert : Nat
  svert : Int
  mr : ℝ

/-- `mr_up_bound` (47). -/
noncomputable def upBound (cutoff eps mr : ℝ) : ℝ := if cutoff > 0 then cutoff else mr + eps

/-- `while ((k >= 0) && (min_rad_locs[k].mr > mr_up_bound)) { k--; }` (125): the number of entries kept so far, `k + 1`. -/
noncomputable def trimEnd (b : ℝ) (l : List Loc) : Nat → Res Nat
  | 0 => .ok 0
  | k + 1 => do
    let x ← rd l k
    if b < x.mr then trimEnd b l k else .ok (k + 1)

/-- The loop which moves good entries over bad ones (126-130); `cnt` is `k + 1`, the first argument is `l + 1`. -/
noncomputable def fill (b : ℝ) : Nat → Nat → List Loc → Res (Nat × List Loc)
  | 0, cnt, l => .ok (cnt, l)
  | i + 1, cnt, l => do
    let x ← rd l i
    if b < x.mr then do
      let y ← rd l (cnt - 1)
      fill b i (cnt - 1) (l.set i y)
    else fill b i cnt l

/-- Removing the entries above the bound (124-131, 156-163, 209-216). The list is the part of the array in use. -/
noncomputable def pare (b : ℝ) (l : List Loc) : Res (List Loc) := do
  let k ← trimEnd b l l.length
  let (cnt, l') ← fill b k k l
  .ok (l'.take cnt)

/-- Entering one location (114-142, 146-174). -/
noncomputable def enter (size : Nat) (b : ℝ) (x : Loc) (l : List Loc) : Res (List Loc) :=
  if x.mr ≤ b then
    if l.length < size then .ok (l ++ [x])
    else do
      let l' ← pare b l
      if l'.length < size then .ok (l' ++ [x]) else .ok l'
  else .ok l

/-- The body of the loop over the vertices (81-176), for the vectors before and after the vertex. `none` for `size` is
`num_min_rad_locs == NULL`. The quotient `rad` of a nearly straight vertex, which is not used, is not computed. -/
noncomputable def visit (cutoff eps : ℝ) (size : Option Nat) (i j : Nat) (inn out : V3) (st : ℝ × List Loc) : Res (ℝ × List Loc) :=
  let cr := norm3 (inn.crossProd out)
  if cr < 1e-12 then .ok st
  else
    let rad := (norm3 inn * norm3 out + inn.dot out) / (2 * cr)
    let minus := norm3 inn * rad
    let plus := norm3 out * rad
    let this := if minus < plus then minus else plus
    let mr := if st.1 < this then st.1 else this
    match size with
    | none => .ok (mr, st.2)
    | some n => do
      let l1 ← enter n (upBound cutoff eps mr) ⟨i, j, (j : Int) - 1, minus⟩ st.2
      let l2 ← enter n (upBound cutoff eps mr) ⟨i, j, (j : Int) + 1, plus⟩ l1
      .ok (mr, l2)

/-- The loop over the vertices (80-196), `k` rounds from `j` on. -/
noncomputable def vertLoop (cutoff eps : ℝ) (size : Option Nat) (i : Nat) (c : Comp) : Nat → Nat → V3 → ℝ × List Loc → Res (ℝ × List Loc)
  | 0, _, _, st => .ok st
  | k + 1, j, inn, st => do
    let b ← vtAt c ((j : Int) + 1)
    let a ← vtAt c (j : Int)
    let st' ← visit cutoff eps size i j inn (b.sub a) st
    vertLoop cutoff eps size i c k (j + 1) (b.sub a) st'

/-- One component (66-198). -/
noncomputable def oneComp (cutoff eps : ℝ) (size : Option Nat) (i : Nat) (c : Comp) (st : ℝ × List Loc) : Res (ℝ × List Loc) :=
  if c.isOpen then do
    let b ← vtAt c 1
    let a ← vtAt c 0
    vertLoop cutoff eps size i c (c.vt.length - 1 - 1) 1 (b.sub a) st
  else do
    let b ← vtAt c 0
    let a ← vtAt c (-1)
    vertLoop cutoff eps size i c c.vt.length 0 (b.sub a) st

/-- The loop over the components (64-198). -/
noncomputable def compLoop (cutoff eps : ℝ) (size : Option Nat) : Nat → List Comp → ℝ × List Loc → Res (ℝ × List Loc)
  | _, [], st => .ok st
  | i, c :: cs, st => do
    let st' ← oneComp cutoff eps size i c st
    compLoop cutoff eps size (i + 1) cs st'

/-- `octrope_minrad` (49-222): the radius and, if asked for, the locations. -/
noncomputable def minrad (big cutoff eps : ℝ) (size : Option Nat) (L : Curve) : Res (ℝ × List Loc) := do
  let (mr, l) ← compLoop cutoff eps size 0 (L.cp.map fixWrap) (big, [])
  match size with
  | none => .ok (mr, [])
  | some _ => do
    let l' ← pare (upBound cutoff eps mr) l
    .ok (mr, l')

end Plc.Minrad
