import Verif.Model.Poca
import Verif.Model.Nearest

/-! # The struts of a curve: the search through the octree (`src/octrope.c` 752-905, 1290-1712)

Doubles are real numbers, without rounding; `big` stands for `DBL_MAX`. A pointer into `by_oct` is an index, a pointer to a box is its index in
a list of all boxes. `ramp_check` and `wedge_check` keep what they computed last for an edge; as the edge determines the values kept, which are
forgotten at the start of `octrope_struts` (1618-1619), they are computed anew here. -/

namespace Plc.Struts

open Plc.Core Plc.FindCrossings Plc.RandomPolygon Plc.Equilateral Plc.Motions Plc.Measure Plc.Poca Plc.Nearest

/-- `vertarray_type` (56-62): the middle of an edge, its length, component and vertex, and its octal tag. -/
structure Varr where
  v : V3
  len : ℝ
  comp : Nat
  vert : Nat
  oct0 : Nat
  oct1 : Nat

/-- `box_type` (64-78). The corners and the center, set when a box is complete (665-681, 738-747), are functions of the bounds;
`half_diagonal` is not used. `first` is `edges`. -/
structure Box where
  lo : V3
  hi : V3
  subs : List (Option Nat)
  num : Nat
  first : Nat

/-- `octrope_strut` (octrope.h 38-45), without the multiplier. -/
structure Strut where
  comp0 : Nat
  comp1 : Nat
  vert0 : Nat
  vert1 : Nat
  pos0 : ℝ
  pos1 : ℝ
  len : ℝ

/-- What the search changes: `*shortest` and the part of the list in use. -/
structure St where
  shortest : ℝ
  struts : List Strut

/-- `octree_leaf` (311-318). -/
def leaf (B : Box) : Bool := B.subs.all Option.isNone

/-- `corner[k]` (666-675, 738-747). -/
def corner (B : Box) (k : Nat) : V3 :=
  ⟨if k % 2 = 1 then B.hi.x else B.lo.x, if (k / 2 % 2 = 1) ≠ (k % 2 = 1) then B.hi.y else B.lo.y,
    if (k / 4 % 2 = 1) ≠ (k % 2 = 1) then B.hi.z else B.lo.z⟩

/-- `plc_M_vweighted` (plCurve.h 283-284). -/
noncomputable def weighted (s : ℝ) (a b : V3) : V3 :=
  ⟨(1 - s) * a.x + s * b.x, (1 - s) * a.y + s * b.y, (1 - s) * a.z + s * b.z⟩

/-- `center` (680-681): `corner[0]` and `corner[1]` are opposite. -/
noncomputable def center (B : Box) : V3 := weighted 0.5 (corner B 0) (corner B 1)

/-- `ramp_check` (844-909). A quotient by the length of an edge of length zero is not a number, no comparison with it holds; here it is zero, with
the same effect. -/
noncomputable def rampCheck (v0 v1 v2 p : V3) (last : Bool) : Nat :=
  let slab := v2.sub v1
  let ramp := v0.sub v1
  let q := p.sub v1
  if last = false ∧ norm3 slab < slab.dot q / norm3 slab then 1
  else if 0 < slab.dot q / norm3 slab then 2
  else if 0 < ramp.dot q / norm3 ramp then 8
  else 4

/-- The loop of `box_intersects` (1318-1328), `k` rounds from `cnt` on. -/
noncomputable def cornerLoop (v0 v1 v2 : V3) (B : Box) (last : Bool) : Nat → Nat → Nat → Bool
  | 0, _, _ => false
  | k + 1, cnt, status =>
    let st := status ||| rampCheck v0 v1 v2 (corner B cnt) last
    if st &&& 6 ≠ 0 ∨ st = 9 then true else cornerLoop v0 v1 v2 B last k (cnt + 1) st

/-- `box_intersects` (1290-1336). -/
noncomputable def boxIntersects (v0 v1 v2 : V3) (B : Box) (last : Bool) : Bool :=
  let st := rampCheck v0 v1 v2 (corner B 0) last
  if st &&& 6 ≠ 0 then true else cornerLoop v0 v1 v2 B last 7 1 st

/-- `wedge_check` (752-823). -/
noncomputable def wedgeCheck (v0 v1 v2 far0 far1 : V3) (percent : ℝ) : Bool :=
  let slab := v2.sub v1
  let ramp := v0.sub v1
  let q := (weighted percent far0 far1).sub v1
  if 0 < slab.dot q / norm3 slab then false
  else if 0 < ramp.dot q / norm3 ramp then false
  else true

/-- `while ((*strut_count > 0) && (st[*strut_count - 1].length > strutmax)) { (*strut_count)--; }` (1352-1354). -/
noncomputable def trimEnd (b : ℝ) (l : List Strut) : Nat → Res Nat
  | 0 => .ok 0
  | k + 1 => do
    let x ← rd l k
    if b < x.len then trimEnd b l k else .ok (k + 1)

/-- The loop which moves the last entry over a bad one (1357-1361); the first argument is `st_idx + 1`. -/
noncomputable def fill (b : ℝ) : Nat → Nat → List Strut → Res (Nat × List Strut)
  | 0, cnt, l => .ok (cnt, l)
  | i + 1, cnt, l => do
    let x ← rd l i
    if b < x.len then do
      let y ← rd l (cnt - 1)
      fill b i (cnt - 1) (l.set i y)
    else fill b i cnt l

/-- `cleanup_strutlist` (1345-1362). -/
noncomputable def cleanup (b : ℝ) (l : List Strut) : Res (List Strut) := do
  let k ← trimEnd b l l.length
  let (cnt, l') ← fill b k k l
  .ok (l'.take cnt)

/-- `dist_up_bound` (1366). -/
noncomputable def upBound (cutoff eps shortest : ℝ) : ℝ := if cutoff > 0 then cutoff else shortest + eps

/-- `if (dist < *shortest) { *shortest = dist; }` (1467-1469, 1501-1503). -/
noncomputable def lower (d shortest : ℝ) : ℝ := if d < shortest then d else shortest

/-- Entering a strut into the list (1458-1503). -/
noncomputable def enter (cutoff eps : ℝ) (size : Nat) (x : Strut) (st : St) : Res St :=
  if 0 < size then
    let l := if cutoff = 0 ∧ eps < st.shortest - x.len then [] else st.struts
    if l.length < size then .ok ⟨lower x.len st.shortest, l ++ [x]⟩
    else do
      let l' ← cleanup (upBound cutoff eps (lower x.len st.shortest)) l
      if l'.length < size then .ok ⟨lower x.len st.shortest, l' ++ [x]⟩
      else do
        let l'' ← wr l' 0 x
        .ok ⟨lower x.len st.shortest, l''⟩
  else .ok ⟨lower x.len st.shortest, st.struts⟩

/-- `final_pv` (1365). -/
def finalPv (c : Comp) (v : Nat) : Bool := c.isOpen && decide ((v : Int) = (c.vt.length : Int) - 1)

/-- Two edges are not too close along the curve (1402-1406). -/
def apartEnough (c : Comp) (pi : Int) (me e : Varr) : Bool :=
  decide (e.comp ≠ me.comp ∨ (pi ≤ |(e.vert : Int) - me.vert| ∧ (c.isOpen = true ∨ |(e.vert : Int) - me.vert| ≤ (c.vt.length : Int) - pi)))

/-- What is done with the closest points of two edges (1438-1504). `none` are values which are not numbers: no comparison holds. -/
noncomputable def judge (cutoff eps : ℝ) (size : Nat) (me e : Varr) (v0 v1 v2 e0 e1 e2 : V3) (last tlast : Bool) (st : St) : Res St :=
  match findPoca v1 v2 e1 e2 with
  | none => .ok st
  | some (s, t, d) =>
    if d ≤ upBound cutoff eps st.shortest ∧ (s < 1 ∨ last = true) ∧ (t < 1 ∨ tlast = true) ∧
        (0 < s ∨ wedgeCheck v0 v1 v2 e1 e2 t = true) ∧ (0 < t ∨ wedgeCheck e0 e1 e2 v1 v2 s = true) then
      enter cutoff eps size ⟨me.comp, e.comp, me.vert, e.vert, s, t, d⟩ st
    else .ok st

/-- The body of the loop over the edges of a leaf (1398-1505). `before` is `B_ee < bo_me`. -/
noncomputable def pairStep (cp : List Comp) (cutoff eps : ℝ) (size : Nat) (pi : Int) (me e : Varr) (v0 v1 v2 : V3) (last before : Bool) (st : St) :
    Res St := do
  let c ← rd cp e.comp
  let e1 ← vtAt c (e.vert : Int)
  let e2 ← vtAt c ((e.vert : Int) + 1)
  if before = true ∧ apartEnough c pi me e = true then do
    let e0 ← vtAt c ((e.vert : Int) - 1)
    judge cutoff eps size me e v0 v1 v2 e0 e1 e2 last (finalPv c (e.vert + 1)) st
  else .ok st

/-- The loop over the edges of a leaf (1397-1506), `k` rounds from `j` on. -/
noncomputable def edgeLoop (cp : List Comp) (es : List Varr) (cutoff eps : ℝ) (size : Nat) (pi : Int) (i : Nat) (me : Varr) (v0 v1 v2 : V3) (last : Bool) :
    Nat → Nat → St → Res St
  | 0, _, st => .ok st
  | k + 1, j, st => do
    let e ← rd es j
    let st' ← pairStep cp cutoff eps size pi me e v0 v1 v2 last (decide (j < i)) st
    edgeLoop cp es cutoff eps size pi i me v0 v1 v2 last k (j + 1) st'

/-- `cc_sq_dist <= 3` (1514-1534). With a zero among the scale factors the left side is not a number, or infinite. -/
noncomputable def closeEnough (big cutoff eps : ℝ) (me : Varr) (B : Box) (shortest : ℝ) : Prop :=
  if cutoff > 0 ∨ shortest < big then
    let cc := (center B).sub me.v
    let sc := (center B).sub (corner B 0)
    let add := upBound cutoff eps shortest + me.len / 2
    sc.x + add ≠ 0 ∧ sc.y + add ≠ 0 ∧ sc.z + add ≠ 0 ∧
    (cc.x * cc.x) / ((sc.x + add) * (sc.x + add)) + (cc.y * cc.y) / ((sc.y + add) * (sc.y + add)) + (cc.z * cc.z) / ((sc.z + add) * (sc.z + add)) ≤ 3
  else True

open Classical in
/-- Whether a box is searched (1534-1535). -/
noncomputable def worth (big cutoff eps : ℝ) (me : Varr) (v0 v1 v2 : V3) (last : Bool) (B : Box) (shortest : ℝ) : Bool :=
  decide (closeEnough big cutoff eps me B shortest) && boxIntersects v0 v1 v2 B last

/-- The loop over the boxes inside of a box (1508-1540); `search` is the recursive call, `check` decides whether it is made. -/
noncomputable def subLoop (boxes : List Box) (i : Nat) (check : Box → ℝ → Bool) (search : Nat → St → Res St) : List (Option Nat) → St → Res St
  | [], st => .ok st
  | none :: r, st => subLoop boxes i check search r st
  | some q :: r, st => do
    let B ← rd boxes q
    if B.first < i then do
      let st' ← if check B st.shortest = true then search q st else .ok st
      subLoop boxes i check search r st'
    else .ok st

/-- `check_boxes` (1373-1542); the first argument bounds the depth. -/
noncomputable def checkBoxes (big : ℝ) (cp : List Comp) (es : List Varr) (boxes : List Box) (cutoff eps : ℝ) (size : Nat) (pi : Int) (i : Nat) (me : Varr)
    (v0 v1 v2 : V3) (last : Bool) : Nat → Nat → St → Res St
  | 0, _, _ => .error .ub
  | f + 1, p, st => do
    let B ← rd boxes p
    if leaf B = true then edgeLoop cp es cutoff eps size pi i me v0 v1 v2 last B.num B.first st
    else subLoop boxes i (worth big cutoff eps me v0 v1 v2 last) (fun q st => checkBoxes big cp es boxes cutoff eps size pi i me v0 v1 v2 last f q st) B.subs st

/-- The angle of two vectors, and the larger of it and the one so far (1562-1564, 1567-1569, 1576-1578). With a vector of length zero the quotient is not a
number and the comparison fails. -/
noncomputable def turnMax (e1 e2 : V3) (mx : ℝ) : ℝ :=
  if Real.sqrt (e1.dot e1 * e2.dot e2) = 0 then mx
  else
    let a := Real.arccos (e1.dot e2 / Real.sqrt (e1.dot e1 * e2.dot e2))
    if mx < a then a else mx

/-- The loop over the inner vertices (1571-1579), `k` rounds from `j` on. -/
noncomputable def turnLoop (c : Comp) : Nat → Nat → ℝ → Res ℝ
  | 0, _, mx => .ok mx
  | k + 1, j, mx => do
    let b ← vtAt c (j : Int)
    let d ← vtAt c ((j : Int) + 1)
    let a ← vtAt c ((j : Int) - 1)
    turnLoop c k (j + 1) (turnMax (b.sub a) (d.sub b) mx)

/-- One component (1555-1579). -/
noncomputable def turnComp (c : Comp) (mx : ℝ) : Res ℝ :=
  if c.isOpen then turnLoop c (c.vt.length - 2) 1 mx
  else do
    let z ← vtAt c ((c.vt.length : Int) - 1)
    let a ← vtAt c 0
    let b ← vtAt c 1
    let y ← vtAt c ((c.vt.length : Int) - 2)
    turnLoop c (c.vt.length - 2) 1 (turnMax (y.sub z) (z.sub a) (turnMax (a.sub b) (z.sub a) mx))

/-- `max_turning_angle` (1545-1582). -/
noncomputable def maxTurn : List Comp → ℝ → Res ℝ
  | [], mx => .ok mx
  | c :: cs, mx => do
    let m ← turnComp c mx
    maxTurn cs m

/-- `pi_count` (1646-1655). If no edge turns this is a division by zero, and an infinite number is turned into an `int`. -/
noncomputable def piCount (cp : List Comp) : Res Int := do
  let mx ← maxTurn cp 0
  if mx = 0 then .error .ub
  else do
    let k ← toInt (⌊Real.pi / mx⌋ : ℤ)
    .ok (if k < 2 then 2 else k)

/-- The loop over the edges (1676-1686): the first argument is `edge`. -/
noncomputable def mainLoop (big : ℝ) (cp : List Comp) (es : List Varr) (boxes : List Box) (depth root : Nat) (cutoff eps : ℝ) (size : Nat) (pi : Int) :
    Nat → St → Res St
  | 0, st => .ok st
  | i + 1, st => do
    let me ← rd es (i + 1)
    let c ← rd cp me.comp
    let v0 ← vtAt c ((me.vert : Int) - 1)
    let v1 ← vtAt c (me.vert : Int)
    let v2 ← vtAt c ((me.vert : Int) + 1)
    let st' ← checkBoxes big cp es boxes cutoff eps size pi (i + 1) me v0 v1 v2 (finalPv c (me.vert + 1)) depth root st
    mainLoop big cp es boxes depth root cutoff eps size pi i st'

/-- `octrope_struts` from the octree on (1646-1713): the shortest length and the struts. -/
noncomputable def searchStruts (big : ℝ) (cp : List Comp) (es : List Varr) (boxes : List Box) (depth root : Nat) (cutoff eps : ℝ) (size : Nat) :
    Res (ℝ × List Strut) := do
  let pi ← piCount cp
  let st ← mainLoop big cp es boxes depth root cutoff eps size pi (es.length - 1) ⟨big, []⟩
  if 0 < size ∧ 0 < st.struts.length then do
    let l ← cleanup (upBound cutoff eps st.shortest) st.struts
    .ok (st.shortest, l)
  else .ok (st.shortest, st.struts)

end Plc.Struts
