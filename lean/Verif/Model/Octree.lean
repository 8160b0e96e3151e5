import Verif.Model.Struts
import Verif.Model.Quick

/-! # Building the octree (`src/octrope.c` 296-309, 379-750), and `octrope_struts` (1584-1712)

Memory is always there: `oct_alloc` and `aux_alloc` do not fail. A box is known by its index in the list of all boxes, in the order in which
they are allocated; `by_x`, `by_y` and `by_z` are lists of indices into `by_oct`. -/

namespace Plc.Struts

open Plc.Core Plc.FindCrossings Plc.RandomPolygon Plc.Equilateral Plc.Motions Plc.Measure Plc.Poca

/-- The two ends of edge `v` of component `c`: `vt[vert]` and `vt[vert+1]`. -/
def endsAt (c : Comp) (v : Nat) : Res (V3 × V3) := do
  let a ← vtAt c (v : Int)
  let b ← vtAt c ((v : Int) + 1)
  .ok (a, b)

/-- The two ends of an edge in `by_oct`. -/
def ends (cp : List Comp) (e : Varr) : Res (V3 × V3) := do
  let c ← rd cp e.comp
  endsAt c e.vert

/-- The edges of a component (457-473): `k` of them from `v` on. -/
noncomputable def edgesComp (c : Comp) (i : Nat) : Nat → Nat → Res (List Varr)
  | 0, _ => .ok []
  | k + 1, v => do
    let (a, b) ← endsAt c v
    let r ← edgesComp c i k (v + 1)
    .ok (⟨⟨(a.x + b.x) / 2, (a.y + b.y) / 2, (a.z + b.z) / 2⟩, norm3 (b.sub a), i, v, 0, 0⟩ :: r)

/-- All edges (456-475); `plc_num_edges` (plCurve.c) counts them in the same way. -/
noncomputable def edgesAll : List Comp → Nat → Res (List Varr)
  | [], _ => .ok []
  | c :: cs, i => do
    let es ← edgesComp c i (if c.isOpen then c.vt.length - 1 else c.vt.length) 0
    let r ← edgesAll cs (i + 1)
    .ok (es ++ r)

/-- The number of binary digits (399-403). -/
def log2 (n : Nat) : Nat := Nat.size n

/-- `octree_levels` (404-413), `req` is `requested_levels`. -/
def levels (req n : Nat) : Nat := min (if req = 0 then (log2 n * 3 + 3) / 4 else min req (log2 n)) 21

/-- The table `bin_to_oct` (octcnv4.h 34-162): binary digits become octal ones. That the 1024 entries of the table are these numbers has
been checked by a script, not by a proof. -/
def spread (c : Nat) : Nat := if c = 0 then 0 else c % 2 + 8 * spread (c / 2)

/-- `bin_to_oct[i]`. -/
def binToOct (i : Nat) : Res Nat := if i < 1024 then .ok (spread i) else .error .ub

/-- `by_x[vcnt]->oct[0] |= oct1; by_x[vcnt]->oct[1] |= oct2` (515-520), with both shifted. -/
def orTag (ix : List Nat) (v o1 o2 sh : Nat) (es : List Varr) : Res (List Varr) := do
  let i ← rd ix v
  let e ← rd es i
  wr es i { e with oct0 := e.oct0 ||| (o1 <<< sh), oct1 := e.oct1 ||| (o2 <<< sh) }

/-- The inner loop (510-521): `k` steps from `cnt2` on. -/
def tagInner (xs ys zs : List Nat) (n ppb cnt : Nat) : Nat → Nat → List Varr → Res (List Varr)
  | 0, _, es => .ok es
  | k + 1, cnt2, es =>
    if cnt * ppb + cnt2 < n then do
      let o1 ← binToOct (cnt / 1024)
      let o2 ← binToOct (cnt &&& 1023)
      let es ← orTag xs (cnt * ppb + cnt2) o1 o2 0 es
      let es ← orTag ys (cnt * ppb + cnt2) o1 o2 1 es
      let es ← orTag zs (cnt * ppb + cnt2) o1 o2 2 es
      tagInner xs ys zs n ppb cnt k (cnt2 + 1) es
    else .ok es

/-- The outer loop (509-522): `k` steps from `cnt` on. -/
def tagLoop (xs ys zs : List Nat) (n ppb : Nat) : Nat → Nat → List Varr → Res (List Varr)
  | 0, _, es => .ok es
  | k + 1, cnt, es => do
    let es ← tagInner xs ys zs n ppb cnt ppb 0 es
    tagLoop xs ys zs n ppb k (cnt + 1) es

/-- A coordinate of the middle of edge `i`; the indices are always those of edges. -/
noncomputable def coordAt (es : List Varr) (g : V3 → ℝ) (i : Nat) : ℝ :=
  match es[i]? with
  | some a => g a.v
  | none => 0

/-- The order of two edges by a coordinate of their middles. -/
noncomputable def coordLt (es : List Varr) (g : V3 → ℝ) (i j : Nat) : Bool := decide (coordAt es g i < coordAt es g j)

/-- The order by tags, `o_l` (232). -/
def tagLt (a b : Varr) : Bool := decide (a.oct0 < b.oct0 ∨ (a.oct0 = b.oct0 ∧ a.oct1 < b.oct1))

/-- `initialize_box` (296-309). -/
noncomputable def initBox (a b : V3) (first : Nat) (leafBox : Bool) : Box :=
  ⟨⟨if a.x < b.x then a.x else b.x, if a.y < b.y then a.y else b.y, if a.z < b.z then a.z else b.z⟩,
    ⟨if b.x < a.x then a.x else b.x, if b.y < a.y then a.y else b.y, if b.z < a.z then a.z else b.z⟩,
    List.replicate 8 none, if leafBox then 1 else 0, first⟩

/-- `box_num` (575-579, 718-722). -/
def boxNum (e : Varr) (cnt : Nat) : Nat :=
  if cnt > 10 then (e.oct0 >>> (3 * (cnt - 10 - 1))) &&& 7 else (e.oct1 >>> (3 * (cnt - 1))) &&& 7

/-- The number of octal digits, on top of `c` (534-537, 653-656). -/
def octLen (x c : Nat) : Nat := if x = 0 then c else octLen (x >>> 3) (c + 1)
termination_by x
decreasing_by rw [Nat.shiftRight_eq_div_pow]; exact Nat.div_lt_self (by omega) (by norm_num)

/-- The level at which the tags differ (645-656). -/
def changeLevel (e f : Varr) : Nat :=
  if e.oct0 ≠ f.oct0 then octLen (e.oct0 ^^^ f.oct0) 10 else octLen (e.oct1 ^^^ f.oct1) 0

/-- The boxes, and `tree_swath`. -/
structure TSt where
  boxes : List Box
  sw : List Nat

/-- The swath for the first edge (567-581): box `cnt` is on level `cnt`. -/
noncomputable def preBox (e : Varr) (a b : V3) (cnt : Nat) : Box :=
  if cnt = 0 then initBox a b 0 true
  else { initBox a b 0 false with subs := (List.replicate 8 none).set (boxNum e cnt) (some (cnt - 1)) }

/-- Making one dimension of the box big enough (595-608). -/
noncomputable def widen1 (lo hi a b : ℝ) : ℝ × ℝ :=
  if a < b then (if a < lo then a else lo, if b > hi then b else hi) else (if b < lo then b else lo, if a > hi then a else hi)

/-- One more edge in a box (591-638). -/
noncomputable def absorb (B : Box) (a b : V3) : Box :=
  let x := widen1 B.lo.x B.hi.x a.x b.x
  let y := widen1 B.lo.y B.hi.y a.y b.y
  let z := widen1 B.lo.z B.hi.z a.z b.z
  { B with num := B.num + 1, lo := ⟨x.1, y.1, z.1⟩, hi := ⟨x.2, y.2, z.2⟩ }

/-- The edges with the same tag (589-639): at most `k` of them from `j` on. -/
noncomputable def absorbLoop (cp : List Comp) (es : List Varr) : Nat → Nat → TSt → Res (Nat × TSt)
  | 0, j, st => .ok (j, st)
  | k + 1, j, st =>
    if j < es.length then do
      let e ← rd es j
      let p ← rd st.sw 0
      let B ← rd st.boxes p
      let f ← rd es B.first
      if e.oct0 = f.oct0 ∧ e.oct1 = f.oct1 then do
        let (a, b) ← ends cp e
        let bs ← wr st.boxes p (absorb B a b)
        absorbLoop cp es k (j + 1) { st with boxes := bs }
      else .ok (j, st)
    else .ok (j, st)

/-- A box gets what is in a complete box inside of it (683-701). -/
noncomputable def merge (P B : Box) : Box :=
  { P with
    num := P.num + B.num
    lo := ⟨if B.lo.x < P.lo.x then B.lo.x else P.lo.x, if B.lo.y < P.lo.y then B.lo.y else P.lo.y, if B.lo.z < P.lo.z then B.lo.z else P.lo.z⟩
    hi := ⟨if B.hi.x > P.hi.x then B.hi.x else P.hi.x, if B.hi.y > P.hi.y then B.hi.y else P.hi.y, if B.hi.z > P.hi.z then B.hi.z else P.hi.z⟩ }

/-- One step of completing boxes (663-706). -/
noncomputable def closeStep (ppb cnt : Nat) (st : TSt) : Res TSt := do
  let q ← rd st.sw (cnt - 1)
  let p ← rd st.sw cnt
  let B ← rd st.boxes q
  let P ← rd st.boxes p
  let bs ← wr st.boxes p (merge P B)
  let bs ← wr bs q (if B.num ≤ ppb ∧ cnt > 1 then { B with subs := List.replicate 8 none } else B)
  .ok { st with boxes := bs }

/-- Completing the boxes below `change_level` (663-706): `k` steps from `cnt` on. -/
noncomputable def closeLoop (ppb : Nat) : Nat → Nat → TSt → Res TSt
  | 0, _, st => .ok st
  | k + 1, cnt, st => do
    let st ← closeStep ppb cnt st
    closeLoop ppb k (cnt + 1) st

/-- One new box (709-735). A box that is there already is reported as an error (723-732). -/
noncomputable def openStep (e : Varr) (a b : V3) (j cnt : Nat) (st : TSt) : Res TSt := do
  let q := st.boxes.length
  let sw ← wr st.sw (cnt - 1) q
  let p ← rd sw cnt
  let bs := st.boxes ++ [initBox a b j (decide (cnt = 1))]
  let P ← rd bs p
  let o ← rd P.subs (boxNum e cnt)
  match o with
  | some _ => .error .die
  | none => do
    let bs ← wr bs p { P with subs := P.subs.set (boxNum e cnt) (some q) }
    .ok ⟨bs, sw⟩

/-- The new boxes for edge `j` (708-736). -/
noncomputable def openLoop (e : Varr) (a b : V3) (j : Nat) : Nat → TSt → Res TSt
  | 0, st => .ok st
  | cnt + 1, st => do
    let st ← openStep e a b j (cnt + 1) st
    openLoop e a b j cnt st

/-- The loop over the edges (583-738), at most `k` times: `j` is the next edge. -/
noncomputable def treeLoop (cp : List Comp) (es : List Varr) (L ppb : Nat) : Nat → Nat → TSt → Res TSt
  | 0, _, st => .ok st
  | k + 1, j, st => do
    let (j, st) ← absorbLoop cp es es.length j st
    if j < es.length then do
      let e ← rd es j
      let p ← rd st.sw 0
      let B ← rd st.boxes p
      let f ← rd es B.first
      if changeLevel e f > L then .error .die
      else do
        let st ← closeLoop ppb (changeLevel e f) 1 st
        let (a, b) ← ends cp e
        let st ← openLoop e a b j (changeLevel e f) st
        treeLoop cp es L ppb k (j + 1) st
    else closeLoop ppb (L - 1) 1 st

/-- What `build_octree` leaves: the edges in order, the boxes, the number of levels, the root. -/
structure Built where
  es : List Varr
  boxes : List Box
  depth : Nat
  root : Nat

/-- The tags (477-523). -/
noncomputable def tagged (es : List Varr) (L ppb : Nat) : Res (List Varr) := do
  let n := es.length
  let xs ← Quick.sort (coordLt es V3.x) .careful n 0 (n - 1) (List.range n)
  let ys ← Quick.sort (coordLt es V3.y) .careful n 0 (n - 1) (List.range n)
  let zs ← Quick.sort (coordLt es V3.z) .careful n 0 (n - 1) (List.range n)
  tagLoop xs ys zs n ppb (2 ^ (L - 1) - 1) 1 es

/-- The boxes for the sorted edges (562-750). -/
noncomputable def boxesOf (cp : List Comp) (es : List Varr) (L ppb : Nat) : Res (List Box × Nat) := do
  let e ← rd es 0
  let (a, b) ← ends cp e
  let st ← treeLoop cp es L ppb es.length 1 ⟨(List.range L).map (preBox e a b), List.range L⟩
  let root ← rd st.sw (L - 1)
  .ok (st.boxes, root)

/-- `build_octree` (379-750). `front` is what is in memory in front of `by_oct`. Without edges there is no level, and `1 << -1` (502). -/
noncomputable def buildOctree (front : Option Varr) (req : Nat) (cp : List Comp) : Res Built := do
  let es ← edgesAll cp 0
  let L := levels req es.length
  if L = 0 then .error .ub
  else do
    let ppb := max ((es.length + 2 ^ (L - 1) - 1) / 2 ^ (L - 1)) 1
    let es ← tagged es L ppb
    let es ← Quick.sort tagLt (.peek front) es.length 0 (es.length - 1) es
    let r ← boxesOf cp es L ppb
    .ok ⟨es, r.1, L, r.2⟩

/-- `octrope_struts` (1584-1712) for a curve that is there and a list that is there if it has room: `none` for -1. -/
noncomputable def octropeStruts (big : ℝ) (front : Option Varr) (req : Nat) (cp : List Comp) (cutoff eps : ℝ) (size : Nat) :
    Res (Option (ℝ × List Strut)) :=
  if eps < 0 then .ok none
  else if cutoff < 0 then .ok none
  else do
    let T ← buildOctree front req cp
    let r ← searchStruts big cp T.es T.boxes T.depth T.root cutoff eps size
    .ok (some r)

end Plc.Struts
