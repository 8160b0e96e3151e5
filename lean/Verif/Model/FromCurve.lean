import Verif.Model.Regenerate
import Verif.Model.Moves
import Verif.Model.HashGen
import Verif.Model.Ok
import Verif.Model.Io
import Mathlib.Order.Defs.LinearOrder

/-! # From the crossings of a projection to a diagram (`src/plcTopology.c` 348-516, 895-1310)

Parameters along components are doubles; here they are in any linear order `K`, and `near a b` is `fabs(a - b) < 1e-8`. -/

namespace Plc.FromCurve

open Plc.Core Plc.Cmp Plc.Moves

/-- `crossing` (plcTopology.c 356-368). -/
structure Crossing (K : Type) where
  lowerCmp : Nat
  upperCmp : Nat
  lowerS : K
  upperS : K
  sign : Int
  deriving DecidableEq

/-- `crossing_strand_t` (plcTopology.c 975-982). -/
structure Strand (K : Type) where
  num : Nat
  cmp : Nat
  s : K
  up : Bool
  deriving DecidableEq

/-- The two strands of every crossing, the lower one first (plcTopology.c 1038-1053). -/
def strands {K : Type} (cc : List (Crossing K)) : List (Strand K) :=
  cc.zipIdx.flatMap (fun p => [⟨p.2, p.1.lowerCmp, p.1.lowerS, false⟩, ⟨p.2, p.1.upperCmp, p.1.upperS, true⟩])

section

variable {K : Type} [LinearOrder K] (near : K → K → Bool)

/-- `crossing_reference_compare` (plcTopology.c 443-451). -/
def refCmp (a b : Nat × K) : Int := if a.2 < b.2 then -1 else 1

/-- `crossing_strand_cmp` (plcTopology.c 984-999). -/
def strandCmp (a b : Strand K) : Int :=
  if a.cmp ≠ b.cmp then (b.cmp : Int) - a.cmp
  else if near a.s b.s then 0
  else if a.s < b.s then -1 else 1

/-- How often the component is met (plcTopology.c 900-904). -/
def met (cc : List (Crossing K)) (c : Nat) : Nat :=
  cc.countP (fun x => decide (x.lowerCmp = c)) + cc.countP (fun x => decide (x.upperCmp = c))

/-- The references of component `c` (plcTopology.c 940-952), the array `crc[c].buf` before it is sorted. -/
def refs (cc : List (Crossing K)) (c : Nat) : List (Nat × K) :=
  ((strands cc).filter (fun t => decide (t.cmp = c))).map (fun t => (t.num, t.s))

/-- `divide_crossings_by_component` (plcTopology.c 895-971) for a curve with `nc` components. `v` are the parameters 0.33 and 0.66 of
the crossing given to a curve which is one component without crossings. The counting of entries against sizes (954-963) is left
out: both are counted over the same list. Two entries with the same parameter are unordered for the comparison (it is 1 both ways);
here any of the two orders is allowed. -/
def divide (qs : QSort) (nc : Nat) (v : K × K) (cc : List (Crossing K)) : Res (List (Crossing K) × List (List (Nat × K))) :=
  if cc.any (fun x => decide (nc ≤ x.lowerCmp ∨ nc ≤ x.upperCmp)) then .error .ub
  else do
    let cc ← if (List.range nc).any (fun c => decide (met cc c = 0)) then
        (if nc = 1 then .ok (cc ++ [⟨0, 0, v.1, v.2, 1⟩]) else .error .die)
      else .ok cc
    .ok (cc, (List.range nc).map (fun c => qs.sort (fun a b => decide (0 < refCmp b a)) (refs cc c)))

/-- Binary search between `lo` and `hi`; `cmp x` compares the key with `x`. -/
def bsearchGo {α : Type} (cmp : α → Int) (l : List α) : Nat → Nat → Nat → Option α
  | 0, _, _ => none
  | fuel + 1, lo, hi =>
    if lo < hi then
      match l[(lo + hi) / 2]? with
      | none => none
      | some x =>
        if cmp x < 0 then bsearchGo cmp l fuel lo ((lo + hi) / 2)
        else if 0 < cmp x then bsearchGo cmp l fuel ((lo + hi) / 2 + 1) hi
        else some x
    else none

/-- `bsearch` of the C library, as implemented by glibc. -/
def bsearch {α : Type} (cmp : α → Int) (l : List α) : Option α := bsearchGo cmp l (l.length + 1) 0 l.length

/-- Looking up component and parameter (plcTopology.c 1126-1137). -/
def look (cs : List (Strand K)) (c : Nat) (s : K) : Res (Strand K) :=
  match bsearch (strandCmp near ⟨0, c, s, false⟩) cs with
  | some t => .ok t
  | none => .error .die

/-- The edges of component `c` (plcTopology.c 1110-1163): where they end and where they begin. `prev` is the parameter of the place
before. -/
def edgesOf (cs : List (Strand K)) (c : Nat) : K → List (Nat × K) → Res (List (Strand K × Strand K))
  | _, [] => .ok []
  | prev, (_, s) :: l => do
    let h ← look near cs c s
    let t ← look near cs c prev
    let m ← edgesOf cs c s l
    .ok ((h, t) :: m)

/-- The edges of all components (plcTopology.c 1108-1165), numbered from `c` on. -/
def edgesAll (cs : List (Strand K)) : Nat → List (List (Nat × K)) → Res (List (Strand K × Strand K))
  | _, [] => .ok []
  | c, R :: l => do
    let m ← match R.getLast? with
      | none => .ok []
      | some p => edgesOf near cs c p.2 R
    let t ← edgesAll cs (c + 1) l
    .ok (m ++ t)

end

/-- Where a strand comes in (plcTopology.c 1225-1252). -/
def inPos (up : Bool) (o : Or) : Nat := if up then (if o = .pos then 3 else 1) else 0

/-- Where it goes out (plcTopology.c 1266-1287). -/
def outPos (up : Bool) (o : Or) : Nat := if up then (if o = .pos then 1 else 3) else 2

/-- Filling in edges and crossings (plcTopology.c 1206-1289), from edge number `i` on. -/
def place {K : Type} : List (Strand K × Strand K) → Nat → List Cross → Res (List Cross × List Edge)
  | [], _, cross => .ok (cross, [])
  | (h, t) :: l, i, cross => do
    let x ← rd cross h.num
    let cross ← setSlot cross h.num (inPos h.up x.sign) i
    let y ← rd cross t.num
    let cross ← setSlot cross t.num (outPos t.up y.sign) i
    let (cross, es) ← place l (i + 1) cross
    .ok (cross, ⟨h.num, inPos h.up x.sign, t.num, outPos t.up y.sign⟩ :: es)

/-- The sign of a crossing record (plcTopology.c 1197-1202). -/
def signOf (s : Int) : Or := if 0 < s then .pos else .neg

section

variable {K : Type} [LinearOrder K] (near : K → K → Bool)

/-- The search for two crossings at one place (plcTopology.c 1062-1075). -/
def double : List (Strand K) → Bool
  | a :: b :: l => decide (strandCmp near b a = 0) || double (b :: l)
  | _ => false

/-- `assemble_pdcode` (plcTopology.c 1001-1310). `none` is the null pointer. -/
def assemble (qs : QSort) (nc : Nat) (crc : List (List (Nat × K))) (cc : List (Crossing K)) : Res (Option (Io.Caps × Io.Pd)) := do
  let cs := qs.sort (fun a b => decide (strandCmp near a b ≤ 0)) (strands cc)
  if double near cs then .ok none
  else do
    let te ← edgesAll near cs 0 crc
    let caps := Io.capsNew (if cc.length > 1 then cc.length else 2)
    assertC (decide (2 * cc.length = te.length))
    assertC (decide (2 * cc.length ≤ caps.edges))
    assertC (decide (cc.length ≤ caps.verts))
    let (cross, edge) ← place te 0 (cc.map (fun x => ⟨0, 0, 0, 0, signOf x.sign⟩))
    let (cross, edge, comp, face) ← Regenerate.regenerate qs caps.edges caps.comps caps.faces cross edge
    let hash ← HashGen.regenHash qs cross.length edge.length face comp
    let pd : Io.Pd := ⟨hash, 0, cross, edge, comp, face⟩
    assertC (decide (comp.length = nc))
    let ok ← Ok.pdOk qs caps pd
    if ok then .ok (some (caps, pd)) else .error .die

/-- The two steps after the search for crossings (plcTopology.c 1424, 1461). -/
def fromCrossings (qs : QSort) (nc : Nat) (v : K × K) (cc : List (Crossing K)) : Res (Option (Io.Caps × Io.Pd)) := do
  let (cc, crc) ← divide qs nc v cc
  assemble near qs nc crc cc

end

end Plc.FromCurve
