import Verif.Model.Comps

/-! # Over- and understrands, linking numbers (`src/plcTopology.c`, `src/pdcode.c`) -/

namespace Plc.Strands

open Plc.Core Plc.Cmp

/-- The four positions computed by `pd_overunder_internal`. -/
structure OU where
  overIn : Nat
  overOut : Nat
  underIn : Nat
  underOut : Nat
  deriving DecidableEq, Repr

/-- The case table of `pd_overunder_internal` (plcTopology.c 1812-2015): whether the edges at
positions 0 and 1 are incoming, and the sign. -/
def ouTable (in0 in1 : Bool) (sign : Or) : OU :=
  match in0, in1, sign with
  | true, true, .pos => ⟨0, 2, 1, 3⟩
  | true, true, .neg => ⟨1, 3, 0, 2⟩
  | true, true, .unset => ⟨0, 2, 1, 3⟩
  | true, false, .pos => ⟨3, 1, 0, 2⟩
  | true, false, .neg => ⟨0, 2, 3, 1⟩
  | true, false, .unset => ⟨3, 1, 0, 2⟩
  | false, true, .pos => ⟨1, 3, 2, 0⟩
  | false, true, .neg => ⟨2, 0, 1, 3⟩
  | false, true, .unset => ⟨1, 3, 2, 0⟩
  | false, false, .pos => ⟨2, 0, 3, 1⟩
  | false, false, .neg => ⟨3, 1, 2, 0⟩
  | false, false, .unset => ⟨2, 0, 3, 1⟩

/-- `pd_overunder_internal` (plcTopology.c 1803-2016). `pd_check_cr` aborts for a crossing number
out of range. -/
def overUnder (cross : List Cross) (edge : List Edge) (cr : Nat) : Res OU := do
  assertC (cr < cross.length)
  let c ← rd cross cr
  let r0 ← rd edge c.e0
  let r1 ← rd edge c.e1
  .ok (ouTable (decide (r0.head = cr ∧ r0.headpos = 0)) (decide (r1.head = cr ∧ r1.headpos = 1)) c.sign)

/-- `pd_overstrand_pos` (plcTopology.c 2018-2030). -/
def overstrandPos (cross : List Cross) (edge : List Edge) (cr : Nat) : Res (Nat × Nat) := do
  let u ← overUnder cross edge cr
  .ok (u.overIn, u.overOut)

/-- `pd_understrand_pos` (plcTopology.c 2032-2045). -/
def understrandPos (cross : List Cross) (edge : List Edge) (cr : Nat) : Res (Nat × Nat) := do
  let u ← overUnder cross edge cr
  .ok (u.underIn, u.underOut)

/-- `pd_overstrand` (plcTopology.c 2047-2059). -/
def overstrand (cross : List Cross) (edge : List Edge) (cr : Nat) : Res (Nat × Nat) := do
  let (i, o) ← overstrandPos cross edge cr
  let c ← rd cross cr
  let a ← c.rdPos i
  let b ← c.rdPos o
  .ok (a, b)

/-- `pd_understrand` (plcTopology.c 2061-2072). -/
def understrand (cross : List Cross) (edge : List Edge) (cr : Nat) : Res (Nat × Nat) := do
  let (i, o) ← understrandPos cross edge cr
  let c ← rd cross cr
  let a ← c.rdPos i
  let b ← c.rdPos o
  .ok (a, b)

/-- The inner loop of `pd_component_and_pos` (pdcode.c 394-404). -/
def findPos (e : Nat) : List Nat → Nat → Option Nat
  | [], _ => none
  | x :: l, i => if x = e then some i else findPos e l (i + 1)

/-- The outer loop (pdcode.c 392-406); the program exits at the end. -/
def findComp (e : Nat) : List Comp → Nat → Res (Nat × Nat)
  | [], _ => .error .die
  | c :: l, i =>
    match findPos e c.edge 0 with
    | some p => .ok (i, p)
    | none => findComp e l (i + 1)

/-- `pd_component_and_pos` (pdcode.c 379-412). -/
def compAndPos (nedges : Nat) (comps : List Comp) (e : Nat) : Res (Nat × Nat) := do
  assertC (e < nedges)
  findComp e comps 0

/-- What a crossing adds to the linking number (plcTopology.c 2131-2143). -/
def lkSign : Or → Int
  | .unset => 1
  | .pos => 1
  | .neg => -1

/-- The loop of `pd_linking_number` over the edges of the shorter component (plcTopology.c
2119-2147). The sum is a mathematical integer: it is bounded by the number of edges. -/
def lkLoop (cross : List Cross) (edge : List Edge) (comps : List Comp) (long : Nat) :
    List Nat → Int → Res Int
  | [], lk => .ok lk
  | e :: l, lk => do
    let r ← rd edge e
    let c ← rd cross r.head
    let o ← c.rdPos ((r.headpos + 1) % 4)
    let (oc, _) ← compAndPos edge.length comps o
    lkLoop cross edge comps long l (if oc = long then lk + lkSign c.sign else lk)

/-- `pd_linking_number` (plcTopology.c 2075-2152). `/` on `int` rounds towards zero. -/
def linkingNumber (cross : List Cross) (edge : List Edge) (comps : List Comp) (c1 c2 : Nat) :
    Res Int := do
  assertC (c1 < comps.length)
  assertC (c2 < comps.length)
  assertC (cross.all (fun c => c.sign ≠ .unset))
  let k1 ← rd comps c1
  let k2 ← rd comps c2
  let lk ← if k1.edge.length < k2.edge.length then lkLoop cross edge comps c2 k1.edge 0
    else lkLoop cross edge comps c1 k2.edge 0
  .ok (lk.tdiv 2)

/-- The loop of `pd_unsigned_linking_number` (plcTopology.c 2189-2203). -/
def ulkLoop (cross : List Cross) (edge : List Edge) (comps : List Comp) (long : Nat) :
    List Nat → Int → Res Int
  | [], lk => .ok lk
  | e :: l, lk => do
    let r ← rd edge e
    let c ← rd cross r.head
    let o ← c.rdPos ((r.headpos + 1) % 4)
    let (oc, _) ← compAndPos edge.length comps o
    ulkLoop cross edge comps long l (if oc = long then lk + 1 else lk)

/-- `pd_unsigned_linking_number` (plcTopology.c 2154-2208). -/
def unsignedLinkingNumber (cross : List Cross) (edge : List Edge) (comps : List Comp) (c1 c2 : Nat) :
    Res Int := do
  assertC (c1 < comps.length)
  assertC (c2 < comps.length)
  let k1 ← rd comps c1
  let k2 ← rd comps c2
  let lk ← if k1.edge.length < k2.edge.length then ulkLoop cross edge comps c2 k1.edge 0
    else ulkLoop cross edge comps c1 k2.edge 0
  .ok (lk.tdiv 2)

end Plc.Strands
