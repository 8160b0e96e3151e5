import Verif.Model.Strands

/-! # Interlaced crossings (`src/pd_invariants.c`) -/

namespace Plc.Interlace

open Plc.Cmp Plc.Strands

/-- `pdint_polyak_sign` (pd_invariants.c 48-101). The sign of the crossing is set to positive
while over- and understrand are looked up, and restored at the end. -/
def polyakSign (cross : List Cross) (edge : List Edge) (c : Nat) : Res Int := do
  let x ← rd cross c
  let cross' := cross.set c { x with sign := .pos }
  let (_, oop) ← overstrandPos cross' edge c
  let (_, oup) ← understrandPos cross' edge c
  assertC (oup ≠ oop)
  let oop1 := if oop = 0 ∧ oup = 3 then 4 else oop
  let oup1 := if oup = 0 ∧ oop1 = 3 then 4 else oup
  let (e1p, e2p) := if oop1 > oup1 then (oup1 % 4, oop1 % 4) else (oop1 % 4, oup1 % 4)
  assertC (e1p ≠ e2p)
  let e1 ← x.rdPos e1p
  let e2 ← x.rdPos e2p
  .ok (if e2 > e1 then 1 else -1)

/-- Phase 1, the Gauss code (pd_invariants.c 217-228): crossing numbers shifted up by one. -/
def gaussCode (edge : List Edge) : List Nat → Res (List Nat)
  | [] => .ok []
  | e :: l => do
    let r ← rd edge e
    let g ← gaussCode edge l
    .ok ((r.head + 1) :: g)

/-- Marking first visits by a minus sign (pd_invariants.c 233-249). -/
def markFirst : List Nat → List Nat → Res (List Int)
  | _, [] => .ok []
  | nseen, g :: l => do
    let v ← rd nseen g
    let nseen ← wr nseen g (v + 1)
    let r ← markFirst nseen l
    .ok ((if v + 1 = 1 then -(g : Int) else (g : Int)) :: r)

/-- `int_cmp` as the order used by `qsort` (pd_invariants.c 40-46). -/
def natLe (a b : Nat) : Bool := decide (a ≤ b)

/-- Filling `newcrossinglabel` (pd_invariants.c 298-301). -/
def newLabels : List Nat → Nat → List Nat → Res (List Nat)
  | [], _, nl => .ok nl
  | c :: l, i, nl => do
    let nl ← wr nl c (i + 1)
    newLabels l (i + 1) nl

/-- The augmented Gauss code (pd_invariants.c 318-331). -/
def augment (nl : List Nat) : List Int → Res (List Int)
  | [] => .ok []
  | g :: l => do
    let v ← rd nl g.natAbs
    let r ← augment nl l
    .ok (if v > 0 then ((if g > 0 then 1 else -1) * (v : Int)) :: r else r)

/-- `nswaps[y][x]++` (pd_invariants.c 358). -/
def bump (s : List (List Nat)) (y x : Nat) : Res (List (List Nat)) := do
  let row ← rd s y
  let v ← rd row x
  let row ← wr row x (v + 1)
  wr s y row

/-- One pass of the bubble sort (pd_invariants.c 348-365), on a list: the array from position
`i` on. The last result is `madeswap`. -/
def pass : List Int → List (List Nat) → Res (List Int × List (List Nat) × Bool)
  | a :: b :: l, s =>
    if a.natAbs > b.natAbs then do
      let s ← bump s a.natAbs b.natAbs
      let (r, s, _) ← pass (a :: l) s
      .ok (b :: r, s, true)
    else do
      let (r, s, m) ← pass (b :: l) s
      .ok (a :: r, s, m)
  | l, s => .ok (l, s, false)

/-- The bubble sort (pd_invariants.c 343-370); the first argument is
`2 * cpsize + 1 - safety_count`. -/
def sortLoop : Nat → List Int → List (List Nat) → Res (List (List Nat))
  | 0, l, s => do
    let _ ← pass l s
    .error .die
  | k + 1, l, s => do
    let (l, s, m) ← pass l s
    if m then sortLoop k l s else .ok s

/-- A loop that adds up numbers. `int` is taken as unbounded here. -/
def sumRes (f : Nat → Res Int) : List Nat → Int → Res Int
  | [], acc => .ok acc
  | i :: l, acc => do
    let v ← f i
    sumRes f l (acc + v)

/-- What the pair `i`, `j` of labels adds (pd_invariants.c 382-397). -/
def pairTerm (cross : List Cross) (edge : List Edge) (signs : Bool) (old : List Nat)
    (s : List (List Nat)) (i j : Nat) : Res Int := do
  let row ← rd s i
  let v ← rd row j
  if v % 2 ≠ 0 then
    if signs then do
      let a ← rd old i
      let b ← rd old j
      let p ← polyakSign cross edge a
      let q ← polyakSign cross edge b
      .ok (p * q)
    else .ok 1
  else .ok 0

/-- `pdint_interlaced_comp` (pd_invariants.c 103-420). `crossingspresent` has room for `ncross` numbers,
`augmentedgausscode` for `2 * cpsize`; writing more is undefined behaviour. Position 0 of
`oldcrossinglabel` and rows 0 and 1 of `nswaps` are not used. -/
def interlacedComp (qs : QSort) (cross : List Cross) (edge : List Edge) (comps : List Comp)
    (comp : Nat) (signs : Bool) : Res Int := do
  let k ← rd comps comp
  let g ← gaussCode edge k.edge
  let code ← markFirst (List.replicate (cross.length + 1) 0) g
  let present := (code.filter (fun x => decide (x > 0))).map Int.natAbs
  if present.length > cross.length then .error .ub
  else if present.length = 0 then .ok 0
  else do
    let sorted := qs.sort natLe present
    let nl ← newLabels sorted 0 (List.replicate (cross.length + 1) 0)
    let old := 0 :: sorted.map (fun c => c - 1)
    let aug ← augment nl code
    if aug.length > 2 * sorted.length then .error .ub
    else do
      assertC (aug.length = 2 * sorted.length)
      let s ← sortLoop (2 * sorted.length + 1) aug
        ((List.range (sorted.length + 1)).map (fun i => List.replicate (if i < 2 then 0 else i) 0))
      sumRes (fun i => sumRes (pairTerm cross edge signs old s i) (List.range' 1 (i - 1)) 0)
        (List.range' 2 (sorted.length - 1)) 0

/-- `pd_interlaced_crossings` and `pd_interlaced_crossings_unsigned` (pd_invariants.c 423-456). -/
def interlacedCrossings (qs : QSort) (cross : List Cross) (edge : List Edge) (comps : List Comp)
    (signs : Bool) : Nat → Nat → Res (List Int)
  | 0, _ => .ok []
  | k + 1, i => do
    let v ← interlacedComp qs cross edge comps i signs
    let r ← interlacedCrossings qs cross edge comps signs k (i + 1)
    .ok (v :: r)

end Plc.Interlace
