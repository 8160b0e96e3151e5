import Verif.Model.Regenerate
import Verif.Model.Strands
import Verif.Model.Io

/-! # KnotTheory codes (`src/pdcode.c` 2811-2872, 3640-4273) -/

namespace Plc.KT

open Plc.Core Plc.Cmp Plc.Io

/-- The four numbers of `X[i,j,k,l]`. -/
structure Quad where
  a : Nat
  b : Nat
  c : Nat
  d : Nat
  deriving DecidableEq, Repr

/-- `x - 1` and `x - y` of unsigned numbers. -/
def usub (x y : Nat) : Nat := (x + 4294967296 - y) % 4294967296

/-- `pd->edge[e].head = c; pd->edge[e].headpos = k`. -/
def setHead (edge : List Edge) (e c k : Nat) : Res (List Edge) := do
  let r ← rd edge e
  wr edge e { r with head := c, headpos := k }

/-- `pd->edge[e].tail = c; pd->edge[e].tailpos = k`. -/
def setTail (edge : List Edge) (e c k : Nat) : Res (List Edge) := do
  let r ← rd edge e
  wr edge e { r with tail := c, tailpos := k }

/-- The over strand of crossing `cr` goes from place 1 to place 3 (pdcode.c 3788-3796, 3808-3816). -/
def over13 (edge : List Edge) (cr e1 e3 : Nat) : Res (List Edge) := do
  let edge ← setHead edge e1 cr 1
  setTail edge e3 cr 3

/-- The over strand of crossing `cr` goes from place 3 to place 1 (pdcode.c 3798-3806, 3818-3826). -/
def over31 (edge : List Edge) (cr e1 e3 : Nat) : Res (List Edge) := do
  let edge ← setHead edge e3 cr 3
  setTail edge e1 cr 1

/-- The over strand of a crossing with edges `e0`, `e1`, `e2`, `e3` (pdcode.c 3778-3828). -/
def scanOver (cr e0 e1 e2 e3 : Nat) (edge : List Edge) : Res (Cross × List Edge) :=
  if usub e3 e1 = 1 then do
    let edge ← over13 edge cr e1 e3
    .ok (⟨e0, e1, e2, e3, .neg⟩, edge)
  else if usub e1 e3 = 1 then do
    let edge ← over31 edge cr e1 e3
    .ok (⟨e0, e1, e2, e3, .pos⟩, edge)
  else if e1 > e3 then do
    let edge ← over13 edge cr e1 e3
    .ok (⟨e0, e1, e2, e3, .neg⟩, edge)
  else do
    let edge ← over31 edge cr e1 e3
    .ok (⟨e0, e1, e2, e3, .pos⟩, edge)

/-- A crossing with edges `e0`, `e1`, `e2`, `e3` (pdcode.c 3719-3830). -/
def scanEdges (cr e0 e1 e2 e3 : Nat) (edge : List Edge) : Res (Cross × List Edge) := do
  let edge ← setHead edge e0 cr 0
  let edge ← setTail edge e2 cr 2
  scanOver cr e0 e1 e2 e3 edge

/-- One crossing (pdcode.c 3719-3830): edge numbers are lowered by one. -/
def scanCross (cr : Nat) (q : Quad) (edge : List Edge) : Res (Cross × List Edge) :=
  scanEdges cr (usub q.a 1) (usub q.b 1) (usub q.c 1) (usub q.d 1) edge

/-- All crossings (pdcode.c 3717-3832), from crossing `cr` on. -/
def scanAll : Nat → List Quad → List Edge → Res (List Cross × List Edge)
  | _, [], edge => .ok ([], edge)
  | cr, q :: l, edge => do
    let (x, edge) ← scanCross cr q edge
    let (xs, edge) ← scanAll (cr + 1) l edge
    .ok (x :: xs, edge)

/-- One of the twelve tests for a two-edge component: which places of crossings `B` and `A` must have
the same edge, the new signs, and for the edges at two places of `B` whether they must end at `B`
(otherwise at `A`). -/
structure Rule where
  same : List (Nat × Nat)
  signB : Or
  signA : Or
  p1 : Nat
  toB1 : Bool
  p2 : Nat
  toB2 : Bool

/-- The twelve tests in order (pdcode.c 3864-4240). -/
def rules : List Rule :=
  [⟨[(2, 0), (0, 2), (3, 3)], .pos, .neg, 0, true, 2, false⟩,
   ⟨[(2, 0), (0, 2), (1, 1)], .neg, .pos, 2, false, 0, true⟩,
   ⟨[(3, 1), (1, 3), (0, 2)], .pos, .neg, 1, false, 3, true⟩,
   ⟨[(3, 1), (1, 3), (2, 0)], .neg, .pos, 3, false, 1, true⟩,
   ⟨[(2, 3), (0, 1), (3, 2)], .pos, .pos, 0, true, 2, false⟩,
   ⟨[(2, 1), (0, 3), (3, 0)], .neg, .neg, 0, true, 2, false⟩,
   ⟨[(0, 1), (3, 2), (1, 0)], .pos, .pos, 2, false, 0, true⟩,
   ⟨[(0, 3), (2, 1), (1, 2)], .neg, .neg, 2, false, 0, true⟩,
   ⟨[(3, 0), (1, 2), (0, 3)], .neg, .neg, 1, true, 3, false⟩,
   ⟨[(1, 0), (3, 2), (2, 3)], .pos, .pos, 3, true, 1, false⟩,
   ⟨[(1, 0), (3, 2), (2, 3)], .neg, .neg, 3, false, 1, true⟩,
   ⟨[(3, 0), (1, 2), (0, 3)], .pos, .pos, 1, false, 3, true⟩]

/-- `if (pd->edge[e].head != c) { pd_reorient_edge(pd,e,PD_NEG_ORIENTATION); }` -/
def aim (nedges : Nat) (edge : List Edge) (e c : Nat) : Res (List Edge) := do
  let r ← rd edge e
  if r.head ≠ c then do
    assertC (e < nedges)
    wr edge e ⟨r.tail, r.tailpos, r.head, r.headpos⟩
  else .ok edge

/-- One test on one pair of crossings. -/
def applyRule (nedges a b : Nat) (s : List Cross × List Edge) (r : Rule) : Res (List Cross × List Edge) := do
  let xa ← rd s.1 a
  let xb ← rd s.1 b
  if r.same.all (fun p => decide (xb.at p.1 = xa.at p.2)) then do
    let cross := (s.1.set b { xb with sign := r.signB }).set a { xa with sign := r.signA }
    let edge ← aim nedges s.2 (xb.at r.p1) (if r.toB1 then b else a)
    let edge ← aim nedges edge (xb.at r.p2) (if r.toB2 then b else a)
    .ok (cross, edge)
  else .ok s

/-- All tests on one pair. -/
def applyRules (nedges a b : Nat) : List Rule → List Cross × List Edge → Res (List Cross × List Edge)
  | [], s => .ok s
  | r :: l, s => do
    let s ← applyRule nedges a b s r
    applyRules nedges a b l s

/-- The pairs in the order of the two loops (pdcode.c 3848-3850). -/
def pairs (n : Nat) : List (Nat × Nat) :=
  (List.range (n - 1)).flatMap fun a => (List.range' (a + 1) (n - 1 - a)).map fun b => (a, b)

/-- The search for two-edge components (pdcode.c 3848-4243). -/
def pairLoop (nedges : Nat) : List (Nat × Nat) → List Cross × List Edge → Res (List Cross × List Edge)
  | [], s => .ok s
  | p :: l, s => do
    let s ← applyRules nedges p.1 p.2 rules s
    pairLoop nedges l s

/-- A diagram with its component and face records. -/
abbrev Whole := List Cross × List Edge × List Comp × List Face

/-- `pd_read_KnotTheory` after the numbers have been read (pdcode.c 3706-4272). The edge records of a new
diagram are 0. `pd_ok` is the parameter `ok`; `none` is `return NULL`. -/
def readCode (qs : QSort) (ok : Whole → Bool) (l : List Quad) : Res (Option Whole) := do
  let caps := capsNew (l.length + 2)
  let (cross, edge) ← scanAll 0 l (List.replicate caps.edges ⟨0, 0, 0, 0⟩)
  let (cross, edge) ← pairLoop (2 * l.length) (pairs l.length) (cross, edge)
  let (cross, edge, comps, faces) ← Regenerate.regenerate qs caps.edges caps.comps caps.faces cross
    (edge.take (2 * l.length))
  if cross.any (fun c => decide (c.sign = .unset)) then .error .die
  else if ok (cross, edge, comps, faces) then .ok (some (cross, edge, comps, faces))
  else .ok none

/-- " X[ %d, %d, %d, %d ]" with what comes before. Numbers are read as by `%lu` and cut to 32 bits, which
is the same for numbers that fit in an `int`. -/
def fX : List Dir :=
  [.lit 'X', .lit '[', .ws, .lu, .lit ',', .ws, .lu, .lit ',', .ws, .lu, .lit ',', .ws, .lu, .ws, .lit ']']

/-- One crossing: `if (fscanf(…) != 4) return NULL`. -/
def readQuad (pre : List Dir) : P Quad := fun inp =>
  match scanf (pre ++ fX) inp with
  | ([.num a, .num b, .num c, .num d], r) => .ok (some (⟨idx a, idx b, idx c, idx d⟩, r))
  | _ => .ok none

/-- The crossings after the first (pdcode.c 3683-3706), `used` of them read already. -/
def readQuads : Nat → Nat → P (List Quad)
  | 0, _ => fun inp => .ok (some ([], inp))
  | f + 1, used => fun inp =>
    match inp with
    | ',' :: r =>
      (do
        let q ← readQuad [.ws]
        if used = 9990 then null
        else do
          let l ← readQuads f (used + 1)
          pure (q :: l) : P (List Quad)) r
    | _ :: r => .ok (some ([], r))
    | [] => .ok (some ([], []))

/-- `pd_read_KnotTheory` (pdcode.c 3640-4273). -/
def readKT (qs : QSort) (ok : Whole → Bool) (inp : List Char) : Res (Option Whole) :=
  match (do
      let q ← readQuad [.ws, .lit 'P', .lit 'D', .ws, .lit '[', .ws]
      let l ← readQuads (inp.length + 1) 1
      pure (q :: l) : P (List Quad)) inp with
  | .error e => .error e
  | .ok none => .ok none
  | .ok (some (l, _)) => readCode qs ok l

/-- The four numbers written for a crossing (pdcode.c 2854-2860). -/
def quadOf (cross : List Cross) (edge : List Edge) (c : Nat) : Res Quad := do
  let (i, _) ← Strands.understrandPos cross edge c
  let x ← rd cross c
  .ok ⟨x.at i + 1, x.at (i + 1) + 1, x.at (i + 2) + 1, x.at (i + 3) + 1⟩

/-- `X[i,j,k,l]` -/
def writeQuad (q : Quad) : List Char :=
  str "X[" ++ dec q.a ++ str "," ++ dec q.b ++ str "," ++ dec q.c ++ str "," ++ dec q.d ++ str "]"

/-- The crossings from `c` on with commas between them (pdcode.c 2852-2868). -/
def writeQuads (cross : List Cross) (edge : List Edge) : Nat → Nat → Res (List Char)
  | 0, _ => .ok []
  | r + 1, c => do
    let q ← quadOf cross edge c
    let rest ← writeQuads cross edge r (c + 1)
    .ok (writeQuad q ++ (if r = 0 then [] else str ",") ++ rest)

/-- `pd_write_KnotTheory` (pdcode.c 2811-2872). -/
def writeKT (cross : List Cross) (edge : List Edge) : Res (List Char) := do
  let t ← writeQuads cross edge cross.length 0
  .ok (str "PD[" ++ t ++ str "]\n")

end Plc.KT
