import Verif.Model.Basic
import Verif.Model.Cmp
import Verif.Model.Io

/-!
# Crossing lists of the example builders (`src/pdcode_testcodes.c`)

The part before `pd_regenerate`. A new diagram has `max(n,2)` crossings set to 0. Edge numbers are taken not to
overflow `unsigned int`.
-/

namespace Plc.Build

/-- `pd_build_cross` (pdcode.c 231-241). Sign 0 is `PD_NEG_ORIENTATION`. -/
def mk (a b c d : Nat) : Cross := ⟨a, b, c, d, .neg⟩

/-- The crossings of `pd_code_new(mv)`. -/
def new (mv : Nat) : List Cross := List.replicate (Io.capsNew mv).verts (mk 0 0 0 0)

/-- The loop of `pd_build_twist_knot` over `i` (pdcode_testcodes.c 70-74), `r` rounds from `i` on. -/
def twistLoop : Nat → Nat → List Cross → Res (List Cross)
  | 0, _, cross => .ok cross
  | r + 1, i, cross => do
    let cross ← wr cross (i + 1) (mk (2 * i) (2 * i + 1) (2 * i + 3) (2 * i + 2))
    twistLoop r (i + 1) cross

/-- `pd_build_twist_knot` (pdcode_testcodes.c 35-78). -/
def twist (n : Nat) : Res (List Cross) :=
  if n < 1 then .error .die
  else
    let cross := new (n + 2)
    if n + 2 = 3 then do
      let cross ← wr cross 0 (mk 0 5 3 1)
      let cross ← wr cross 1 (mk 0 1 2 4)
      let cross ← wr cross 2 (mk 2 3 5 4)
      .ok (cross.take (n + 2))
    else do
      let cross ← wr cross 0 (mk 0 1 2 (2 * (n + 2) - 2))
      let cross ← wr cross 1 (mk 0 (2 * (n + 2) - 1) 3 1)
      let cross ← twistLoop n 1 cross
      .ok (cross.take (n + 2))

/-- The crossing `i ≥ 1` of a `(2,q)` torus knot and where it is put (pdcode_testcodes.c 166-180). -/
def torusCross (q i : Nat) : Nat × Cross :=
  if i % 2 = 0 then
    let k := i / 2
    (2 * k, mk (2 * k) ((2 * k + q - 1) % (2 * q)) ((2 * k - 1) % (2 * q)) ((2 * k + q) % (2 * q)))
  else
    let k := (i - 1) / 2
    (2 * k + 1, mk ((2 * k + q + 1) % (2 * q)) (2 * k) ((2 * k + q) % (2 * q)) ((2 * k + 1) % (2 * q)))

/-- The loop of `pd_build_torus_knot` (pdcode_testcodes.c 164-182). -/
def torusLoop (q : Nat) : Nat → Nat → List Cross → Res (List Cross)
  | 0, _, cross => .ok cross
  | r + 1, i, cross => do
    let p := torusCross q i
    let cross ← wr cross p.1 p.2
    torusLoop q r (i + 1) cross

/-- The first crossing (pdcode_testcodes.c 150-158). -/
def torusFirst (q : Nat) : Cross :=
  if q % 2 ≠ 0 then mk 0 (q - 1) (2 * q - 1) q else mk 0 (2 * q - 1) (q - 1) q

/-- `pd_build_torus_knot` (pdcode_testcodes.c 97-186). -/
def torus (p q : Nat) : Res (List Cross) :=
  if p ≠ 2 then .error .die
  else if q < 2 then .error .die
  else do
    let cross ← wr (new (q * (p - 1))) 0 (torusFirst q)
    let cross ← torusLoop q (q - 1) 1 cross
    .ok (cross.take q)

/-- The loop of `pd_build_simple_chain` (pdcode_testcodes.c 276-281). -/
def chainLoop : Nat → Nat → List Cross → Res (List Cross)
  | 0, _, cross => .ok cross
  | r + 1, i, cross => do
    let cross ← wr cross (2 * i) (mk (4 * i) (4 * i + 3) (4 * i + 5) (4 * i + 4))
    let cross ← wr cross (2 * i + 1) (mk (4 * i + 2) (4 * i + 6) (4 * i + 5) (4 * i + 3))
    chainLoop r (i + 1) cross

/-- The loop of `pd_build_unknot` (pdcode_testcodes.c 460-464). -/
def unknotLoop : Nat → Nat → List Cross → Res (List Cross)
  | 0, _, cross => .ok cross
  | r + 1, i, cross => do
    let cross ← wr cross i (mk (2 * i) (2 * i + 1) (2 * i + 3) (2 * i + 2))
    unknotLoop r (i + 1) cross

/-- `pd_build_unknot` (pdcode_testcodes.c 312-482). -/
def unknot (n : Nat) : Res (List Cross) :=
  if n = 0 then .ok []
  else if n = 1 then .ok [⟨0, 0, 1, 1, .pos⟩]
  else do
    let cross ← wr (new n) 0 (mk 0 0 3 2)
    let cross ← wr cross (n - 1) (mk 1 1 (2 * n - 2) (2 * n - 1))
    let cross ← unknotLoop (n - 2) 1 cross
    .ok (cross.take n)

/-- `pd_build_simple_chain` (pdcode_testcodes.c 207-310). -/
def chain (n : Nat) : Res (List Cross) :=
  if n = 0 then .error .die
  else if n = 1 then unknot 0
  else if n = 2 then .ok [⟨0, 2, 1, 3, .pos⟩, ⟨0, 3, 1, 2, .pos⟩]
  else
    let cross := new (2 * (n - 1))
    if n = 3 then do
      let cross ← wr cross 0 (mk 0 2 1 5)
      let cross ← wr cross 1 (mk 0 5 1 4)
      let cross ← wr cross 2 (mk 2 6 3 7)
      let cross ← wr cross 3 (mk 3 6 4 7)
      .ok (cross.take (2 * (n - 1)))
    else do
      let cross ← wr cross 0 (mk 0 1 5 4)
      let cross ← wr cross 1 (mk 0 6 5 1)
      let cross ← chainLoop (n - 2) 1 cross
      let cross ← wr cross (2 * n - 4) (mk 2 3 (4 * n - 8) (4 * n - 5))
      let cross ← wr cross (2 * n - 3) (mk 2 (4 * n - 5) (4 * n - 6) 3)
      .ok (cross.take (2 * (n - 1)))

/-- The crossing of twist `j` of a tendril (pdcode_testcodes.c 498-512). -/
def tendrilCross (nedges e t j : Nat) : Cross :=
  let low := e + j
  let high := e + 2 * t + 2 - j
  if j % 2 = 1 then mk low high (low - 1) ((high + 1) % nedges)
  else mk high low ((high + 1) % nedges) (low - 1)

/-- The loop over the twists. -/
def tendrilLoop (nedges c e t : Nat) : Nat → Nat → List Cross → Res (List Cross)
  | 0, _, cross => .ok cross
  | r + 1, j, cross => do
    let cross ← wr cross (c + j - 1) (tendrilCross nedges e t j)
    tendrilLoop nedges c e t r (j + 1) cross

/-- The last crossing of a tendril (pdcode_testcodes.c 518-526). -/
def tendrilLast (nedges e t : Nat) : Cross :=
  if t % 2 = 1 then mk (e + t + 1) (e + t + 1) ((e + t + 2) % nedges) (e + t)
  else mk (e + t + 1) (e + t + 1) (e + t) ((e + t + 2) % nedges)

/-- `pdint_build_tendril` (pdcode_testcodes.c 484-528). -/
def tendril (ncross nedges c e t : Nat) (cross : List Cross) : Res (List Cross) := do
  assertC (c + t < ncross)
  let cross ← tendrilLoop nedges c e t t 1 cross
  wr cross (c + t) (tendrilLast nedges e t)

/-- `pd_build_unknot_wye` (pdcode_testcodes.c 531-560). -/
def wye (a b c : Nat) : Res (List Cross) := do
  let n := a + b + c + 3
  let cross ← tendril n (2 * n) 0 0 a (new n)
  let cross ← tendril n (2 * n) (a + 1) (2 * a + 2) b cross
  let cross ← tendril n (2 * n) (a + b + 2) (2 * a + 2 * b + 4) c cross
  .ok (cross.take n)

end Plc.Build
