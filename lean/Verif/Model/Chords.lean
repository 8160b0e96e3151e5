import Verif.Model.Basic

/-!
# Chord systems of an n-gon (`src/plcToricSymplecticTriangulation.c`)

Vertices are natural numbers (`int` in the code, never negative here); `calloc` succeeds. A chord is the pair
`vt[0]`, `vt[1]`. The part before `tsmcmc_generate_triangulation`.
-/

namespace Plc.Tri

abbrev Chord := Nat × Nat

/-- `tsmcmc_chords_cross` (plcToricSymplecticTriangulation.c 1129-1171). The endpoints are sorted by `qsort` with
`endpoint_cmp` (1122-1127); `true` marks chord A. -/
def chordsCross (Q : QSort) (a b : Chord) : Bool :=
  if (a.1 = b.1 ∧ a.2 = b.2) ∨ (a.1 = b.2 ∧ a.2 = b.1) then true
  else if a.1 = b.1 ∨ a.1 = b.2 ∨ a.2 = b.1 ∨ a.2 = b.2 then false
  else
    let ep := Q.sort (fun x y : Nat × Bool => decide (x.1 ≤ y.1)) [(a.1, true), (a.2, true), (b.1, false), (b.2, false)]
    let tags := ep.map Prod.snd
    tags = [true, false, true, false] ∨ tags = [false, true, false, true]

/-- The inner loop of `tsmcmc_chord_system_ok` (plcToricSymplecticTriangulation.c 1181-1185). -/
def crossesNone (Q : QSort) (c : Chord) : List Chord → Bool
  | [] => true
  | d :: t => if chordsCross Q c d then false else crossesNone Q c t

/-- The outer loop (1179-1187): chord `i` is compared with those before it. -/
def sysLoop (Q : QSort) (before : List Chord) : List Chord → Bool
  | [] => true
  | c :: t => if crossesNone Q c before then sysLoop Q (before ++ [c]) t else false

/-- `tsmcmc_chord_system_ok` (plcToricSymplecticTriangulation.c 1174-1190). -/
def systemOk (Q : QSort) (sys : List Chord) : Bool := sysLoop Q [] sys

/-- The loop of `tsmcmc_fan_triangulation` (22-26), `r` rounds from `i` on. -/
def fanLoop : Nat → Nat → List Chord → Res (List Chord)
  | 0, _, sys => .ok sys
  | r + 1, i, sys => do
    let sys ← wr sys i (0, i + 2)
    fanLoop r (i + 1) sys

/-- `tsmcmc_fan_triangulation` (14-34). -/
def fan (Q : QSort) (n : Nat) : Res (List Chord) := do
  let sys ← fanLoop (n - 3) 0 (List.replicate (n - 3) (0, 0))
  assertC (systemOk Q sys)
  .ok sys

/-- The loop of `tsmcmc_teeth_triangulation` (170-184), `r` rounds from `k` on. -/
def teethLoop : Nat → Nat → List Chord → Res (List Chord)
  | 0, _, sys => .ok sys
  | r + 1, k, sys => do
    let c ← rd sys (k - 1)
    let sys ← wr sys k (if k % 2 ≠ 0 then (c.1, c.2 + 1) else (c.1 - 1, c.2))
    teethLoop r (k + 1) sys

/-- `tsmcmc_teeth_triangulation` (160-193). -/
def teeth (n : Nat) : Res (List Chord) := do
  let sys ← wr (List.replicate (n - 3) (0, 0)) 0 (n - 1, 1)
  teethLoop (n - 3 - 1) 1 sys

/-- `gsl_rng_uniform_int(rng, m)`: any number below `m`, as the remainder of an arbitrary number. -/
def draw (x m : Nat) : Res Nat := if 0 < m then .ok (x % m) else .error .die

/-- What the worker shares: `chords_used`, the chord system, and how many random numbers were drawn. -/
structure St where
  used : Nat
  sys : List Chord
  pos : Nat

/-- The chord the worker picks (102-104), as positions on the polygon. -/
def pick (rng : Nat → Nat) (pos n : Nat) : Res (Nat × Nat) := do
  let c0 ← draw (rng pos) (n - 2)
  let x ← draw (rng (pos + 1)) (n - c0 - (if c0 = 0 then 3 else 2))
  .ok (c0, c0 + 2 + x)

/-- `tsmcmc_random_triangulation_worker` (84-130). The first argument bounds the depth of the recursion; both
daughters are smaller than the polygon, so its size is enough. -/
def worker (rng : Nat → Nat) : Nat → List Nat → St → Res St
  | 0, _, _ => .error .ub
  | depth + 1, poly, st =>
    if poly.length = 3 then .ok st
    else do
      let n := poly.length
      let c ← pick rng st.pos n
      let u ← rd poly c.1
      let v ← rd poly c.2
      let sys ← wr st.sys st.used (u, v)
      let lenB := n - (c.2 - c.1 - 1)
      let lenA := n + 2 - lenB
      let dA ← (List.range lenA).mapM (fun i => rd poly (c.1 + i))
      let dB ← (List.range lenB).mapM (fun i => rd poly ((c.2 + i) % n))
      let st ← worker rng depth dA ⟨st.used + 1, sys, st.pos + 2⟩
      worker rng depth dB st

/-- `tsmcmc_random_triangulation` (132-158). -/
def random (Q : QSort) (rng : Nat → Nat) (n : Nat) : Res (List Chord) := do
  let st ← worker rng n (List.range n) ⟨0, List.replicate (n - 3) (0, 0), 0⟩
  assertC (systemOk Q st.sys)
  .ok st.sys

/-- `for(i = (i+1)%n; !active[i]; i = (i+1)%n)` (52 and 58). The first argument bounds the number of rounds; there is
always an active vertex, so `n` are enough. -/
def nextActive (active : List Bool) : Nat → Nat → Res Nat
  | 0, _ => .error .ub
  | r + 1, i => do
    let j := (i + 1) % active.length
    if ← rd active j then .ok j else nextActive active r j

/-- The loop of `tsmcmc_spiral_triangulation` (48-70), `r` rounds from chord `cd` on. `vt[0]` of the chord is set
already. -/
def spiralLoop (n : Nat) : Nat → Nat → Nat → List Bool → List Chord → Res (List Chord)
  | 0, _, _, _, sys => .ok sys
  | r + 1, cd, i, active, sys => do
    let j ← nextActive active n i
    let active ← wr active j false
    let k ← nextActive active n j
    let c ← rd sys cd
    let sys ← wr sys cd (c.1, k)
    let sys ← (if cd + 4 < n then do
        let d ← rd sys (cd + 1)
        wr sys (cd + 1) (k, d.2)
      else .ok sys)
    spiralLoop n r (cd + 1) k active sys

/-- `tsmcmc_spiral_triangulation` (36-82). -/
def spiral (Q : QSort) (n : Nat) : Res (List Chord) := do
  let sys := List.replicate (n - 3) (0, 0)
  let sys ← wr sys 0 (0, 0)
  let sys ← spiralLoop n (n - 3) 0 0 (List.replicate n true) sys
  assertC (systemOk Q sys)
  .ok sys

end Plc.Tri
