import Verif.Model.Nearest
import Verif.Model.Vertex

/-! # Symmetries of curves (`src/symmetries.c`, `src/matrix.c` 263-313)

Doubles are real numbers, without rounding, and `TWO_PI` is 2π; `big` stands for `DBL_MAX`. Allocation does not fail, and
freeing is left out. A NULL pointer to a symmetry or a group is `none`. -/

namespace Plc.Symmetry

open Plc.Core Plc.FindCrossings Plc.RandomPolygon Plc.Equilateral Plc.Motions Plc.Measure Plc.Nearest

/-- `plc_strand` without colors: the vertices, and the two copies `vt[-1]` and `vt[nv]`, which are whatever was last put there. -/
structure SComp where
  addr : Nat
  isOpen : Bool
  vt : List V3
  before : V3
  after : V3

/-- `plCurve`, without constraints. -/
structure SCurve where
  addr : Nat
  cp : List SComp

/-- The curve as `plc_nearest_vertex` sees it. -/
def SCurve.parts (L : SCurve) : List Part := L.cp.map fun c => ⟨c.addr, c.vt⟩

/-- The curve as `plc_vertex_num` sees it. -/
def SCurve.strands (L : SCurve) : List Vtx.Strand := L.cp.map fun c => ⟨c.vt.length, c.isOpen⟩

/-- `struct plc_vertex_loc` (plCurve.h): component and vertex. -/
abbrev Loc := Nat × Nat

/-- The pairs of the double loop over components and vertices, in order. -/
def SCurve.locs (L : SCurve) : List Loc := L.cp.zipIdx.flatMap fun p => (List.range p.1.vt.length).map fun v => (p.2, v)

/-- `L->cp[cp].vt[vt]`. -/
def SCurve.get (L : SCurve) (l : Loc) : Res V3 := do
  let c ← rd L.cp l.1
  rd c.vt l.2

/-- `L->cp[cp].vt[vt] = p`. -/
def SCurve.set (L : SCurve) (l : Loc) (p : V3) : Res SCurve := do
  let c ← rd L.cp l.1
  let vt ← wr c.vt l.2 p
  let cp ← wr L.cp l.1 { c with vt := vt }
  .ok { L with cp := cp }

/-- `plc_vertex_num` as an index into a buffer. -/
def SCurve.num (L : SCurve) (l : Loc) : Res Nat := do
  let w ← Vtx.vertexNum L.strands l.1 (l.2 : Int)
  if w < 0 then .error .ub else .ok w.toNat

/-- The length of a buffer with `plc_num_verts(L)` entries. -/
def SCurve.size (L : SCurve) : Nat := (Vtx.numVerts L.strands).toNat

/-- `plc_identity_matrix` (19-27). -/
noncomputable def identityMatrix : Mat := ⟨⟨1, 0, 0⟩, ⟨0, 1, 0⟩, ⟨0, 0, 1⟩⟩

/-- `plc_reflection_matrix` (51-76). -/
noncomputable def reflectionMatrix (axis : V3) : Res Mat :=
  if norm3 axis < eps ∧ -norm3 axis < eps then .error .die
  else
    let u := V3.scale (1 / norm3 axis) axis
    .ok ⟨⟨1 - 2 * u.x * u.x, 0 - 2 * u.x * u.y, 0 - 2 * u.x * u.z⟩,
         ⟨0 - 2 * u.y * u.x, 1 - 2 * u.y * u.y, 0 - 2 * u.y * u.z⟩,
         ⟨0 - 2 * u.z * u.x, 0 - 2 * u.z * u.y, 1 - 2 * u.z * u.z⟩⟩

/-- `plc_symmetry` (plCurve.h), without the pointer to the curve. -/
structure Sym where
  transform : Mat
  target : List (List Loc)

/-- `target[cp][vt]`. -/
def rd2 (t : List (List Loc)) (l : Loc) : Res Loc := do
  let row ← rd t l.1
  rd row l.2

/-- `target[cp][vt] = x`. -/
def wr2 (t : List (List Loc)) (l : Loc) (x : Loc) : Res (List (List Loc)) := do
  let row ← rd t l.1
  let row' ← wr row l.2 x
  wr t l.1 row'

/-- The targets made by `plc_symmetry_new` (78-104). -/
def noTargets (L : SCurve) : List (List Loc) := L.cp.map fun c => List.replicate c.vt.length (0, 0)

/-- The loop of `plc_build_symmetry` (174-200). -/
noncomputable def buildLoop (qs : QSort) (big : ℝ) (L : SCurve) (A : Mat) :
    List Loc → List (List Loc) → List Bool → Option VPc → Res (Option (List (List Loc)))
  | [], target, _, _ => .ok (some target)
  | l :: ls, target, used, pc => do
    let v ← L.get l
    let (_, cp, vt, pc', _) ← nearestVertex qs big (A.app v) L.addr L.parts (some pc)
    let target' ← wr2 target l (cp, vt)
    let k ← L.num (cp, vt)
    let u ← rd used k
    if u then .ok none
    else do
      let used' ← wr used k true
      buildLoop qs big L A ls target' used' (pc'.getD none)

/-- `plc_build_symmetry` (149-207). -/
noncomputable def buildSymmetry (qs : QSort) (big : ℝ) (A : Mat) (L : SCurve) : Res (Option Sym) := do
  let t ← buildLoop qs big L A L.locs (noTargets L) (List.replicate L.size false) none
  .ok (t.map fun t => ⟨A, t⟩)

/-- The loop of `plc_compose_symmetries` (243-251). -/
def composeLoop (A B : Sym) : List Loc → List (List Loc) → Res (List (List Loc))
  | [], target => .ok target
  | l :: ls, target => do
    let a ← rd2 A.target l
    let b ← rd2 B.target a
    let target' ← wr2 target l b
    composeLoop A B ls target'

/-- `plc_compose_symmetries` (230-257); `L` is the curve `A` belongs to. -/
noncomputable def compose (L : SCurve) (A B : Sym) : Res Sym := do
  let t ← composeLoop A B L.locs (noTargets L)
  .ok ⟨B.transform.mul A.transform, t⟩

/-- `plc_symmetry_group` (plCurve.h); `n` is the length of `sym`. -/
structure SymGroup where
  sym : List (Option Sym)
  inverse : List Nat

/-- The symmetries of `plc_rotation_group` (348-351), `k` of them from number `i` on. -/
noncomputable def rotationSyms (qs : QSort) (big : ℝ) (L : SCurve) (axis : V3) (n : Nat) : Nat → Nat → Res (List (Option Sym))
  | 0, _ => .ok []
  | k + 1, i => do
    let A ← rotationMatrix axis ((i : ℝ) * (2 * Real.pi / (n : ℝ)))
    let s ← buildSymmetry qs big A L
    let r ← rotationSyms qs big L axis n k (i + 1)
    .ok (s :: r)

/-- What is left if one of the first `k` symmetries was not built (360-369, 397-406, 443-452). -/
def scan (k : Nat) (G : SymGroup) : Option SymGroup := if (G.sym.take k).any (·.isNone) then none else some G

/-- `plc_rotation_group` (331-373). For `n ≤ 0` there is no group to fill in. -/
noncomputable def rotationGroup (qs : QSort) (big : ℝ) (L : SCurve) (axis : V3) (n : Int) : Res (Option SymGroup) :=
  if n ≤ 0 then .error .ub
  else do
    let s ← buildSymmetry qs big identityMatrix L
    let r ← rotationSyms qs big L axis n.toNat (n.toNat - 1) 1
    .ok (scan n.toNat ⟨s :: r, 0 :: (List.range (n.toNat - 1)).map fun i => n.toNat - (i + 1)⟩)

/-- `plc_reflection_group` (375-410). -/
noncomputable def reflectionGroup (qs : QSort) (big : ℝ) (L : SCurve) (axis : V3) : Res (Option SymGroup) := do
  let s ← buildSymmetry qs big identityMatrix L
  let A ← reflectionMatrix axis
  let r ← buildSymmetry qs big A L
  .ok (scan 2 ⟨[s, r], [0, 1]⟩)

/-- `plc_coordplanes_reflection_group` (412-456). Only the first two of the four are scanned (443). -/
noncomputable def coordplanesGroup (qs : QSort) (big : ℝ) (L : SCurve) : Res (Option SymGroup) := do
  let s ← buildSymmetry qs big identityMatrix L
  let A ← reflectionMatrix ⟨1, 0, 0⟩
  let r1 ← buildSymmetry qs big A L
  let B ← reflectionMatrix ⟨0, 1, 0⟩
  let r2 ← buildSymmetry qs big B L
  let C ← reflectionMatrix ⟨0, 0, 1⟩
  let r3 ← buildSymmetry qs big C L
  .ok (scan 2 ⟨[s, r1, r2, r3], [0, 1, 2, 3]⟩)

/-- `L->G->sym[i]`, used through the pointer. -/
def SymGroup.at (G : SymGroup) (i : Nat) : Res Sym :=
  match rd G.sym i with
  | .ok (some s) => .ok s
  | .ok none => .error .ub
  | .error e => .error e

/-- The average over the orbit of one vertex (488-496, 537-545), `k` rounds from number `i` on. -/
noncomputable def avgLoop (G : SymGroup) (get : Loc → Res V3) (l : Loc) : Nat → Nat → V3 → Res V3
  | 0, _, acc => .ok acc
  | k + 1, i, acc => do
    let s ← G.at i
    let t ← rd2 s.target l
    let j ← rd G.inverse i
    let si ← G.at j
    let p ← get t
    avgLoop G get l k (i + 1) (add acc (V3.scale (1 / (G.sym.length : ℝ)) (si.transform.app p)))

/-- Pushing it around the orbit (500-506, 549-555). -/
noncomputable def pushLoop {S : Type} (G : SymGroup) (set : S → Loc → V3 → Res S) (num : Loc → Res Nat) (l : Loc) (p : V3) :
    Nat → Nat → S → List Bool → Res (S × List Bool)
  | 0, _, s, cov => .ok (s, cov)
  | k + 1, i, s, cov => do
    let g ← G.at i
    let t ← rd2 g.target l
    let s' ← set s t (g.transform.app p)
    let m ← num t
    let cov' ← wr cov m true
    pushLoop G set num l p k (i + 1) s' cov'

/-- The loop over the vertices (482-512, 531-561). `plc_symmetrize` and `plc_symmetrize_variation` differ in where they read (`get`) and
write (`set`). -/
noncomputable def symLoop {S : Type} (G : SymGroup) (get : S → Loc → Res V3) (set : S → Loc → V3 → Res S) (num : Loc → Res Nat) :
    List Loc → S → List Bool → Res S
  | [], s, _ => .ok s
  | l :: ls, s, cov => do
    let m ← num l
    let c ← rd cov m
    if c then symLoop G get set num ls s cov
    else do
      let p ← avgLoop G (get s) l G.sym.length 0 ⟨0, 0, 0⟩
      let (s', cov') ← pushLoop G set num l p G.sym.length 0 s cov
      symLoop G get set num ls s' cov'

/-- `plc_symmetrize` (465-516); the group is `L->G`. -/
noncomputable def symmetrize (L : SCurve) : Option SymGroup → Res SCurve
  | none => .ok L
  | some G => symLoop G SCurve.get SCurve.set L.num L.locs L (List.replicate L.size false)

/-- `buffer[plc_vertex_num(L,cp,vt)]`. -/
def bufGet (L : SCurve) (buf : List V3) (l : Loc) : Res V3 := do
  let k ← L.num l
  rd buf k

/-- `buffer[plc_vertex_num(L,cp,vt)] = p`. -/
def bufSet (L : SCurve) (buf : List V3) (l : Loc) (p : V3) : Res (List V3) := do
  let k ← L.num l
  wr buf k p

/-- `plc_symmetrize_variation` (518-565). -/
noncomputable def symmetrizeVariation (L : SCurve) (buf : List V3) : Option SymGroup → Res (List V3)
  | none => .ok buf
  | some G => symLoop G (bufGet L) (bufSet L) L.num L.locs buf (List.replicate L.size false)

/-- The loop of `plc_symmetry_check` (577-587) and `plc_symmetry_variation_check` (601-611). -/
noncomputable def checkLoop (get : Loc → Res V3) (A : Sym) : List Loc → ℝ → Res ℝ
  | [], m => .ok m
  | l :: ls, m => do
    let v ← get l
    let t ← rd2 A.target l
    let w ← get t
    let d := dist3 (A.transform.app v) w
    checkLoop get A ls (if m > d then m else d)

/-- `plc_symmetry_check` (568-590) and `plc_symmetry_variation_check` (592-614). -/
noncomputable def symmetryCheck (L : SCurve) (get : Loc → Res V3) : Option Sym → Res ℝ
  | none => .ok 0
  | some A => checkLoop get A L.locs 0

/-- The loop of `plc_symmetry_group_check` (627-632) and `plc_symmetry_group_variation_check` (645-650). -/
noncomputable def groupCheckLoop (L : SCurve) (get : Loc → Res V3) : List (Option Sym) → ℝ → Res ℝ
  | [], m => .ok m
  | s :: ss, m => do
    let d ← symmetryCheck L get s
    groupCheckLoop L get ss (if m > d then m else d)

/-- `plc_symmetry_group_check` (619-636) and `plc_symmetry_group_variation_check` (638-654). -/
noncomputable def groupCheck (L : SCurve) (get : Loc → Res V3) : Option SymGroup → Res ℝ
  | none => .ok 0
  | some G => groupCheckLoop L get G.sym 0

end Plc.Symmetry
