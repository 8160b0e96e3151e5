import Verif.Model.Vect

/-!
# Components of a curve

`plc_add_component`, `plc_drop_component`, `plc_copy`, `plc_resize_colorbuf`, `plc_set_color` and `plc_double_verts`
(/repo/src/plCurve.c 1804-1882, 2025-2404). Allocation does not fail, and `calloc` of no bytes gives a pointer (as with
glibc). Symmetry groups are not modelled.
-/

namespace Plc.Vect

open Plc.Io Plc.Cst

variable {N : NumFmt}

/-- `plc_fix_wrap` (plCurve.c 1137-1155) on a curve. -/
def fixWrapAll (L : Curve N) : Curve N := { L with cp := L.cp.map fixWrap }

/-- `memmove` of `n` elements out of an array. -/
def takeN {α : Type} (n : Nat) (l : List α) : Res (List α) := if n ≤ l.length then .ok (l.take n) else .error .ub

/-- `plc_add_component` (plCurve.c 2028-2073); `clr` is `none` for NULL. -/
def addComponent (L : Curve N) (addAs nv : Int) (isOpen : Bool) (cc : Int) (vt : List (V3 N))
    (clr : Option (List (Col N))) : Res (Curve N) := do
  assertC (1 ≤ nv)
  assertC (0 ≤ cc)
  assertC (cc = 0 ∨ clr ≠ none)
  assertC (0 ≤ addAs)
  assertC (addAs ≤ L.cp.length)
  let v ← takeN nv.toNat vt
  let c ← takeN cc.toNat (clr.getD [])
  .ok (fixWrapAll { L with cp := L.cp.insertIdx addAs.toNat ⟨isOpen, v, c, zero3 N, zero3 N⟩ })

/-- `plc_drop_component` (plCurve.c 2076-2096). -/
def dropComponent (L : Curve N) (cmp : Int) : Res (Curve N) := do
  assertC (0 ≤ cmp)
  assertC (cmp < L.cp.length)
  .ok { L with cp := L.cp.eraseIdx cmp.toNat }

/-- `plc_copy` (plCurve.c 1804-1882): the assertions of `plc_new`, then everything is copied, the wrap-around vertices
as well. -/
def copy (L : Curve N) : Res (Curve N) := do
  assertC (1 ≤ L.cp.length)
  assertC (newOk (L.cp.map fun s => s.vt.length) (L.cp.map fun s => (s.clr.length : Int)))
  .ok ⟨L.cp.map fun s => ⟨s.isOpen, s.vt, s.clr, s.lo, s.hi⟩,
    L.cst.map fun c => ⟨c.kind, c.vect, c.cmp, c.vert, c.num⟩⟩

/-- The new buffer of `plc_resize_colorbuf` (plCurve.c 2098-2160); `none` is memory nobody has written. A negative
size cannot be allocated. -/
def resizeCols (old : List (Col N)) (cc : Int) : Res (List (Option (Col N))) :=
  if cc = 0 then .ok []
  else if cc < 0 then .error .die
  else match old with
    | [] => .ok (List.replicate cc.toNat (some (N.zero, N.zero, N.zero, N.zero)))
    | [c] => .ok (List.replicate cc.toNat (some c))
    | _ => .ok ((old.take cc.toNat).map some ++ List.replicate (cc.toNat - old.length) none)

/-- `plc_resize_colorbuf` (plCurve.c 2098-2160): the new buffer of the component. -/
def resizeColorbuf (L : Curve N) (cp cc : Int) : Res (List (Option (Col N))) := do
  let s ← if cp < 0 then .error .ub else rd L.cp cp.toNat
  resizeCols s.clr cc

/-- `plc_set_color` (plCurve.c 2162-2179). -/
def setColor (L : Curve N) (c : Col N) : Curve N :=
  { L with cp := L.cp.map fun s => { s with clr := s.clr.map fun _ => c } }

/-! ## Doubling the vertices -/

/-- The arithmetic of `mpsverts` (plCurve.c 2182-2284): the point at one quarter of an edge from its start, the one at
three quarters, and the two points for a vertex between two others. -/
structure Spline (N : NumFmt) where
  quarter : V3 N → V3 N → V3 N
  late : V3 N → V3 N → V3 N
  inner : V3 N → V3 N → V3 N → V3 N × V3 N

/-- `vt[i]` of a component with its wrap-around vertices, `-1 ≤ i ≤ nv`. -/
def vertAt (s : Strand N) (i : Int) : Res (V3 N) :=
  if i = -1 then .ok s.lo
  else if i = s.vt.length then .ok s.hi
  else if i < 0 then .error .ub
  else rd s.vt i.toNat

/-- `mpsverts` (plCurve.c 2182-2284). -/
def mpsVerts (S : Spline N) (s : Strand N) (i : Nat) : Res (V3 N × V3 N) := do
  let v ← vertAt s i
  if s.isOpen ∧ i = 0 then
    let w ← vertAt s (i + 1)
    .ok (v, S.quarter v w)
  else if s.isOpen ∧ i + 1 = s.vt.length then
    let u ← vertAt s ((i : Int) - 1)
    .ok (S.late u v, v)
  else
    let u ← vertAt s ((i : Int) - 1)
    let w ← vertAt s (i + 1)
    .ok (S.inner u v w)

/-- The vertices of the new component (plCurve.c 2372-2380): `n` old vertices from number `i` on. -/
def dblVerts (S : Spline N) (s : Strand N) : Nat → Nat → Res (List (V3 N))
  | 0, _ => .ok []
  | n + 1, i => do
    let p ← mpsVerts S s i
    let r ← dblVerts S s n (i + 1)
    .ok (p.1 :: p.2 :: r)

/-- The loop copying colours (plCurve.c 2388-2392): `n` steps from number `i` on. -/
def dblCols (old : List (Col N)) : Nat → Nat → List (Col N) → Res (List (Col N))
  | 0, _, new => .ok new
  | n + 1, i, new => do
    let c ← rd old i
    let new ← wr new (2 * i) c
    let new ← wr new (2 * i + 1) c
    dblCols old n (i + 1) new

/-- The number of colours of the new component (plCurve.c 2304-2325). -/
def dblCc (s : Strand N) : Res Nat :=
  if s.clr.length = 0 ∨ s.clr.length = 1 then .ok s.clr.length
  else do
    assertC (s.clr.length = s.vt.length)
    .ok (2 * s.vt.length)

/-- The colours of the new component (plCurve.c 2382-2394). The buffer is that of `plc_new`, all zero. -/
def dblColors (s : Strand N) (cc : Nat) : Res (List (Col N)) :=
  let new := List.replicate cc (N.zero, N.zero, N.zero, N.zero)
  if cc = 1 then do
    let c ← rd s.clr 0
    wr new 0 c
  else dblCols s.clr (s.vt.length - 1) 0 new

/-- `2*(L->cp[cmp].nv)` and `newCc` for all components. -/
def dblSizes : List (Strand N) → Res (List Nat)
  | [] => .ok []
  | s :: ss => do
    let c ← dblCc s
    let r ← dblSizes ss
    .ok (c :: r)

/-- The constraints of the new curve (plCurve.c 2334-2366). -/
def dblCsts (old new : List Nat) : List (Cst (VV N)) → List (Cst (VV N)) → Res (List (Cst (VV N)))
  | acc, [] => .ok acc
  | acc, c :: t =>
    match c.kind with
    | .fixed => do
      let acc ← Cst.set new acc c.cmp (c.vert * 2) 1 .fixed (c.vect.1, zero3 N)
      dblCsts old new acc t
    | .line => do
      let acc ← Cst.set new acc c.cmp (c.vert * 2) (2 * c.num - 1) .line c.vect
      dblCsts old new acc t
    | .plane => do
      let nv ← rd old c.cmp
      let acc ← Cst.set new acc c.cmp (if c.vert = (nv : Int) - 1 then c.vert * 2 + 1 else c.vert * 2) (2 * c.num - 1)
        .plane (c.vect.1, (c.vect.2.1, N.zero, N.zero))
      dblCsts old new acc t
    | .unconstrained => dblCsts old new acc t

/-- The components of the new curve (plCurve.c 2372-2396); `o` is the flag of the old component before
`plc_fix_wrap`. -/
def dblComps (S : Spline N) : List (Strand N) → List Nat → Res (List (Strand N))
  | s :: ss, c :: cs => do
    let v ← dblVerts S (fixWrap s) s.vt.length 0
    let k ← dblColors s c
    let r ← dblComps S ss cs
    .ok (⟨s.isOpen, v, k, zero3 N, zero3 N⟩ :: r)
  | _, _ => .ok []

/-- `plc_double_verts` (plCurve.c 2286-2404): the new curve. -/
def doubleVerts (S : Spline N) (L : Curve N) : Res (Curve N) := do
  let cc ← dblSizes L.cp
  assertC (0 < L.cp.length)
  assertC (newOk (L.cp.map fun s => 2 * s.vt.length) (cc.map fun c : Nat => (c : Int)))
  let cst ← dblCsts (L.cp.map fun s => s.vt.length) (L.cp.map fun s => 2 * s.vt.length) [] L.cst
  let cp ← dblComps S L.cp cc
  .ok (fixWrapAll ⟨cp, cst⟩)

end Plc.Vect
