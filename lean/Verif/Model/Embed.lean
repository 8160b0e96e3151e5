import Verif.Model.Motions
import Verif.Model.Chords

/-! # Polygons from lengths and dihedral angles (`src/plcToricSymplecticTriangulation.c` 197-236, 582-1011, `src/vector.c` 380-438)

Doubles are real numbers, without rounding; a result which is not a number is the outcome `ub`, and the constant 3.141592653589793 is π.
Printing, allocation and freeing are left out. Indices are natural numbers, and the index -1 of a triangle is `none`. -/

namespace Plc.Embed

open Plc.Core Plc.FindCrossings Plc.RandomPolygon Plc.Equilateral Plc.Motions Plc.Tri

/-- A chord by number and type (`chordtype_t`, plcRandomPolygon.h). -/
structure CRef where
  diag : Bool
  num : Nat
  deriving DecidableEq

/-- `tsmcmc_triangle_t` (plcRandomPolygon.h). -/
structure Triangle where
  parent : CRef
  d0 : CRef
  d1 : CRef
  t0 : Option Nat
  t1 : Option Nat

/-- `tsmcmc_triangulation_t` (plcRandomPolygon.h); the numbers of triangles, diagonals and edges are the lengths of the lists. -/
structure Triangulation where
  triangles : List Triangle
  diags : List Chord
  edges : List Chord

/-- `tsmcmc_vert_chord` (197-213) for `vt` 0 (`false`) and 1 (`true`). -/
def vertChord (T : Triangulation) (second : Bool) (c : CRef) : Res Nat :=
  if c.diag then do
    assertC (decide (c.num ≤ T.diags.length))
    let p ← rd T.diags c.num
    .ok (if second then p.2 else p.1)
  else do
    assertC (decide (c.num ≤ T.edges.length))
    let p ← rd T.edges c.num
    .ok (if second then p.2 else p.1)

/-- `tsmcmc_chord_length` (215-235). -/
def chordLength (dl el : List ℝ) (c : CRef) : Res ℝ := if c.diag then rd dl c.num else rd el c.num

/-- `tsmcmc_triangle_from_edgelengths` (582-657); `none` if the result is false. -/
noncomputable def fromLengths (A B C : ℝ) : Option (V3 × V3 × V3) :=
  if A < 0 ∨ B < 0 ∨ C < 0 then none
  else if A + B < C ∨ B + C < A ∨ C + A < B then none
  else if A < 1e-8 ∧ B < 1e-8 ∧ C < 1e-8 then some (⟨0, 0, 0⟩, ⟨0, 0, 0⟩, ⟨0, 0, 0⟩)
  else if B < 1e-8 then some (⟨0, 0, 0⟩, ⟨C, 0, 0⟩, ⟨0, 0, 0⟩)
  else if C < 1e-8 then some (⟨0, 0, 0⟩, ⟨0, 0, 0⟩, ⟨B, 0, 0⟩)
  else if A < 1e-8 then some (⟨0, 0, 0⟩, ⟨C, 0, 0⟩, ⟨C, 0, 0⟩)
  else
    let alpha := Real.arccos ((B * B + C * C - A * A) / (2 * B * C))
    some (⟨0, 0, 0⟩, ⟨C, 0, 0⟩, ⟨B * Real.cos alpha, B * Real.sin alpha, 0⟩)

/-- `plc_normalize_vect` (vector.c 175-193) with its flag. -/
noncomputable def normalizeF (v : V3) : Res (V3 × Bool) := do
  let u ← normalize v
  .ok (u, !decide (norm3 v < eps ∧ -norm3 v < eps))

/-- The normal of the next triangle (688-728); `none` if the frame is not one. -/
noncomputable def nextNormal (da : List ℝ) (t : Triangle) (pn f1 : V3) (ok : Bool) : Res (Option V3) :=
  if !ok then .ok (some pn)
  else
    let f2 := pn.crossProd f1
    if |norm3 f2 - 1| ≥ 1e-8 then .ok none
    else do
      assertC t.parent.diag
      let th ← rd da t.parent.num
      .ok (some (lincomb (Real.cos (th - Real.pi)) pn (Real.sin (th - Real.pi)) f2))

/-- One call of `tsmcmc_embed_polygon_worker` (659-776) up to the recursion: the normal of the triangle and the vertices. -/
noncomputable def place (T : Triangulation) (el dl da : List ℝ) (t : Triangle) (pn : V3) (vt : List V3) : Res (Option (V3 × List V3)) :=
  if |norm3 pn - 1| ≥ 1e-8 then .ok none
  else do
    let i0 ← vertChord T false t.parent
    let i1 ← vertChord T true t.parent
    let p0 ← rd vt i0
    let p1 ← rd vt i1
    let (f1, ok) ← normalizeF (p0.sub p1)
    let n ← nextNormal da t pn f1 ok
    match n with
    | none => .ok none
    | some cn => do
      let g := cn.crossProd f1
      let A ← chordLength dl el t.d0
      let B ← chordLength dl el t.d1
      let C ← chordLength dl el t.parent
      match fromLengths A B C with
      | none => .ok none
      | some (_, _, c) => do
        let j ← vertChord T true t.d0
        let vt' ← wr vt j (add p1 (lincomb c.x f1 c.y g))
        .ok (some (cn, vt'))

/-- `tsmcmc_embed_polygon_worker` (659-797). The recursion is cut off after as many calls in one another as given; more than the number of
triangles are a loop. -/
noncomputable def worker (T : Triangulation) (el dl da : List ℝ) : Nat → Nat → V3 → List V3 → Res (Option (List V3))
  | 0, _, _, _ => .error .ub
  | f + 1, tri, pn, vt => do
    let t ← rd T.triangles tri
    let r ← place T el dl da t pn vt
    match r with
    | none => .ok none
    | some (cn, vt) => do
      let r ← (match t.t0 with
        | none => .ok (some vt)
        | some s => worker T el dl da f s cn vt)
      match r with
      | none => .ok none
      | some vt =>
        match t.t1 with
        | none => .ok (some vt)
        | some s => worker T el dl da f s cn vt

/-- `tsmcmc_embed_polygon` (799-872): the vertices, or `none` for NULL. The vertices are 0 in the beginning; that is not used. -/
noncomputable def embed (T : Triangulation) (el dl da : List ℝ) : Res (Option (List V3)) := do
  let t ← rd T.triangles 0
  let a ← vertChord T false t.parent
  let b ← vertChord T true t.parent
  let c ← vertChord T true t.d0
  let A ← chordLength dl el t.d0
  let B ← chordLength dl el t.d1
  let C ← chordLength dl el t.parent
  match fromLengths A B C with
  | none => .ok none
  | some (pa, pb, pc) => do
    let vt ← wr (List.replicate T.edges.length ⟨0, 0, 0⟩) a pa
    let vt ← wr vt b pb
    let vt ← wr vt c pc
    let r ← (match t.t0 with
      | none => .ok (some vt)
      | some s => worker T el dl da T.triangles.length s ⟨0, 0, 1⟩ vt)
    match r with
    | none => .ok none
    | some vt =>
      match t.t1 with
      | none => .ok (some vt)
      | some s => worker T el dl da T.triangles.length s ⟨0, 0, 1⟩ vt

/-- `tsmcmc_compute_diagonals` (874-890) and `tsmcmc_compute_edgelengths` (892-908), for the chords given. -/
noncomputable def computeLengths (vt : List V3) : List Chord → Res (List ℝ)
  | [] => .ok []
  | c :: cs => do
    let a ← rd vt c.1
    let b ← rd vt c.2
    let r ← computeLengths vt cs
    .ok (dist3 a b :: r)

/-- `struct dihedral` (910-915). -/
structure Dihedral where
  a0 : Nat
  a1 : Nat
  a2 : Nat
  b0 : Nat
  b1 : Nat
  b2 : Nat
  deriving DecidableEq

/-- The entry made for one daughter (927-956): `first` for daughter 0. -/
def entry (T : Triangulation) (t d : Triangle) (first : Bool) : Res Dihedral := do
  let a ← vertChord T true t.d1
  let b ← vertChord T false t.d0
  let c ← vertChord T true t.d0
  let x ← vertChord T true d.d1
  let y ← vertChord T false d.d0
  let z ← vertChord T true d.d0
  .ok (if first then ⟨b, c, a, x, y, z⟩ else ⟨c, a, b, x, y, z⟩)

/-- `tsmcmc_compute_dihedrals_worker` (917-967), with the recursion cut off as above. -/
def dihedralsWorker (T : Triangulation) : Nat → Nat → List Dihedral → Res (List Dihedral)
  | 0, _, _ => .error .ub
  | f + 1, tri, ds => do
    let t ← rd T.triangles tri
    let ds ← (match t.t0 with
      | none => .ok ds
      | some s => do
        assertC t.d0.diag
        let d ← rd T.triangles s
        let e ← entry T t d true
        let ds ← wr ds t.d0.num e
        dihedralsWorker T f s ds)
    match t.t1 with
    | none => .ok ds
    | some s => do
      assertC t.d1.diag
      let d ← rd T.triangles s
      let e ← entry T t d false
      let ds ← wr ds t.d1.num e
      dihedralsWorker T f s ds

/-- `plc_normal` (vector.c 380-393). -/
noncomputable def normal (A B C : V3) : Res (V3 × Bool) := normalizeF ((B.sub A).crossProd (C.sub A))

/-- `plc_dihedral_angle` (vector.c 395-438): the angle, and the flag. With a normal which is no number the flag is false, and nothing is
done with it. -/
noncomputable def dihedralAngle (A B C D : V3) : Res (ℝ × Bool) :=
  match normal A B C, normal A C D with
  | .ok (n1, true), .ok (n2, true) =>
    let AC := C.sub A
    if norm3 AC < 1e-8 then .ok (0, false)
    else
      let r := angle n1 n2
      if !r.2 then .ok (0, false)
      else if (n1.crossProd AC).dot n2 > 0 then .ok (r.1 + Real.pi, true)
      else .ok (Real.pi - r.1, true)
  | _, _ => .ok (0, false)

/-- The loop of `tsmcmc_compute_dihedral_angles` (984-1007). -/
noncomputable def anglesLoop (vt : List V3) : List Dihedral → Res (List (ℝ × Bool))
  | [] => .ok []
  | d :: ds => do
    let A ← rd vt d.a1
    let B ← rd vt d.a2
    let C ← rd vt d.a0
    let D ← rd vt d.b2
    let r ← dihedralAngle A B C D
    let rs ← anglesLoop vt ds
    .ok ((if r.2 then r.1 else 0, r.2) :: rs)

/-- `tsmcmc_compute_dihedral_angles` (969-1011): for every diagonal the angle, and whether it is defined. -/
noncomputable def computeDihedrals (T : Triangulation) (vt : List V3) : Res (List (ℝ × Bool)) := do
  let ds ← dihedralsWorker T T.triangles.length 0 (List.replicate T.diags.length ⟨0, 0, 0, 0, 0, 0⟩)
  anglesLoop vt ds

end Plc.Embed
