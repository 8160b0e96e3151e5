import Verif.Model.Embed

/-! # Triangulations from systems of chords (`src/plcToricSymplecticTriangulation.c` 1191-1616)

Indices are natural numbers. The buffers of chords at a vertex are lists which grow; the code counts before how much room is needed. The
recursion is cut off after as many calls in one another as given. -/

namespace Plc.Embed

open Plc.Tri

/-- The other end of diagonal `k`, counted from `v` on (1267-1276). -/
def farEnd (diags : List Chord) (n v k : Nat) : Nat :=
  let c := (diags[k]?).getD (0, 0)
  let s := if c.1 = v then c.2 else c.1
  if s < v then s + n - v else s - v

/-- `tchord_cmp` (1224-1278) at the vertex `v`: not positive. The assertions are left out (the edges compared are always the two at `v`), and
`qsort` does not compare an entry with itself. -/
def tchordLe (diags : List Chord) (n v : Nat) (a b : CRef) : Bool :=
  if a = b then true
  else if !a.diag then decide (a.num ≠ (v + n - 1) % n)
  else if !b.diag then decide (b.num = (v + n - 1) % n)
  else decide (farEnd diags n v a.num ≤ farEnd diags n v b.num)

/-- One entry more in the buffer of a vertex (1335-1342). -/
def push (vi : List (List CRef)) (v : Nat) (c : CRef) : Res (List (List CRef)) := do
  let l ← rd vi v
  wr vi v (l ++ [c])

/-- The loop over the diagonals (1331-1344). -/
def fillLoop : List Chord → Nat → List (List CRef) → Res (List (List CRef))
  | [], _, vi => .ok vi
  | d :: ds, k, vi => do
    let vi ← push vi d.1 ⟨true, k⟩
    let vi ← push vi d.2 ⟨true, k⟩
    fillLoop ds (k + 1) vi

/-- `tsmcmc_build_vitable` (1280-1364). -/
def buildVit (Q : QSort) (n : Nat) (diags : List Chord) : Res (List (List CRef)) := do
  let vi ← fillLoop diags 0 ((List.range n).map (fun v => [⟨false, (v + n - 1) % n⟩, ⟨false, v⟩]))
  .ok (vi.mapIdx (fun v l => Q.sort (tchordLe diags n v) l))

/-- `tsmcmc_vit_position` (1453-1469); `none` for -1. -/
def vitPosition (c : CRef) (l : List CRef) : Option Nat := l.findIdx? (fun x => decide (x = c))

/-- One round of the loop of `tsmcmc_orient_daughters` (1520-1545). -/
def orientOne (parent : Chord) (c : CRef) (diags : List Chord) : Res (List Chord) :=
  if c.diag then do
    let d ← rd diags c.num
    if parent.1 = d.1 ∨ parent.2 = d.2 then wr diags c.num (d.2, d.1) else .ok diags
  else .ok diags

/-- What changes while the triangles are made: triangles, diagonals and `triangles_used`. -/
structure Built where
  triangles : List Triangle
  diags : List Chord
  used : Nat

/-- The ends `vA`, `vB` of the parent chord (1411-1417). -/
def parentEnds (n : Nat) (p : CRef) (diags : List Chord) : Res (Nat × Nat) :=
  if p.diag then rd diags p.num else .ok ((p.num + 1) % n, p.num)

/-- The parent chord as `tsmcmc_orient_daughters` sees it (1506-1516). -/
def parentPos (edges : List Chord) (p : CRef) (diags : List Chord) : Res Chord :=
  if p.diag then do
    let d ← rd diags p.num
    .ok (d.2, d.1)
  else rd edges p.num

/-- The chord before the parent chord (1421-1426). -/
def chordBefore (p : CRef) (l : List CRef) : Res CRef :=
  match vitPosition p l with
  | none => .error .die
  | some 0 => .error .die
  | some (k + 1) => rd l k

/-- The chord after the parent chord (1430-1435). -/
def chordAfter (p : CRef) (l : List CRef) : Res CRef :=
  match vitPosition p l with
  | none => .error .die
  | some k => if k + 1 = l.length then .error .die else rd l (k + 1)

/-- Triangle `i` gets its daughter (1446): `second` for `daughter_tri[1]`. -/
def setDaughter (ts : List Triangle) (i : Nat) (second : Bool) (s : Nat) : Res (List Triangle) := do
  let t ← rd ts i
  wr ts i (if second then { t with t1 := some s } else { t with t0 := some s })

/-- `tsmcmc_build_triangulation_worker` (1394-1451). -/
def build (n : Nat) (edges : List Chord) (vi : List (List CRef)) : Nat → CRef → Built → Res Built
  | 0, _, _ => .error .ub
  | f + 1, p, st => do
    let e ← parentEnds n p st.diags
    let la ← rd vi e.1
    let d0 ← chordBefore p la
    let lb ← rd vi e.2
    let d1 ← chordAfter p lb
    let ts ← wr st.triangles st.used ⟨p, d0, d1, if d0.diag then some 0 else none, if d1.diag then some 0 else none⟩
    let pos ← parentPos edges p st.diags
    let ds ← orientOne pos d0 st.diags
    let ds ← orientOne pos d1 ds
    let s1 ← (if d0.diag then do
        let ts ← setDaughter ts st.used false (st.used + 1)
        build n edges vi f d0 ⟨ts, ds, st.used + 1⟩
      else .ok ⟨ts, ds, st.used + 1⟩)
    if d1.diag then do
      let ts ← setDaughter s1.triangles st.used true s1.used
      build n edges vi f d1 ⟨ts, s1.diags, s1.used⟩
    else .ok s1

/-- `tsmcmc_generate_triangulation` (1550-1616), for at least three edges. -/
def generate (Q : QSort) (n : Nat) (chords : List Chord) : Res Triangulation := do
  let diags ← (List.range (n - 3)).mapM (fun i => rd chords i)
  let edges := (List.range n).map (fun i => (i, (i + 1) % n))
  if n = 3 then .ok ⟨[⟨⟨false, 0⟩, ⟨false, 1⟩, ⟨false, 2⟩, none, none⟩], diags, edges⟩
  else do
    let vi ← buildVit Q n diags
    let st ← build n edges vi n ⟨false, 0⟩ ⟨List.replicate (n - 2) ⟨⟨false, 0⟩, ⟨false, 0⟩, ⟨false, 0⟩, some 0, some 0⟩, diags, 0⟩
    .ok ⟨st.triangles, st.diags, edges⟩

/-- `tsmcmc_chord_ok` (257-323). -/
def chordOk (T : Triangulation) (c : CRef) : Bool :=
  match (if c.diag then T.diags else T.edges)[c.num]? with
  | none => false
  | some d => decide (d.1 < T.edges.length ∧ d.2 < T.edges.length)

/-- A daughter triangle of triangle `i` is entered in the list `daughterof` (427-449); `none` if the triangulation is refused. -/
def enterDaughter (n : Nat) (i : Nat) (t : Option Nat) (dof : List (Option Nat)) : Res (Option (List (Option Nat))) :=
  match t with
  | none => .ok (some dof)
  | some s =>
    if n ≤ s then .ok none
    else do
      let x ← rd dof s
      if x.isSome then .ok none else do
        let dof ← wr dof s (some i)
        .ok (some dof)

/-- Are the orientations of the sides of triangle `i` right (453-523)? -/
def sidesOk (T : Triangulation) (i : Nat) (t : Triangle) : Res Bool := do
  let a ← vertChord T (decide (i = 0)) t.parent
  let b ← vertChord T false t.d0
  if a ≠ b then .ok false else do
    let c ← vertChord T true t.d0
    let d ← vertChord T false t.d1
    if c ≠ d then .ok false else do
      let e ← vertChord T (decide (i ≠ 0)) t.parent
      let f ← vertChord T true t.d1
      .ok (decide (e = f))

/-- One round of the loop over the triangles (407-525): the list `daughterof`, or `none` if the triangulation is refused. -/
def triOk (T : Triangulation) (i : Nat) (t : Triangle) (dof : List (Option Nat)) : Res (Option (List (Option Nat))) :=
  if !chordOk T t.parent then .ok none
  else if !chordOk T t.d0 then .ok none
  else do
    let r ← enterDaughter T.triangles.length i t.t0 dof
    match r with
    | none => .ok none
    | some dof =>
      if !chordOk T t.d1 then .ok none
      else do
        let r ← enterDaughter T.triangles.length i t.t1 dof
        match r with
        | none => .ok none
        | some dof => do
          let b ← sidesOk T i t
          .ok (if b then some dof else none)

/-- The loop over the triangles (407-525). -/
def triLoop (T : Triangulation) : List Triangle → Nat → List (Option Nat) → Res (Option (List (Option Nat)))
  | [], _, dof => .ok (some dof)
  | t :: ts, i, dof => do
    let r ← triOk T i t dof
    match r with
    | none => .ok none
    | some dof => triLoop T ts (i + 1) dof

/-- `tsmcmc_triangulation_ok` (338-560). The buffers are not NULL. -/
def triangulationOk (T : Triangulation) : Res Bool :=
  if T.triangles.length + 2 ≠ T.edges.length then .ok false
  else if T.diags.length + 3 ≠ T.edges.length then .ok false
  else if !(List.range T.edges.length).all (fun i => chordOk T ⟨false, i⟩) then .ok false
  else if !(List.range T.diags.length).all (fun i => chordOk T ⟨true, i⟩) then .ok false
  else do
    let r ← triLoop T T.triangles 0 (List.replicate T.triangles.length none)
    match r with
    | none => .ok false
    | some dof => .ok (decide (dof.countP (fun x => x.isNone) ≤ 1))

/-- `tsmcmc_fan_triangulation` (14-34). -/
def fanT (Q : QSort) (n : Nat) : Res Triangulation := do
  let sys ← fan Q n
  generate Q n sys

/-- The end of the other ones (75-79, 151-155, 188-192). -/
def checked (Q : QSort) (n : Nat) (sys : List Chord) : Res Triangulation := do
  let T ← generate Q n sys
  let b ← triangulationOk T
  assertC b
  .ok T

/-- `tsmcmc_spiral_triangulation` (36-82). -/
def spiralT (Q : QSort) (n : Nat) : Res Triangulation := do
  let sys ← spiral Q n
  checked Q n sys

/-- `tsmcmc_random_triangulation` (132-158). -/
def randomT (Q : QSort) (rng : Nat → Nat) (n : Nat) : Res Triangulation := do
  let sys ← random Q rng n
  checked Q n sys

/-- `tsmcmc_teeth_triangulation` (160-195). -/
def teethT (Q : QSort) (n : Nat) : Res Triangulation := do
  let sys ← teeth n
  checked Q n sys

end Plc.Embed
