import Verif.Model.Comps

/-! # Finding the faces of a diagram (`src/pdcode.c` 265-325, 1715-2066) -/

namespace Plc.Faces

open Plc.Core Plc.Cmp Plc.Comps

/-- The search for the lowest edge (pdcode.c 297-307): among several places holding the lowest
number the last one is taken. -/
def lowPos : List Nat → Nat → Nat × Nat → Nat
  | [], _, s => s.2
  | e :: l, i, s => lowPos l (i + 1) (if e ≤ s.1 then (e, i) else s)

/-- `buf[(low + i) % n]` for `i = 0, ..., n - 1` (pdcode.c 311-316); all indices are inside. -/
def readFrom {α : Type} (d : α) (l : List α) (low : Nat) : List α :=
  (List.range l.length).map (fun i => l.getD ((low + i) % l.length) d)

/-- `pd_canonorder_face` (pdcode.c 265-325). For an unset orientation nothing is copied into
the zeroed buffers. -/
def canonorderFace (f : Face) (o : Or) : Res Face := do
  let (es, os) := match o with
    | .pos => (f.edge, f.orient)
    | .neg => (f.edge.reverse, f.orient.reverse)
    | .unset => (List.replicate f.edge.length 0, List.replicate f.orient.length .neg)
  let e0 ← rd es 0
  let low := lowPos es 0 (e0, 0)
  .ok ⟨readFrom 0 es low, readFrom .neg os low⟩

/-- `pdint_next_edge_on_face` (pdcode.c 1715-1768). -/
def nextOnFace (cross : List Cross) (edge : List Edge) (e : Nat) (o : Or) : Res (Nat × Or) := do
  assertC (e < edge.length)
  assertC (o = .pos ∨ o = .neg)
  let r ← rd edge e
  let (c, k) := if o = .pos then (r.head, r.headpos) else (r.tail, r.tailpos)
  let np := (k + 3) % 4
  let cr ← rd cross c
  let n ← cr.rdPos np
  let x ← rd edge n
  assertC (x.head = c ∨ x.tail = c)
  if x.head = c ∧ x.tail ≠ c then assertC (x.headpos = np)
  else if x.tail = c ∧ x.head ≠ c then assertC (x.tailpos = np)
  else assertC (x.headpos = np ∨ x.tailpos = np)
  if x.head = c ∧ x.headpos = np then .ok (n, .neg) else .ok (n, .pos)

/-- The array of `pdint_face_assignment` (pdcode.c 1778-1786), as two arrays: faces and
positions of the positive sides, and of the negative sides. `none` is `PD_UNSET_FACE`. -/
structure FAsg where
  pos : List Asg
  neg : List Asg

/-- `pdint_next_face_unassigned_edge_or` (pdcode.c 1788-1871); `none` is `all_assigned`. -/
def nextUnassigned (a : FAsg) (e : Nat) (o : Or) : Res (Option (Nat × Or)) := do
  assertC (e < a.pos.length)
  assertC (o = .pos ∨ o = .neg)
  if o = .pos then
    match findUnassigned (a.pos.drop (e + 1)) (e + 1) with
    | some e' => .ok (some (e', .pos))
    | none =>
      match findUnassigned a.neg 0 with
      | some e' => .ok (some (e', .neg))
      | none => .ok none
  else
    match findUnassigned (a.neg.drop (e + 1)) (e + 1) with
    | some e' => .ok (some (e', .neg))
    | none => .ok none

/-- Recording face and position of a side (pdcode.c 1946-1959). -/
def assign (a : FAsg) (e : Nat) (o : Or) (face pos : Nat) : Res FAsg := do
  assertC (o = .pos ∨ o = .neg)
  if o = .pos then do
    let p ← wr a.pos e (some (face, pos))
    .ok { a with pos := p }
  else do
    let n ← wr a.neg e (some (face, pos))
    .ok { a with neg := n }

/-- The loop around a face (pdcode.c 1940-1970); the first argument is
`pd->nedges - nedges`. -/
def walkFace (cross : List Cross) (edge : List Edge) (se : Nat) (so : Or) (face : Nat) :
    Nat → Nat → Or → Nat → FAsg → Res (FAsg × Nat)
  | 0, e, o, pos, a => do
    let _ ← assign a e o face pos
    .error .die
  | r + 1, e, o, pos, a => do
    let a ← assign a e o face pos
    let (e', o') ← nextOnFace cross edge e o
    if e' = se ∧ o' = so then .ok (a, pos + 1)
    else walkFace cross edge se so face r e' o' (pos + 1) a

/-- The loop over faces (pdcode.c 1922-1991); the first argument is `MAXFACES - nfaces`. -/
def facesLoop (cross : List Cross) (edge : List Edge) : Nat → Nat → Nat → Or → FAsg →
    List Nat → Res (FAsg × List Nat)
  | 0, nf, e, o, a, _ => do
    assertC (e < edge.length ∧ (o = .pos ∨ o = .neg))
    let _ ← walkFace cross edge e o nf edge.length e o 0 a
    .error .die
  | r + 1, nf, e, o, a, lens => do
    assertC (e < edge.length ∧ (o = .pos ∨ o = .neg))
    let (a, k) ← walkFace cross edge e o nf edge.length e o 0 a
    match ← nextUnassigned a e o with
    | none => .ok (a, lens ++ [k])
    | some (e', o') => facesLoop cross edge r (nf + 1) e' o' a (lens ++ [k])

/-- One write into a face record (pdcode.c 1999-2003 and 2005-2009). The two buffers `edge` and
`orient` of a face are one list of pairs here. An unset face number, -1, is converted to an
unsigned number in the comparison, which then fails. -/
def put (bufs : List (List (Nat × Or))) (a : Asg) (d : Nat × Or) : Res (List (List (Nat × Or))) :=
  match a with
  | none => .error .die
  | some (c, p) => do
    assertC (c < bufs.length)
    let b ← rd bufs c
    assertC (p < b.length)
    let b ← wr b p d
    wr bufs c b

/-- Filling the face records (pdcode.c 1997-2011), from edge `e` on. -/
def fillFaces : List Asg → List Asg → Nat → List (List (Nat × Or)) → Res (List (List (Nat × Or)))
  | p :: ps, n :: ns, e, bufs => do
    let bufs ← put bufs p (e, .pos)
    let bufs ← put bufs n (e, .neg)
    fillFaces ps ns (e + 1) bufs
  | _, _, _, bufs => .ok bufs

/-- Canonical order for every face (pdcode.c 2020-2024). -/
def canonAll : List Face → Res (List Face)
  | [] => .ok []
  | f :: l => do
    let f ← canonorderFace f .pos
    let r ← canonAll l
    .ok (f :: r)

/-- `pd_face_cmp` as the order used by `qsort`. -/
def faceLe (a b : Face) : Bool := decide (faceCmp a b ≤ 0)

/-- `pd_regenerate_faces` (pdcode.c 1873-2066). Freeing old records is not modelled. -/
def regenFaces (qs : QSort) (maxfaces : Nat) (cross : List Cross) (edge : List Edge) :
    Res (List Face) := do
  assertC (cross.length > 0)
  assertC (edge.length > 1)
  let (a, lens) ← facesLoop cross edge maxfaces 0 0 .pos
    ⟨List.replicate edge.length none, List.replicate edge.length none⟩ []
  let bufs ← fillFaces a.pos a.neg 0 (lens.map (fun k => List.replicate k (0, .neg)))
  let faces ← canonAll (bufs.map (fun b => (⟨b.map Prod.fst, b.map Prod.snd⟩ : Face)))
  let faces := qs.sort faceLe faces
  if faces.length ≠ cross.length + 2 then .error .die else .ok faces

end Plc.Faces
