import Verif.Model.Io
import Verif.Model.Strands

/-! # Asking about a diagram, copying it (`src/pdcode.c`) -/

namespace Plc.Query

open Plc.Cmp Plc.Strands Plc.Io

/-- One edge in `pd_is_alternating` (pdcode.c 2656-2712): does it go from under to over or from over to under? -/
def edgeAlternates (cross : List Cross) (edge : List Edge) (e : Nat) : Res Bool := do
  let r ← rd edge e
  let (_, uo) ← understrandPos cross edge r.tail
  let (_, oo) ← overstrandPos cross edge r.tail
  if uo = r.tailpos then do
    let (ui, _) ← understrandPos cross edge r.head
    let (oi, _) ← overstrandPos cross edge r.head
    if ui = r.headpos then .ok false
    else if oi ≠ r.headpos then .error .die
    else .ok true
  else if oo = r.tailpos then do
    let (ui, _) ← understrandPos cross edge r.head
    let (oi, _) ← overstrandPos cross edge r.head
    if oi = r.headpos then .ok false
    else if ui ≠ r.headpos then .error .die
    else .ok true
  else .error .die

/-- The edges of a component (pdcode.c 2654-2714). -/
def edgesAlternate (cross : List Cross) (edge : List Edge) : List Nat → Res Bool
  | [] => .ok true
  | e :: l => do
    let b ← edgeAlternates cross edge e
    if b then edgesAlternate cross edge l else .ok false

/-- The components (pdcode.c 2652-2716). -/
def compsAlternate (cross : List Cross) (edge : List Edge) : List Comp → Res Bool
  | [] => .ok true
  | k :: l => do
    let b ← edgesAlternate cross edge k.edge
    if b then compsAlternate cross edge l else .ok false

/-- `pd_is_alternating` (pdcode.c 2628-2719). -/
def isAlternating (cross : List Cross) (edge : List Edge) (comps : List Comp) : Res Bool :=
  if cross.any (fun c => c.sign = .unset) then .error .die
  else compsAlternate cross edge comps

/-- What `pd_face_and_pos` writes through its pointers: face and position, where something is written. -/
structure Found where
  pos : Option (Nat × Nat)
  neg : Option (Nat × Nat)
  deriving DecidableEq, Repr

/-- The edges of one face (pdcode.c 432-475). The messages about repeated and unknown orientations do not stop the
program unless `PD_VERBOSE` is set. -/
def onFace (e face : Nat) (orient : List Or) : Nat → List Nat → Found → Res Found
  | _, [], s => .ok s
  | i, x :: l, s =>
    if x = e then do
      let o ← rd orient i
      onFace e face orient (i + 1) l (match o with
        | .pos => { s with pos := some (face, i) }
        | .neg => { s with neg := some (face, i) }
        | .unset => s)
    else onFace e face orient (i + 1) l s

/-- The faces (pdcode.c 430-477). -/
def onFaces (e : Nat) : Nat → List Face → Found → Res Found
  | _, [], s => .ok s
  | i, f :: l, s => do
    let s ← onFace e i f.orient 0 f.edge s
    onFaces e (i + 1) l s

/-- `pd_face_and_pos` (pdcode.c 414-486). A side that is not found leaves its two variables as they were. -/
def faceAndPos (faces : List Face) (e : Nat) : Res Found := onFaces e 0 faces ⟨none, none⟩

/-- `pd_edge_on_face` (pdcode.c 488-510). -/
def edgeOnFace (faces : List Face) (e face : Nat) : Res Bool := do
  let f ← rd faces face
  .ok (f.edge.any (fun x => x = e))

/-- The copy of a component (pdcode.c 2752-2769). One without edges keeps what `calloc` left. -/
def copyComp (k : Comp) : Comp := if k.edge = [] then ⟨[], 0⟩ else k

/-- The copy of a face (pdcode.c 2777-2799). -/
def copyFace (f : Face) : Res Face :=
  if f.edge = [] then .ok ⟨[], []⟩
  else if f.orient.length < f.edge.length then .error .ub
  else .ok ⟨f.edge, f.orient.take f.edge.length⟩

def copyFaces : List Face → Res (List Face)
  | [] => .ok []
  | f :: l => do
    let g ← copyFace f
    let l ← copyFaces l
    .ok (g :: l)

/-- What `pd_copy` makes: the unknot of `pd_build_unknot(0)`, or a diagram with the size of its buffers. -/
inductive Copy where
  | unknot
  | code (mv : Nat) (pd : Io.Pd)
  deriving DecidableEq, Repr

/-- `pd_copy_newsize` (pdcode.c 2721-2805). That the records of `pd` lie in its own buffers is assumed. -/
def copyNewsize (pd : Io.Pd) (mv : Nat) : Res Copy :=
  if pd.cross.length = 0 then .ok .unknot
  else do
    let mv := if mv < pd.cross.length then pd.cross.length else mv
    let c := capsNew mv
    assertC (decide (pd.cross.length ≤ c.verts))
    assertC (decide (pd.edge.length ≤ c.edges))
    assertC (decide (pd.comp.length ≤ c.comps))
    assertC (decide (pd.face.length ≤ c.faces))
    let face ← copyFaces pd.face
    .ok (.code mv ⟨pd.hash, pd.uid, pd.cross, pd.edge, pd.comp.map copyComp, face⟩)

/-- `pd_copy` (pdcode.c 2807-2809). -/
def copy (pd : Io.Pd) : Res Copy := copyNewsize pd pd.cross.length

end Plc.Query
