import Verif.Model.Faces
import Verif.Model.Comps
import Verif.Model.Io

/-! # The sanity checks (`src/pdcode.c` 2313-2625) -/

namespace Plc.Ok

open Plc.Cmp Plc.Core Plc.Edges

/-- Two consecutive edges of a component (pdcode.c 2383-2398). Positions are 32-bit unsigned numbers,
so `4 + a - b` has the residue of `a + 3 * b` modulo 4. -/
def stepOk (edge : List Edge) (k : List Nat) (i x : Nat) : Res Bool := do
  let n ← rd k ((i + 1) % k.length)
  let re ← rd edge x
  let rn ← rd edge n
  if re.head ≠ rn.tail ∨ (4 + re.headpos + 3 * rn.tailpos) % 4 ≠ 2 then .ok false else .ok true

/-- The inner loop of `pd_comps_ok` (pdcode.c 2370-2402), from position `i` on; `c` is
`correct_edgenum`. `none`: a check failed. -/
def walkOk (edge : List Edge) (k : List Nat) : List Nat → Nat → Nat → Res (Option Nat)
  | [], _, c => .ok (some c)
  | x :: l, i, c =>
    if c ≠ x then .ok none
    else do
      let b ← stepOk edge k i x
      if b then walkOk edge k l (i + 1) (c + 1) else .ok none

/-- The loop over components (pdcode.c 2368-2404). -/
def compsWalk (edge : List Edge) : List Comp → Nat → Res (Option Nat)
  | [], c => .ok (some c)
  | k :: l, c => do
    match ← walkOk edge k.edge k.edge 0 c with
    | none => .ok none
    | some c => compsWalk edge l c

/-- The loop over the sorted tags (pdcode.c 2426-2472). The first one is not looked at. -/
def tagsOk : List Nat → Bool
  | a :: b :: l => !decide (b = a) && !decide (b < 65) && tagsOk (b :: l)
  | _ => true

/-- `pd_comps_ok` (pdcode.c 2321-2478). Tags are compared exactly by `pd_tag_cmp` (2312-2319). -/
def compsOk (qs : QSort) (maxcomps : Nat) (cross : List Cross) (edge : List Edge) (comps : List Comp) : Res Bool :=
  if comps.length > maxcomps then .ok false
  else if cross.length = 0 then
    if comps.length ≠ 1 then .ok false
    else do
      let k ← rd comps 0
      if k.edge.length ≠ 1 then .ok false
      else do
        let e ← rd k.edge 0
        .ok (decide (e = 0))
  else do
    match ← compsWalk edge comps 0 with
    | none => .ok false
    | some c =>
      if c ≠ edge.length then .ok false
      else .ok (tagsOk (qs.sort (fun a b => decide (a ≤ b)) (comps.map (·.tag))))

/-- One step along a face (pdcode.c 2536-2576). -/
def turnOk (edge : List Edge) (f : Face) (i : Nat) : Res Bool := do
  let e ← rd f.edge i
  if e ≥ edge.length then .ok false
  else do
    let n ← rd f.edge ((i + 1) % f.edge.length)
    if n ≥ edge.length then .ok false
    else do
      let re ← rd edge e
      let oe ← rd f.orient i
      let this ← orientedEdge re oe
      let rn ← rd edge n
      let on ← rd f.orient ((i + 1) % f.edge.length)
      let next ← orientedEdge rn on
      .ok (decide (this.head = next.tail) && decide ((next.tailpos + 1) % 4 = this.headpos))

/-- The loop along a face (pdcode.c 2532-2578); `k` steps are left. -/
def faceWalk (edge : List Edge) (f : Face) : Nat → Nat → Res Bool
  | 0, _ => .ok true
  | k + 1, i => do
    let b ← turnOk edge f i
    if b then faceWalk edge f k (i + 1) else .ok false

/-- The loop over faces (pdcode.c 2528-2580). `1 % f->nedges` is undefined for a face without edges. -/
def facesWalk (edge : List Edge) : List Face → Res Bool
  | [] => .ok true
  | f :: l =>
    if f.edge.length = 0 then .error .ub
    else do
      let b ← faceWalk edge f f.edge.length 0
      if b then facesWalk edge l else .ok false

/-- Each face begins with its lowest edge (pdcode.c 2584-2604). -/
def lowFirst : List Face → Res Bool
  | [] => .ok true
  | f :: l => do
    let e ← rd f.edge 0
    if (f.edge.drop 1).foldl (fun low x => if x < low then x else low) e ≠ e then .ok false else lowFirst l

/-- Sort order of faces (pdcode.c 2608-2617). -/
def facesSorted : List Face → Bool
  | a :: b :: l => if faceCmp a b > 0 then false else facesSorted (b :: l)
  | _ => true

/-- One of the two faces of the crossingless diagram (pdcode.c 2499-2521). -/
def loneFace (faces : List Face) (i : Nat) : Res Bool := do
  let f ← rd faces i
  if f.edge.length ≠ 1 then .ok false
  else do
    let e ← rd f.edge 0
    .ok (decide (e = 0))

/-- `pd_faces_ok` (pdcode.c 2480-2621). -/
def facesOk (maxfaces : Nat) (cross : List Cross) (edge : List Edge) (faces : List Face) : Res Bool :=
  if faces.length > maxfaces then .ok false
  else if cross.length = 0 then
    if faces.length ≠ 2 then .ok false
    else do
      let b ← loneFace faces 0
      if b then loneFace faces 1 else .ok false
  else do
    let b ← facesWalk edge faces
    if b then do
      let b ← lowFirst faces
      if b then .ok (facesSorted faces) else .ok false
    else .ok false

/-- `pd_ok` (pdcode.c 2623-2627). -/
def pdOk (qs : QSort) (caps : Io.Caps) (pd : Io.Pd) : Res Bool := do
  let b ← crossOk caps.edges pd.cross pd.edge
  if b then do
    let b ← edgesOk pd.cross pd.edge
    if b then do
      let b ← facesOk caps.faces pd.cross pd.edge pd.face
      if b then compsOk qs caps.comps pd.cross pd.edge pd.comp else .ok false
    else .ok false
  else .ok false

end Plc.Ok
