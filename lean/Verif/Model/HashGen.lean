import Verif.Model.Hash
import Verif.Model.Cmp
import Verif.Model.Buffers

/-! # The diagram hash (`src/pdcode.c` 1364-1713) -/

namespace Plc.HashGen

open Plc.Hash Plc.Cmp

/-- Copying numbers to the bytes from `data[i]` on, as long as `i < 24`; `i` is the length of the list
so far (pdcode.c 1444-1456, 1605-1609, 1639-1643, 1693-1697). -/
def push (data l : List Nat) : List Nat := data ++ (l.take (24 - data.length)).map (· % 256)

/-- One edge of a face in the table of incident faces (pdcode.c 1485-1503). -/
def addFace (t : List (Option Nat × Option Nat)) (face te : Nat) : Res (List (Option Nat × Option Nat)) := do
  match ← rd t te with
  | (none, b) => wr t te (some face, b)
  | (some a, none) => wr t te (some a, some face)
  | (some _, some _) => .error .die

/-- All edges of a face (pdcode.c 1483-1505). -/
def addEdges (face : Nat) : List Nat → List (Option Nat × Option Nat) → Res (List (Option Nat × Option Nat))
  | [], t => .ok t
  | te :: l, t => do
    let t ← addFace t face te
    addEdges face l t

/-- All faces, from number `face` on (pdcode.c 1481-1507). -/
def addFaces : List Face → Nat → List (Option Nat × Option Nat) → Res (List (Option Nat × Option Nat))
  | [], _, t => .ok t
  | f :: l, face, t => do
    let t ← addEdges face f.edge t
    addFaces l (face + 1) t

/-- The assertions about the table (pdcode.c 1509-1514). -/
def allSet : List (Option Nat × Option Nat) → Res (List (Nat × Nat))
  | [] => .ok []
  | (some a, some b) :: l => do
    let r ← allSet l
    .ok ((a, b) :: r)
  | _ :: _ => .error .die

/-- The faces across the edges of a face (pdcode.c 1543-1548). -/
def adjacent (t : List (Nat × Nat)) (face : Nat) : List Nat → Res (List Nat)
  | [] => .ok []
  | te :: l => do
    let p ← rd t te
    let r ← adjacent t face l
    .ok ((if p.1 = face then p.2 else p.1) :: r)

/-- Numbers of edges of the listed faces. -/
def sizesOf (faces : List Face) : List Nat → Res (List Nat)
  | [] => .ok []
  | a :: l => do
    let f ← rd faces a
    let r ← sizesOf faces l
    .ok (f.edge.length :: r)

/-- The number of neighbouring equal entries (pdcode.c 1564-1568). For an empty buffer the bound
`nedges-1` is 2^32-1 and the loop leaves the buffer. -/
def dups : List Nat → Res Nat
  | [] => .error .ub
  | [_] => .ok 0
  | a :: b :: l => do
    let r ← dups (b :: l)
    .ok ((if a = b then 1 else 0) + r)

/-- Counting the faces across with fewer than 7 edges (pdcode.c 1574-1578, 1584-1592, 1598-1606). The
counters are 32-bit numbers, here unbounded. -/
def bump : List Nat → List Nat → Res (List Nat)
  | [], joins => .ok joins
  | s :: l, joins =>
    if s < 7 then do
      let x ← rd joins s
      let joins ← wr joins s (x + 1)
      bump l joins
    else bump l joins

/-- What the loop over the faces collects. -/
structure Acc where
  dual : Nat
  mono : List Nat
  bi : List Nat
  tri : List Nat

/-- One face (pdcode.c 1529-1612), without the vector `V`. -/
def oneFace (qs : QSort) (faces : List Face) (t : List (Nat × Nat)) (face : Nat) (f : Face) (a : Acc) : Res Acc := do
  let adj ← adjacent t face f.edge
  let adj := qs.sort (fun x y => decide (Buffers.idxCmp x y ≤ 0)) adj
  let d ← dups adj
  let a := { a with dual := a.dual + d }
  if f.edge.length = 1 then do
    let s ← sizesOf faces adj
    let m ← bump s a.mono
    .ok { a with mono := m }
  else if f.edge.length = 2 then do
    let s ← sizesOf faces adj
    let m ← bump s a.bi
    .ok { a with bi := m }
  else if f.edge.length = 3 then do
    let s ← sizesOf faces adj
    let m ← bump s a.tri
    .ok { a with tri := m }
  else .ok a

/-- All faces, from number `face` on (pdcode.c 1529-1616). -/
def allFaces (qs : QSort) (faces : List Face) (t : List (Nat × Nat)) : List Face → Nat → Acc → Res Acc
  | [], _, a => .ok a
  | f :: l, face, a => do
    let a ← oneFace qs faces t face f a
    allFaces qs faces t l (face + 1) a

/-- Condensing the runs of zeros (pdcode.c 1667-1691), from the given entries on. A run of zeros is written
as 255 minus its length at `k`, and `k` is not moved on, so the next number overwrites it; `run` says whether
the entry before was a zero too. -/
def compress : List Nat → Nat → Bool → List Nat → Res (List Nat)
  | [], _, _, out => .ok out
  | x :: l, k, run, out =>
    if x ≠ 0 then do
      let out ← wr out k x
      compress l (k + 1) false out
    else do
      let y ← if run then rd out k else .ok 255
      let out ← wr out k (y - 1)
      compress l k true out

/-- The entries for three to six edges (pdcode.c 1649-1665). -/
def combined (a : Acc) : Res (List Nat) := do
  let m ← [3, 4, 5, 6].mapM (rd a.mono)
  let b ← [3, 4, 5, 6].mapM (rd a.bi)
  let t ← [3, 4, 5, 6].mapM (rd a.tri)
  .ok (m ++ b ++ t ++ List.replicate 9 0)

/-- The sizes of the faces around the largest face, if there is one (pdcode.c 1632-1647). -/
def addV (big : Bool) (data v : List Nat) : Res (List Nat) :=
  if big then do
    let v ← canonicalorder v
    .ok (push data v)
  else .ok data

/-- `pd_regenerate_hash` (pdcode.c 1364-1713): the 31 characters of the hash. -/
def regenHash (qs : QSort) (ncross nedges : Nat) (faces : List Face) (comps : List Comp) : Res (List Char) := do
  let data := push [ncross % 256, nedges % 256, faces.length % 256] (faces.map (·.edge.length))
  let data := push data [comps.length]
  let data := push data (comps.map (·.edge.length))
  let t ← addFaces faces 0 (List.replicate nedges (none, none))
  let t ← allSet t
  let f0 ← rd faces 0
  let adj0 ← adjacent t 0 f0.edge
  let v ← sizesOf faces adj0
  let a ← allFaces qs faces t faces 0 ⟨0, List.replicate 7 0, List.replicate 7 0, List.replicate 7 0⟩
  let data := push data [a.dual]
  let data ← addV ((faces.drop 1).all (fun f => decide (f.edge.length < f0.edge.length))) data v
  let c ← combined a
  let c ← compress c 0 false (List.replicate 21 0)
  let data := push data c
  let data := data ++ List.replicate (24 - data.length) 0
  let s ← base64encode data
  .ok (s.take 31)

end Plc.HashGen
