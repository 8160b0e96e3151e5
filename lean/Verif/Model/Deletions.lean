import Verif.Model.Io
import Verif.Model.Moves

/-! # Erasing edges and crossings (`src/pd_deletions.c`) -/

namespace Plc.Deletions

open Plc.Cmp Plc.Core Plc.Moves

/-- An edge record with all four fields unset. -/
def unsetEdge : Edge := ⟨UNSET_IDX, UNSET_POS, UNSET_IDX, UNSET_POS⟩

/-- `pd_edge_deleted` (pd_deletions.c 46-54). -/
def edgeDeleted (pd : Io.Pd) (e : Nat) : Res Bool := do
  let r ← rd pd.edge e
  .ok (decide (r.head = UNSET_IDX) && decide (r.tail = UNSET_IDX) && decide (r.headpos = UNSET_POS) &&
    decide (r.tailpos = UNSET_POS))

/-- `pd->cross[c].sign = s`. -/
def setSign (cross : List Cross) (c : Nat) (s : Or) : Res (List Cross) := do
  let x ← rd cross c
  wr cross c { x with sign := s }

/-- The loop over the edges of one component (103-109, 212-218): every occurrence of `e` becomes `PD_UNSET_IDX`. -/
def purge (e : Nat) (l : List Nat) : List Nat := l.map fun x => if x = e then UNSET_IDX else x

/-- The loop over the edges of one face (86-95). -/
def purgeFace (e : Nat) (F : Face) : Face :=
  ⟨purge e F.edge, List.zipWith (fun x o => if x = e then .unset else o) F.edge F.orient⟩

/-- The loop over the components (101-111, 210-220). -/
def purgeComps (e : Nat) (comp : List Comp) : List Comp := comp.map fun C => { C with edge := purge e C.edge }

/-- `pd_edge_delete` (57-118). `pd_check_edge` stops the program if there is no such edge. -/
def edgeDelete (pd : Io.Pd) (e : Nat) : Res Io.Pd := do
  assertC (decide (e < pd.edge.length))
  let r ← rd pd.edge e
  let cross ← setSlot pd.cross r.head r.headpos UNSET_IDX
  let cross ← setSlot cross r.tail r.tailpos UNSET_IDX
  let cross ← setSign cross r.head .unset
  let cross ← setSign cross r.tail .unset
  let edge ← wr pd.edge e unsetEdge
  .ok { pd with cross := cross, edge := edge, comp := purgeComps e pd.comp, face := pd.face.map (purgeFace e) }

/-- What `pd_crossing_delete` changes. -/
abbrev State := List Cross × List Edge × List Comp

/-- Splicing `f` (coming in) and `g` (going out) together (187-220). -/
def splice (s : State) (f g : Nat) : Res State := do
  let rf ← rd s.2.1 f
  let rg ← rd s.2.1 g
  let edge ← wr s.2.1 g { rg with tail := rf.tail, tailpos := rf.tailpos }
  let cross ← setSlot s.1 rf.tail rf.tailpos g
  let edge ← wr edge f unsetEdge
  .ok (cross, edge, purgeComps f s.2.2)

/-- The turn of the loop for positions `p` and `p + 2` (157-251). -/
def strand (c p : Nat) (s : State) : Res State := do
  let x ← rd s.1 c
  let a ← x.rdPos p
  let b ← x.rdPos (p + 2)
  if a ≠ UNSET_IDX ∧ b ≠ UNSET_IDX then do
    let ra ← rd s.2.1 a
    let rb ← rd s.2.1 b
    if ra.head = c ∧ rb.tail = c then splice s a b
    else if rb.head = c ∧ ra.tail = c then splice s b a
    else .error .die
  else
    let e := if a ≠ UNSET_IDX then a else b
    if e = UNSET_IDX then .ok s
    else do
      let r ← rd s.2.1 e
      if r.head = c then do
        let edge ← wr s.2.1 e { r with head := UNSET_IDX, headpos := UNSET_POS }
        .ok (s.1, edge, s.2.2)
      else if r.tail = c then do
        let edge ← wr s.2.1 e { r with tail := UNSET_IDX, tailpos := UNSET_POS }
        .ok (s.1, edge, s.2.2)
      else .ok s

/-- `pd_crossing_delete` (120-268). `pd_check_cr` stops the program if there is no such crossing. -/
def crossingDelete (pd : Io.Pd) (c : Nat) : Res Io.Pd := do
  assertC (decide (c < pd.cross.length))
  let s ← strand c 0 (pd.cross, pd.edge, pd.comp)
  let s ← strand c 1 s
  let cross ← wr s.1 c ⟨UNSET_IDX, UNSET_IDX, UNSET_IDX, UNSET_IDX, .unset⟩
  .ok { pd with cross := cross, edge := s.2.1, comp := s.2.2 }

end Plc.Deletions
