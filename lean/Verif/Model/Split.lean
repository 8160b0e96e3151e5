import Verif.Model.Core
import Verif.Model.Comps

/-! # Splitting a diagram into connected pieces (`src/pd_splitdiagram.c`) -/

namespace Plc.Split

open Plc.Cmp Plc.Core

/-- The test for an edge without crossings (pd_splitdiagram.c 54-57). -/
def isFree (r : Edge) : Bool :=
  decide (r.head = UNSET_IDX) && decide (r.tail = UNSET_IDX) && decide (r.headpos = UNSET_POS) &&
    decide (r.tailpos = UNSET_POS)

/-- `incident_edges` (pd_splitdiagram.c 64-77). `pd_check_cr` stops the program when the crossing
number is too large. -/
def incident (cross : List Cross) (r : Edge) : Res (List Nat) := do
  assertC (decide (r.head < cross.length))
  assertC (decide (r.tail < cross.length))
  let h ← rd cross r.head
  let t ← rd cross r.tail
  .ok [h.at (r.headpos + 1), h.at (r.headpos + 3), t.at (r.tailpos + 1), t.at (r.tailpos + 3)]

/-- The loop over the incident edges (pd_splitdiagram.c 81-90); `w` is the recursive call. -/
def spread (w : List Nat → Nat → Res (List Nat)) (e : Nat) : List Nat → List Nat → Res (List Nat)
  | [], code => .ok code
  | i :: l, code => do
    let c ← rd code i
    if c = UNSET_IDX then do
      let k ← rd code e
      let code ← wr code i k
      let code ← w code i
      spread w e l code
    else spread w e l code

/-- `pdint_split_worker` (pd_splitdiagram.c 45-93). The depth of the recursion is bounded by `fuel`;
running out of it is an error. -/
def worker (cross : List Cross) (edge : List Edge) : Nat → List Nat → Nat → Res (List Nat)
  | 0, _, _ => .error .die
  | f + 1, code, e => do
    let r ← rd edge e
    if isFree r then .ok code
    else do
      let inc ← incident cross r
      spread (worker cross edge f) e inc code

/-- The loop which numbers the pieces (pd_splitdiagram.c 127-137); `k` edges are left, from `i` on.
The recursion of the worker may go as deep as there are edges. -/
def labelLoop (cross : List Cross) (edge : List Edge) : Nat → Nat → List Nat → Nat → Res (List Nat × Nat)
  | 0, _, code, n => .ok (code, n)
  | k + 1, i, code, n => do
    let c ← rd code i
    if c = UNSET_IDX then do
      let code ← wr code i n
      let code ← worker cross edge edge.length code i
      labelLoop cross edge k (i + 1) code (n + 1)
    else labelLoop cross edge k (i + 1) code n

/-- The labels of the edges and the number of pieces (pd_splitdiagram.c 119-137). -/
def labels (cross : List Cross) (edge : List Edge) : Res (List Nat × Nat) :=
  labelLoop cross edge edge.length 0 (List.replicate edge.length UNSET_IDX) 0

end Plc.Split
