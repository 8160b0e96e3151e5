import Verif.Model.Strands
import Verif.Model.Io

/-! # Crossing codes of Ewing and Millett (`src/plcTopology.c` 103-281) -/

namespace Plc.Ewing

open Plc.Strands Plc.Io

/-- The position of an edge at its head (plcTopology.c 112-150). `pd_error` ends the program. -/
def headLetter (cross : List Cross) (edge : List Edge) (e : Nat) : Res Char := do
  let r ← rd edge e
  let (oip, _) ← overstrandPos cross edge r.head
  let (uip, _) ← understrandPos cross edge r.head
  let x ← rd cross r.head
  let o ← x.rdPos oip
  let u ← x.rdPos uip
  if o = e then .ok 'c'
  else if u = e then .ok (if x.sign = .pos then 'b' else 'd')
  else .error .die

/-- The position of an edge at its tail (plcTopology.c 152-187). -/
def tailLetter (cross : List Cross) (edge : List Edge) (e : Nat) : Res Char := do
  let r ← rd edge e
  let (_, oop) ← overstrandPos cross edge r.tail
  let (_, uop) ← understrandPos cross edge r.tail
  let x ← rd cross r.tail
  let o ← x.rdPos oop
  let u ← x.rdPos uop
  if o = e then .ok 'a'
  else if u = e then .ok (if x.sign = .pos then 'd' else 'b')
  else .error .die

/-- `pd_millet_ewing_positions` (plcTopology.c 103-189). -/
def positions (cross : List Cross) (edge : List Edge) (e : Nat) : Res (Char × Char) := do
  assertC (e < edge.length)
  let h ← headLetter cross edge e
  let t ← tailLetter cross edge e
  .ok (h, t)

/-- Where an edge leads to: the crossing at its head, counted from 1, and the position there. -/
def leadsTo (cross : List Cross) (edge : List Edge) (e : Nat) : Res (Nat × Char) := do
  let r ← rd edge e
  let (h, _) ← positions cross edge e
  .ok (r.head + 1, h)

/-- Where an edge comes from. -/
def comesFrom (cross : List Cross) (edge : List Edge) (e : Nat) : Res (Nat × Char) := do
  let r ← rd edge e
  let (_, t) ← positions cross edge e
  .ok (r.tail + 1, t)

/-- The entries for positions a, b, c, d of a crossing (plcTopology.c 217-253). -/
def entries (cross : List Cross) (edge : List Edge) (cr : Nat) : Res (List (Nat × Char)) := do
  let x ← rd cross cr
  let (ce, ae) ← overstrand cross edge cr
  let a ← leadsTo cross edge ae
  let c ← comesFrom cross edge ce
  if x.sign = .pos then do
    let (be, de) ← understrand cross edge cr
    let b ← comesFrom cross edge be
    let d ← leadsTo cross edge de
    .ok [a, b, c, d]
  else do
    let (de, be) ← understrand cross edge cr
    let b ← leadsTo cross edge be
    let d ← comesFrom cross edge de
    .ok [a, b, c, d]

/-- A line of the code (plcTopology.c 209-213, 255-263). -/
def line (cr : Nat) (s : Or) (l : List (Nat × Char)) : List Char :=
  dec (cr + 1) ++ [if s = .pos then '+' else '-'] ++ (l.flatMap fun p => dec p.1 ++ [p.2]) ++ str "\n"

/-- The lines from crossing `cr` on; `used` characters have been written (plcTopology.c 207-272). -/
def lines (cross : List Cross) (edge : List Edge) : Nat → Nat → Nat → Res (List Char)
  | 0, _, _ => .ok []
  | k + 1, cr, used => do
    let x ← rd cross cr
    let l ← entries cross edge cr
    let t := line cr x.sign l
    if used + t.length ≥ 256 * cross.length then .error .die
    else do
      let r ← lines cross edge k (cr + 1) (used + t.length)
      .ok (t ++ r)

/-- `pdcode_to_ccode` (plcTopology.c 193-281). The buffer of `256 * ncross` characters must have room for the
two characters at the end and the terminating 0; without it (as for 0 crossings) there is no string. -/
def toCcode (cross : List Cross) (edge : List Edge) : Res (List Char) := do
  let t ← lines cross edge cross.length 0 0
  if t.length + 3 ≤ 256 * cross.length then .ok (t ++ str "\n\n")
  else .error .ub

end Plc.Ewing
