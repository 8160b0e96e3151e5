import Verif.Model.Components

/-! # `plc_delete_arc` (/repo/src/plCurve.c 2897-3006) -/

namespace Plc.Vect

open Plc.Io Plc.Cst

variable {N : NumFmt}

/-- Reading `vt[i]` for the given numbers. -/
def readAt (s : Strand N) : List Int → Res (List (V3 N))
  | [] => .ok []
  | i :: is => do
    let v ← vertAt s i
    let r ← readAt s is
    .ok (v :: r)

/-- The copy of a component, after its first vertices have been overwritten and `nv` has been set; the memory is that of `nv + 2`
vertices. Afterwards `plc_fix_wrap` reads `vt[nv-2]`, so `nv` must be at least 1. -/
def cutTo (s : Strand N) (new : List (V3 N)) (nv : Int) (isOpen : Bool) : Res (Strand N) :=
  if new.length > s.vt.length + 1 ∨ nv < 1 ∨ nv > (s.vt.length : Int) then .error .ub
  else
    let b := new ++ (s.vt ++ [s.hi]).drop new.length
    .ok { s with isOpen := isOpen, vt := b.take nv.toNat, hi := b.getD nv.toNat (zero3 N) }

/-- Component `cp` of the copy replaced, and `plc_fix_wrap`. -/
def replaceComp (L : Curve N) (cp : Nat) (s : Strand N) : Curve N := fixWrapAll { L with cp := L.cp.set cp s }

/-- The numbers read when `k` vertices of a closed component are kept: `(vt + vt2 + 1) % nv`, with the remainder of C. -/
def keptAround (k vt2 nv : Int) : List Int := (List.range k.toNat).map fun (vt : Nat) => ((vt : Int) + vt2 + 1).tmod nv

/-- `plc_delete_arc` (2897-3006). -/
def deleteArc (L : Curve N) (cp vt1 vt2 : Int) : Res (Curve N) := do
  let newL ← copy L
  let newL : Curve N := { newL with cst := [] }
  let s ← if cp < 0 then .error .ub else rd L.cp cp.toNat
  let nv : Int := s.vt.length
  if s.isOpen then
    if vt1 > vt2 then .ok newL
    else if vt1 ≤ 0 then
      if vt2 ≥ nv - 1 then do
        let newL ← dropComponent newL cp
        .ok (fixWrapAll newL)
      else do
        let new ← readAt s ((List.range (nv - vt2).toNat).map fun (vt : Nat) => (vt : Int) + vt2 + 1)
        let t ← cutTo s new (nv - (vt2 + 1)) true
        .ok (replaceComp newL cp.toNat t)
    else if vt2 ≥ nv - 1 then do
      let t ← cutTo s [] vt1 true
      .ok (replaceComp newL cp.toNat t)
    else do
      let newL ← addComponent newL (cp + 1) (nv - (vt2 + 1)) true 0 (s.vt.drop (vt2 + 1).toNat) none
      let t ← cutTo s [] vt1 true
      .ok (replaceComp newL cp.toNat t)
  else if vt1 = vt2 + 1 ∨ (vt1 ≤ 0 ∧ vt2 ≥ nv - 1) then do
    let newL ← dropComponent newL cp
    .ok (fixWrapAll newL)
  else if vt1 ≤ vt2 then do
    let new ← readAt s (keptAround (nv - ((vt2 - vt1) + 1)) vt2 nv)
    let t ← cutTo s new (nv - ((vt2 - vt1) + 1)) true
    .ok (replaceComp newL cp.toNat t)
  else do
    let new ← readAt s (keptAround (vt1 - vt2 - 1) vt2 nv)
    let t ← cutTo s new (vt1 - vt2 - 1) true
    .ok (replaceComp newL cp.toNat t)

end Plc.Vect
