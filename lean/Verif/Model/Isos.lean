import Verif.Model.Edgemap

/-! # Building and checking isomorphisms (`src/pd_isomorphisms.c`) -/

namespace Plc.Isos

open Plc.Cmp Plc.PermM Plc.Emap

/-- `pdint_in_cyclic_order` (pd_isomorphisms.c 1829-1851), on 32-bit unsigned numbers. -/
def inCyclicOrder (a b n : Nat) (o : Or) : Res Bool := do
  assertC (orOk o)
  if o = .pos then
    .ok (decide (b = (a + 1) % 2 ^ 32) || (decide (b = 0) && decide (a = (n + 2 ^ 32 - 1) % 2 ^ 32)))
  else
    .ok (decide (b = (a + 2 ^ 32 - 1) % 2 ^ 32) || (decide (b = (n + 2 ^ 32 - 1) % 2 ^ 32) && decide (a = 0)))

/-- The inner loop of `pdint_buffers_cycliceq` (pd_isomorphisms.c 1879-1888), from position `i` on. -/
def sameAt (bcopy : List Nat) (n ofs : Nat) : Nat → List Nat → Res Bool
  | _, [] => .ok true
  | i, a :: l => do
    let b ← rd bcopy ((i + ofs) % n)
    if a ≠ b then .ok false else sameAt bcopy n ofs (i + 1) l

/-- The loop over offsets (pd_isomorphisms.c 1875-1892); `k` are left. -/
def tryOffsets (bufA bcopy : List Nat) (n : Nat) : Nat → Nat → Res Bool
  | 0, _ => .ok false
  | k + 1, ofs => do
    let b ← sameAt bcopy n ofs 0 (bufA.take n)
    if b then .ok true else tryOffsets bufA bcopy n k (ofs + 1)

/-- The copy loops (pd_isomorphisms.c 1863-1871); `k` are left. -/
def copyBuf (bufB : List Nat) (n : Nat) (o : Or) : Nat → Nat → Res (List Nat)
  | 0, _ => .ok []
  | k + 1, i => do
    let x ← rd bufB (if o = .pos then i else n - 1 - i)
    let r ← copyBuf bufB n o k (i + 1)
    .ok (x :: r)

/-- `pdint_buffers_cycliceq` (pd_isomorphisms.c 1853-1899). Reading `bufA` beyond its end is an error
here only when it is shorter than `n`; callers pass buffers of `n` elements. -/
def buffersCyclicEq (bufA bufB : List Nat) (n : Nat) (o : Or) : Res Bool := do
  let bcopy ← copyBuf bufB n o n 0
  if bufA.length < n then .error .ub
  else tryOffsets bufA bcopy n n 0

/-- `pd_crossmap_t` and `pd_facemap_t` (pd_isomorphisms.h). -/
structure OMap where
  perm : Perm
  orient : Or
  deriving DecidableEq, Repr

/-- The crossing that crossing `x` would map to (pd_isomorphisms.c 989-997). Its sign is never
set in C and never looked at; here it is the sign of `x`. -/
def mapCross (m : List Nat) (x : Cross) (o : Or) : Res Cross := do
  let a ← rd m x.e0
  let b ← rd m x.e1
  let c ← rd m x.e2
  let d ← rd m x.e3
  .ok (Core.canonorderCross ⟨a, b, c, d, x.sign⟩ o)

/-- The loop of `pdint_build_oriented_crossmap` (pd_isomorphisms.c 983-1012). With `signed`, the one of
`pdint_build_oriented_signed_crossmap` (pd_isomorphisms.c 1044-1086). `none`: no crossing found. -/
def crossLoop (bs : BSearch) (signed : Bool) (B : List Cross) (m : List Nat) (o : Or) :
    List Cross → Res (Option (List Nat))
  | [] => .ok (some [])
  | x :: l => do
    let y ← mapCross m x o
    match bs.find (fun z => crossCmp y z) B with
    | none => .ok none
    | some i => do
      let z ← rd B i
      if signed && decide (x.sign ≠ z.sign) then .ok none
      else do
        let r ← crossLoop bs signed B m o l
        match r with
        | none => .ok none
        | some r => .ok (some (i :: r))

/-- `pdint_build_oriented_crossmap` (pd_isomorphisms.c 959-1020) and
`pdint_build_oriented_signed_crossmap` (pd_isomorphisms.c 1022-1094). -/
def orientedCrossmap (bs : BSearch) (signed : Bool) (A B : List Cross) (m : List Nat) (o : Or) :
    Res (Option OMap) := do
  assertC (A.length = B.length)
  let r ← crossLoop bs signed B m o A
  match r with
  | none => .ok none
  | some r => do
    let p ← regenPc bs r
    .ok (some ⟨p, o⟩)

/-- `pd_build_crossmaps` (pd_isomorphisms.c 1097-1136) and `pd_build_signed_crossmaps`
(pd_isomorphisms.c 1138-1176). The single `NULL` map of the crossingless diagram is `none`. -/
def buildCrossmaps (bs : BSearch) (signed : Bool) (A B : List Cross) (m : List Nat) :
    Res (List (Option OMap)) := do
  if A.length = 0 ∧ B.length = 0 then .ok [none]
  else do
    let p ← orientedCrossmap bs signed A B m .pos
    let q ← orientedCrossmap bs signed A B m .neg
    .ok ((match p with | none => [] | some p => [some p]) ++ (match q with | none => [] | some q => [some q]))

end Plc.Isos
