import Verif.Model.Perm

/-! # Sorted index buffers and compacting copies
(`src/pd_sortedbuf.c`, `src/pd_crossingmoves.c` 46-272) -/

namespace Plc.Buffers

open Plc.PermM (BSearch)

/-- `pd_idx_cmp` (pd_crossingmoves.c 46-52): `(a > b) - (a < b)`. -/
def idxCmp (a b : Nat) : Int := (if a > b then 1 else 0) - (if a < b then 1 else 0)

/-- `pd_sortedbuf_contains` (pd_sortedbuf.c 41-51). -/
def contains (bs : BSearch) (buf : List Nat) (i : Nat) : Bool :=
  (bs.find (fun e => idxCmp i e) buf).isSome

/-- The copy loop of `pd_sortedbuf_insert` (pd_sortedbuf.c 108-119), `r` rounds left.
Returns the new buffer and the final `i` and `j`. -/
def insLoop (buf : List Nat) (ins : Nat) : Nat → Nat → Nat → List Nat → Res (List Nat × Nat × Nat)
  | 0, i, j, nb => .ok (nb, i, j)
  | r + 1, i, j, nb => do
    let p ← rd buf (i - 1)
    let x ← rd buf i
    if p < ins ∧ ins < x then do
      let nb ← wr nb j ins
      let nb ← wr nb (j + 1) x
      insLoop buf ins r (i + 1) (j + 2) nb
    else do
      let nb ← wr nb j x
      insLoop buf ins r (i + 1) (j + 1) nb

/-- `pd_sortedbuf_insert` (pd_sortedbuf.c 53-131). `none` is a `NULL` buffer; the element
count is the length. `junk` is what `malloc` leaves in the new buffer. -/
def insert (bs : BSearch) (junk : Nat) (buf : Option (List Nat)) (ins : Nat) :
    Res (List Nat) :=
  match buf with
  | none => .ok [ins]
  | some buf =>
    if buf.length = 0 then .error .die
    else if (bs.find (fun e => idxCmp ins e) buf).isSome then .ok buf
    else do
      let nb := List.replicate (buf.length + 1) junk
      let b0 ← rd buf 0
      if ins < b0 then .ok (ins :: buf)
      else do
        let nb ← wr nb 0 b0
        let (nb, i, j) ← insLoop buf ins (buf.length - 1) 1 1 nb
        if i = j then wr nb j ins else .ok nb

/-- The scan for duplicates (pd_crossingmoves.c 118-131) on a sorted buffer; `last` is
`uniquedeletions[j-1]`. -/
def dedupFrom (last : Nat) : List Nat → List Nat
  | [] => []
  | d :: ds => if last ≠ d then d :: dedupFrom d ds else dedupFrom last ds

def dedup : List Nat → List Nat
  | [] => []
  | d :: ds => d :: dedupFrom d ds

/-- Main loop of `pd_compacting_copy` (pd_crossingmoves.c 176-200), over the remaining
source elements. `dels[deletions_i]` is read only while `all_deletions_used` is false. -/
def copyLoop {α : Type} (dels : List Nat) :
    List α → Nat → Nat → Nat → Bool → List α → List Nat → Res (List α × List Nat)
  | [], _, _, _, _, target, tidx => .ok (target, tidx)
  | a :: src, si, ti, di, used, target, tidx => do
    let hit ← (if used then .ok false else do
      let d ← rd dels di
      .ok (decide (si = d)) : Res Bool)
    if hit then do
      let tidx ← wr tidx si UNSET_IDX
      copyLoop dels src (si + 1) ti (di + 1) (decide (di + 1 ≥ dels.length)) target tidx
    else do
      let target ← wr target ti a
      let tidx ← wr tidx si ti
      copyLoop dels src (si + 1) (ti + 1) di used target tidx

/-- `pd_compacting_copy` (pd_crossingmoves.c 54-204): returns the copied elements (an
empty list where the C code returns `NULL`) and the index map. `zero` is an object of
zero bytes, as `calloc` leaves it. `*ntarget` is the length of the first result. -/
def compactingCopy {α : Type} (qs : QSort) (zero : α) (source : List α) (deletions : List Nat) :
    Res (List α × List Nat) :=
  if deletions.length = 0 then .ok (source, List.range source.length)
  else do
    let sorted := qs.sort (fun a b => decide (idxCmp a b ≤ 0)) deletions
    let uniq := dedup sorted
    assertC (uniq.all (fun d => decide (d < source.length)))
    if uniq.length = source.length then
      .ok ([], List.replicate source.length UNSET_IDX)
    else do
      assertC (uniq.length < source.length)
      copyLoop uniq source 0 0 0 false
        (List.replicate (source.length - uniq.length) zero) (List.replicate source.length 0)

/-- The two scanning loops of `pd_transform_and_compact_indices` (pd_crossingmoves.c
219-225 and 246-251): positions whose transform is unset. -/
def scanUnset (transform : List Nat) : List Nat → Nat → Res (List Nat)
  | [], _ => .ok []
  | s :: src, i => do
    let t ← rd transform s
    let r ← scanUnset transform src (i + 1)
    .ok (if t = UNSET_IDX then i :: r else r)

/-- The final loop (pd_crossingmoves.c 264-268). -/
def transformAll (transform : List Nat) : List Nat → Res (List Nat)
  | [] => .ok []
  | s :: src => do
    let t ← rd transform s
    let r ← transformAll transform src
    .ok (t :: r)

/-- `pd_transform_and_compact_indices` (pd_crossingmoves.c 206-272). -/
def transformAndCompact (qs : QSort) (source transform : List Nat) : Res (List Nat) := do
  let dels ← scanUnset transform source 0
  let (t, _) ← compactingCopy qs 0 source dels
  transformAll transform t

end Plc.Buffers
