/-!
# Outcomes, buffers and records

Shared vocabulary of the model: what a C function can do instead of returning
(`Fault`), how buffers are read and written, and the records of `plcTopology.h`.
-/

namespace Plc

/-- What can happen instead of a normal return.
`ub`  : undefined behaviour (out-of-bounds access, use of an unset value);
`die` : a failed `assert` or a call of `exit(1)`. -/
inductive Fault where
  | ub
  | die
  deriving DecidableEq, Repr

/-- Result of a C function. -/
abbrev Res (α : Type) := Except Fault α

/-- Read `buf[i]`; outside the buffer this is undefined behaviour. -/
def rd {α : Type} (l : List α) (i : Nat) : Res α :=
  match l[i]? with
  | some a => .ok a
  | none => .error .ub

/-- Write `buf[i] = a`; outside the buffer this is undefined behaviour. -/
def wr {α : Type} (l : List α) (i : Nat) (a : α) : Res (List α) :=
  if i < l.length then .ok (l.set i a) else .error .ub

/-- `assert(b)`. -/
def assertC (b : Bool) : Res Unit := if b then .ok () else .error .die

/-- `pd_or_t` (plcTopology.h): `PD_POS_ORIENTATION` = 1, `PD_NEG_ORIENTATION` = 0,
`PD_UNSET_ORIENTATION` = 2. Other byte values are never produced by the library and
are not modelled. -/
inductive Or where
  | pos
  | neg
  | unset
  deriving DecidableEq, Repr, Inhabited

/-- `pd_edge_t` (plcTopology.h). -/
structure Edge where
  head : Nat
  headpos : Nat
  tail : Nat
  tailpos : Nat
  deriving DecidableEq, Repr, Inhabited

/-- `pd_crossing_t` (plcTopology.h): `edge[4]` in counterclockwise order, and the
sign. The array of four is four fields. -/
structure Cross where
  e0 : Nat
  e1 : Nat
  e2 : Nat
  e3 : Nat
  sign : Or
  deriving DecidableEq, Repr, Inhabited

/-- `cr.edge[k]`, for `k` taken modulo 4. -/
def Cross.at (c : Cross) (k : Nat) : Nat :=
  match k % 4 with
  | 0 => c.e0
  | 1 => c.e1
  | 2 => c.e2
  | _ => c.e3

/-- `cr.edge[k]` as the C code reads it: outside 0..3 is undefined behaviour. -/
def Cross.rdPos (c : Cross) (k : Nat) : Res Nat :=
  if k < 4 then .ok (c.at k) else .error .ub

/-- `cr.edge[k] = e`. -/
def Cross.wrPos (c : Cross) (k : Nat) (e : Nat) : Res Cross :=
  match k with
  | 0 => .ok { c with e0 := e }
  | 1 => .ok { c with e1 := e }
  | 2 => .ok { c with e2 := e }
  | 3 => .ok { c with e3 := e }
  | _ => .error .ub

/-- `PD_UNSET_IDX` = `UINT_MAX` (plcTopology.h). -/
def UNSET_IDX : Nat := 4294967295

/-- `qsort`, as the C standard describes it: for a comparison function that is a
consistent order on the elements, the result is some sorted rearrangement. Which of
several sorted rearrangements (ties) is not specified, so theorems quantify over all
`QSort`. -/
structure QSort where
  sort : {α : Type} → (le : α → α → Bool) → List α → List α
  perm : ∀ {α : Type} (le : α → α → Bool) (l : List α), (sort le l).Perm l
  sorted : ∀ {α : Type} (le : α → α → Bool) (l : List α),
    (∀ a b, a ∈ l → b ∈ l → (le a b || le b a) = true) →
    (∀ a b c, a ∈ l → b ∈ l → c ∈ l → le a b = true → le b c = true → le a c = true) →
    (sort le l).Pairwise (fun a b => le a b = true)

end Plc
