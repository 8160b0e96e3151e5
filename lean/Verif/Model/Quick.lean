import Verif.Model.Basic

/-! # The two sorts of octrope (`src/octrope.c` 173-288)

`sort_varr` sorts pointers by one coordinate of what they point to, `sort_oct` sorts edges by their octal tag. They are the same algorithm with
one difference: before it looks for the end of the lower part, `sort_oct` reads the element before the part to be sorted if the pivot ended up
at its start. Both are modelled by one function; `lt` is the order (`<`, `o_l`), `>=` and `o_ge` are its negation, `==` and `o_e` that neither is
less. Indices are natural numbers: `h` is `-1` only for no elements, when nothing is done. -/

namespace Plc.Quick

variable {α : Type}

/-- What is read when the pivot is at the start: nothing (`sort_varr`, 227), or the element before (`sort_oct`, 276-277), which at the start of
the array is whatever is there in memory, if anything. -/
inductive Front (α : Type) where
  | careful
  | peek (x : Option α)

/-- `temp = A[i]; A[i] = A[j]; A[j] = temp`. -/
def swap (A : List α) (i j : Nat) : Res (List α) := do
  let a ← rd A i
  let b ← rd A j
  let A ← wr A i b
  wr A j a

/-- Making room for `temp` (182-185, 247-250). -/
def shift (lt : α → α → Bool) (temp : α) (l : Nat) : Nat → List α → Res (Nat × List α)
  | 0, A => .ok (0, A)
  | t + 1, A =>
    if l < t + 1 then do
      let a ← rd A t
      if lt temp a then do
        let A ← wr A (t + 1) a
        shift lt temp l t A
      else .ok (t + 1, A)
    else .ok (t + 1, A)

/-- The insertion sort (179-187, 244-252): `k` elements from `s` on are still to be inserted. -/
def insLoop (lt : α → α → Bool) (l : Nat) : Nat → Nat → List α → Res (List α)
  | 0, _, A => .ok A
  | k + 1, s, A => do
    let temp ← rd A s
    let r ← shift lt temp l s A
    let A ← wr r.2 r.1 temp
    insLoop lt l k (s + 1) A

/-- Putting the median of three into `A[h]` (192-203, 256-266). -/
def median (lt : α → α → Bool) (l s h : Nat) (A : List α) : Res (List α) := do
  let al ← rd A l
  let as ← rd A s
  let ah ← rd A h
  if lt ah as then
    (if lt as al then swap A h s else if lt ah al then swap A h l else .ok A)
  else if lt al as then swap A h s
  else if lt al ah then swap A h l
  else .ok A

/-- `while (A[s] < pivot && s < h) s++` (208, 270). -/
def scanUp (lt : α → α → Bool) (p : α) (h : Nat) (A : List α) : Nat → Nat → Res Nat
  | 0, s => .ok s
  | k + 1, s => do
    let a ← rd A s
    if lt a p = true ∧ s < h then scanUp lt p h A k (s + 1) else .ok s

/-- `while (A[t] >= pivot && t > l) t--` (210, 272). -/
def scanDown (lt : α → α → Bool) (p : α) (l : Nat) (A : List α) : Nat → Res Nat
  | 0 => do
    let _ ← rd A 0
    .ok 0
  | t + 1 => do
    let a ← rd A (t + 1)
    if lt a p = false ∧ l < t + 1 then scanDown lt p l A t else .ok (t + 1)

/-- The loop of the partition (206-213, 268-275), after `s++`. -/
def parLoop (lt : α → α → Bool) (p : α) (l h : Nat) : Nat → Nat → Nat → List α → Res (Nat × List α)
  | 0, s, _, A => .ok (s, A)
  | k + 1, s, t, A => do
    let s' ← scanUp lt p h A A.length s
    let t' ← scanDown lt p l A (t - 1)
    if t' ≤ s' then .ok (s', A)
    else do
      let A ← swap A s' t'
      parLoop lt p l h k (s' + 1) t' A

/-- Neither is less than the other. -/
def same (lt : α → α → Bool) (a b : α) : Bool := !lt a b && !lt b a

/-- Skipping elements equal to the pivot downwards (216, 278). -/
def skipDown (lt : α → α → Bool) (p : α) (l : Nat) (A : List α) : Nat → Res Nat
  | 0 => do
    let _ ← rd A 0
    .ok 0
  | s + 1 => do
    let a ← rd A (s + 1)
    if same lt a p = true ∧ l < s + 1 then skipDown lt p l A s else .ok (s + 1)

/-- The end of the lower part (215-216, 276-278). If the pivot is at `l`, then `s` is `l` in `sort_varr` and `l-1` in `sort_oct`: in both
cases nothing is sorted. -/
def lowEnd (lt : α → α → Bool) (front : Front α) (p : α) (l s : Nat) (A : List α) : Res Nat :=
  if s = l then
    match front with
    | .careful => .ok l
    | .peek x => if l = 0 then (match x with | none => .error .ub | some _ => .ok l) else do
        let _ ← rd A (l - 1)
        .ok l
  else skipDown lt p l A (s - 1)

/-- Skipping elements equal to the pivot upwards (221, 284). -/
def skipUp (lt : α → α → Bool) (p : α) (h : Nat) (A : List α) : Nat → Nat → Res Nat
  | 0, s => .ok s
  | k + 1, s => do
    let a ← rd A s
    if same lt a p = true ∧ s < h then skipUp lt p h A k (s + 1) else .ok s

/-- `sort_varr` (173-226), `sort_oct` (237-288). The first argument bounds the depth of the recursion; the number of elements is enough. -/
def sort (lt : α → α → Bool) (front : Front α) : Nat → Nat → Nat → List α → Res (List α)
  | 0, _, _, A => .ok A
  | f + 1, l, h, A =>
    if h ≤ l + 10 then insLoop lt l (h - l) (l + 1) A
    else do
      let A ← median lt l ((h + l) / 2) h A
      let p ← rd A h
      let r ← parLoop lt p l h A.length l h A
      let A ← swap r.2 r.1 h
      let lo ← lowEnd lt front p l r.1 A
      let A ← (if l < lo then sort lt front f l lo A else .ok A)
      let hi ← skipUp lt p h A A.length (r.1 + 1)
      if hi < h then sort lt front f hi h A else .ok A

end Plc.Quick
