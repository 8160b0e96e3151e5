import Verif.Model.Poly
import Verif.Model.Vect

/-!
# Reading polynomials written by KnotTheory (`src/polynomials.c` 631-690)
-/

namespace Plc.Poly

open Plc.Io Plc.Vect

/-- The parts of a text between the signs `+`. -/
def splitPlus : List Char → List (List Char)
  | [] => [[]]
  | c :: t =>
    if c = '+' then [] :: splitPlus t
    else
      match splitPlus t with
      | [] => [[c]]
      | w :: ws => (c :: w) :: ws

/-- The results of `strtok(.., "+")` (663): the parts that are not empty. -/
def plusTokens (s : List Char) : List (List Char) := (splitPlus s).filter (fun w => w ≠ [])

/-- A letter and `^`, after white space. -/
def letter (c : Char) (s : List Char) : Option (List Char) :=
  match skip s with
  | d :: '^' :: r => if d = c then some r else none
  | _ => none

/-- `sscanf(monostring," %d a^%d z^%d ",...)` (672-673); `none` if fewer than three numbers are read. -/
def scanKt (s : List Char) : Res (Option Mono) := do
  match ← scanD s with
  | none => .ok none
  | some (c, r) =>
    match letter 'a' r with
    | none => .ok none
    | some r => do
      match ← scanD r with
      | none => .ok none
      | some (l, r) =>
        match letter 'z' r with
        | none => .ok none
        | some r => do
          match ← scanD r with
          | none => .ok none
          | some (m, _) => .ok (some ⟨c, l, m⟩)

/-- The loop over the monomials (663-681). `pd_error` is taken to stop the program. -/
def ktLoop : Nat → List (List Char) → Res (List Mono)
  | 0, _ => .ok []
  | _ + 1, [] => .error .die
  | n + 1, w :: ws => do
    match ← scanKt w with
    | none => .error .die
    | some x => do
      let r ← ktLoop n ws
      .ok (x :: r)

/-- `sizeof(homfly_polynomial_t)` and `sizeof(homfly_polynomial_t *)` where pointers have eight bytes. -/
def sizeHomfly : Nat := 16
def sizePtr : Nat := 8

/-- `KnotTheory_to_polynomial` (631-690), where the allocation of `sizeof(homfly_polynomial_t *)` bytes (653) has room for `bytes` bytes. -/
def ofKnotTheory (bytes : Nat) (Q : QSort) (s : List Char) : Res (List Mono) :=
  if bytes < sizeHomfly then .error .ub
  else do
    let p ← ktLoop (1 + s.count '+') (plusTokens s)
    .ok (Q.sort mle p)

end Plc.Poly
