import Verif.Model.Kascent
import Mathlib.Algebra.Order.Field.Basic

/-!
# Hypersimplex sampling (`src/hypersimplex_sampling.c`)

`double` is an arbitrary ordered field `K`: rounding is not modelled.
-/

namespace Plc.Hyper

variable {K : Type} [Field K] [LinearOrder K]

/-- The loop of `psi_inverse` (hypersimplex_sampling.c 59-71), from `i` on, with `todo`
places left; `x` is the part of the buffer written so far. -/
def psiLoop (y : List K) : Nat → Nat → List K → Res (List K)
  | 0, _, x => .ok x
  | todo + 1, i, x => do
    let a ← rd y (i - 1)
    let b ← rd y i
    psiLoop y todo (i + 1) (x ++ [if a < b then b - a else b - a + 1])

/-- `psi_inverse` (hypersimplex_sampling.c 48-73). For n < 2 the buffer of n-1 elements
has no place 0. -/
def psiInverse (n : Nat) (y : List K) : Res (List K) :=
  if n < 2 then .error .ub
  else do
    let a ← rd y 0
    psiLoop y (n - 2) 1 [a]

/-- The partial sums of `hypersimplex_sample` (hypersimplex_sampling.c 131-137), from `i`
on. -/
def sumLoop (theta : List K) : Nat → Nat → List K → Res (List K)
  | 0, _, s => .ok s
  | todo + 1, i, s => do
    let a ← rd s (i - 1)
    let t ← rd theta i
    sumLoop theta todo (i + 1) (s ++ [a + t])

/-- The reordering of `hypersimplex_sample` (hypersimplex_sampling.c 147-154), from `i`
on. -/
def pickLoop (sorted : List K) (perm : List Int) : Nat → Nat → List K → Res (List K)
  | 0, _, x => .ok x
  | todo + 1, i, x => do
    let p ← rd perm i
    let a ← Kasc.rdI sorted (p - 1)
    pickLoop sorted perm todo (i + 1) (x ++ [a])

/-- `hypersimplex_sample` (hypersimplex_sampling.c 75-169). `theta` is what
`gsl_ran_dirichlet` wrote; the buffer `perm` (of n `int`s, malloc'ed) has unknown
contents `junk`. Like `psi_inverse` it writes `sorted_x[0]` of n-1 places. -/
def hypersimplexSample (tab : List Rat) (u : Nat → Rat) (v : Nat → Nat) (theta : List K) (junk : List Int)
    (k n : Nat) : Res (List K) :=
  if n < 2 then .error .ub
  else do
    let t ← rd theta 0
    let sorted ← sumLoop theta (n - 2) 1 [t]
    let perm ← Kasc.randomKDescent tab u v (n - 1) ((k : Int) - 1) junk
    let x ← pickLoop sorted perm (n - 1) 0 []
    psiInverse n x

end Plc.Hyper
