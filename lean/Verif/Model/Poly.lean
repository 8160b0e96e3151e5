import Verif.Model.Basic

/-!
# HOMFLY polynomials as lists of monomials (`src/polynomials.c`)

`int` arithmetic, including the differences in `monomial_cmp`, is taken not to overflow.
-/

namespace Plc.Poly

/-- `monomial_t` (plcTopology.h): coefficient and the powers of `l` and `m`. -/
structure Mono where
  coeff : Int
  l : Int
  m : Int
  deriving DecidableEq, Repr

/-- `monomial_cmp` (polynomials.c 34-54). -/
def mcmp (a b : Mono) : Int :=
  if a.l ≠ b.l then a.l - b.l
  else if a.m ≠ b.m then a.m - b.m
  else a.coeff - b.coeff

def mle (a b : Mono) : Bool := mcmp a b ≤ 0

/-- The product of all pairs (polynomials.c 346-352). -/
def raw (a b : List Mono) : List Mono :=
  a.flatMap (fun x => b.map (fun y => ⟨x.coeff * y.coeff, x.l + y.l, x.m + y.m⟩))

/-- The scan that adds up equal powers (polynomials.c 373-388): `cur` is the monomial being filled. -/
def collect : Mono → List Mono → List Mono
  | cur, [] => [cur]
  | cur, x :: t =>
    if x.m = cur.m ∧ x.l = cur.l then collect { cur with coeff := cur.coeff + x.coeff } t else cur :: collect x t

/-- `product_polynomial` (polynomials.c 332-395). With an empty factor `rawProduct[0]` is read from a buffer of
size 0. -/
def product (Q : QSort) (a b : List Mono) : Res (List Mono) :=
  match Q.sort mle (raw a b) with
  | [] => .error .ub
  | x :: t => .ok (collect x t)

/-- The loop of `polynomials_eq` (polynomials.c 703-711). -/
def sameLoop : List Mono → List Mono → Bool
  | [], _ => true
  | _ :: _, [] => true
  | x :: s, y :: t => if mcmp x y ≠ 0 then false else sameLoop s t

/-- `polynomials_eq` (polynomials.c 692-714). -/
def eq (Q : QSort) (a b : List Mono) : Bool :=
  if a.length ≠ b.length then false else sameLoop (Q.sort mle a) (Q.sort mle b)

end Plc.Poly
