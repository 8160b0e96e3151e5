import Verif.Model.Basic

/-!
# Constraints on the vertices of a curve (`src/plCurve.c`)

The linked list is a list. The two vectors of a constraint are one value of a type `V` whose equality is `memcmp` of
their bytes. `int` arithmetic is taken not to overflow; `nv` lists the numbers of vertices of the components.
-/

namespace Plc.Cst

/-- `plc_cst_kind` (plCurve.h 111-116). -/
inductive Kind where
  | unconstrained
  | fixed
  | line
  | plane
  deriving DecidableEq, Repr

/-- `plc_constraint` (plCurve.h 118-125). -/
structure Cst (V : Type) where
  kind : Kind
  vect : V
  cmp : Nat
  vert : Int
  num : Int
  deriving DecidableEq, Repr

variable {V : Type} [DecidableEq V]

/-- The first loop of `overrun_check` (plCurve.c 476-505): the constraint and the list behind it, afterwards. When
the next one is shortened it starts where this one ends, so the loop stops. -/
def overlap : Cst V → List (Cst V) → Cst V × List (Cst V)
  | c, [] => (c, [])
  | c, n :: t =>
    if n.cmp = c.cmp ∧ n.vert < c.vert + c.num then
      if n.vert + n.num ≤ c.vert + c.num then overlap c t
      else if n.kind = c.kind ∧ c.kind ≠ .fixed ∧ n.vect = c.vect then
        overlap { c with num := n.vert + n.num - c.vert } t
      else (c, { n with num := n.num - (c.vert + c.num - n.vert), vert := c.vert + c.num } :: t)
    else (c, n :: t)

/-- The second loop of `overrun_check` (plCurve.c 507-518). It does not look at the component. -/
def adjacent : Cst V → List (Cst V) → Cst V × List (Cst V)
  | c, [] => (c, [])
  | c, n :: t =>
    if n.vert = c.vert + c.num ∧ n.kind = c.kind ∧ c.kind ≠ .fixed ∧ n.vect = c.vect then
      adjacent { c with num := n.vert + n.num - c.vert } t
    else (c, n :: t)

/-- `overrun_check` (plCurve.c 472-519). -/
def overrun (c : Cst V) (t : List (Cst V)) : Cst V × List (Cst V) :=
  let p := overlap c t
  adjacent p.1 p.2

/-- `overrun_check` as a list. -/
def overrunList (c : Cst V) (t : List (Cst V)) : List (Cst V) :=
  let p := overrun c t
  p.1 :: p.2

/-- The condition of the seeking loop (plCurve.c 551-555). -/
def before (cmp : Nat) (vert : Int) (c : Cst V) : Bool :=
  c.cmp < cmp || (c.cmp = cmp && c.vert + c.num ≤ vert)

/-- The range of `c` extended to include `[vert, vert+num)` (plCurve.c 581-583 and 593-595). -/
def extend (c : Cst V) (vert num : Int) : Cst V :=
  { c with vert := min vert c.vert, num := max (vert + num) (c.vert + c.num) - min vert c.vert }

/-- Whether the last one passed can be extended (plCurve.c 572-578). -/
def extPrev (kind : Kind) (vect : V) (cmp : Nat) (vert : Int) (p : Cst V) : Bool :=
  kind ≠ .fixed ∧ p.kind = kind ∧ p.cmp = cmp ∧ p.vert + p.num ≥ vert ∧ p.vect = vect

/-- Whether the one found can be extended (plCurve.c 585-590). -/
def extNext (kind : Kind) (vect : V) (cmp : Nat) (vert num : Int) (c : Cst V) : Bool :=
  kind ≠ .fixed ∧ c.kind = kind ∧ c.cmp = cmp ∧ c.vert ≤ vert + num ∧ c.vect = vect

/-- What replaces the rest of the list, from the place the seeking stopped on, when the last one passed is not
extended (plCurve.c 584-645). -/
def place (kind : Kind) (vect : V) (cmp : Nat) (vert num : Int) : List (Cst V) → List (Cst V)
  | [] => if kind ≠ .unconstrained then [⟨kind, vect, cmp, vert, num⟩] else []
  | c :: t =>
    if extNext kind vect cmp vert num c then overrunList (extend c vert num) t
    else if c.cmp > cmp ∨ c.vert ≥ vert + num then
      if kind ≠ .unconstrained then ⟨kind, vect, cmp, vert, num⟩ :: c :: t else c :: t
    else if c.vert < vert then
      if c.vert + c.num > vert + num then
        let left : Cst V := { c with num := vert - c.vert }
        let right : Cst V := { c with vert := vert + num, num := c.num - (vert + num - c.vert) }
        if kind ≠ .unconstrained then left :: ⟨kind, vect, cmp, vert, num⟩ :: right :: t else left :: right :: t
      else
        let p := overrun ⟨kind, vect, cmp, vert, num⟩ t
        { c with num := vert - c.vert } :: (if kind = .unconstrained then p.2 else p.1 :: p.2)
    else
      let p := overrun ⟨kind, vect, cmp, vert, num⟩ (c :: t)
      if kind = .unconstrained then p.2 else p.1 :: p.2

/-- The list of constraints after the arguments are checked (plCurve.c 541-655). -/
def insert (kind : Kind) (vect : V) (cmp : Nat) (vert num : Int) (l : List (Cst V)) : List (Cst V) :=
  let passed := l.takeWhile (before cmp vert)
  let rest := l.dropWhile (before cmp vert)
  match passed.getLast? with
  | some p =>
    if extPrev kind vect cmp vert p then passed.dropLast ++ overrunList (extend p vert num) rest
    else passed ++ place kind vect cmp vert num rest
  | none => place kind vect cmp vert num rest

/-- The assertions at the start of `plc_set_constraint` (plCurve.c 533-540). -/
def valid (nv : List Nat) (kind : Kind) (cmp : Nat) (vert num : Int) : Bool :=
  match nv[cmp]? with
  | none => false
  | some n => 0 ≤ vert ∧ vert < (n : Int) ∧ 1 ≤ num ∧ vert + num ≤ (n : Int) ∧ (kind ≠ .fixed ∨ num = 1)

/-- `plc_set_constraint` (plCurve.c 522-655). -/
def set (nv : List Nat) (l : List (Cst V)) (cmp : Nat) (vert num : Int) (kind : Kind) (vect : V) : Res (List (Cst V)) := do
  assertC (valid nv kind cmp vert num)
  .ok (insert kind vect cmp vert num l)

/-- `plc_remove_constraint` (plCurve.c 705-736): the list and the number of vertices returned. `same` is the
comparison by `plc_M_vecteq` with the vectors given. -/
def remove (kind : Kind) (same : V → Bool) : List (Cst V) → Int × List (Cst V)
  | [] => (0, [])
  | c :: t =>
    let p := remove kind same t
    if c.kind = kind ∧ same c.vect then (c.num + p.1, p.2) else (p.1, c :: p.2)

/-- `plc_is_constrained` (plCurve.c 754-776): the constraint found. -/
def isConstrained (l : List (Cst V)) (cp : Nat) (vt : Int) : Option (Cst V) :=
  l.find? (fun c => c.cmp = cp ∧ c.vert ≤ vt ∧ c.vert + c.num > vt)

end Plc.Cst
