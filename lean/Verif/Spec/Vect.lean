import Verif.Model.Vect
import Verif.Spec.Constraint

/-!
# What a VECT file keeps of a curve
-/

namespace Plc.Vect

open Plc.Io Plc.Cst

variable {N : NumFmt}

/-- A vector with its coordinates rounded to 16 digits. -/
def round16 (v : V3 N) : V3 N := (N.r16 v.1, N.r16 v.2.1, N.r16 v.2.2)

/-- A vector with its coordinates rounded to 6 digits. -/
def round6 (v : V3 N) : V3 N := (N.r6 v.1, N.r6 v.2.1, N.r6 v.2.2)

/-- Kind and vectors of a constraint with 6 digits of what the kind uses: the point of a fixed vertex, both vectors of
a line, normal vector and distance of a plane. -/
def roundKey (k : Kind × VV N) : Kind × VV N :=
  match k.1 with
  | .fixed => (.fixed, round6 k.2.1, zero3 N)
  | .line => (.line, round6 k.2.1, round6 k.2.2)
  | .plane => (.plane, round6 k.2.1, (N.r6 k.2.2.1, N.zero, N.zero))
  | .unconstrained => k

/-- The component with its coordinates and colours rounded to 16 digits. Components of one or two vertices become open;
the two hidden vertices are what the ends of the component make them. -/
def roundStrand (s : Strand N) : Strand N :=
  let vt := s.vt.map round16
  let isOpen := s.isOpen || decide (s.vt.length ≤ 2)
  { isOpen := isOpen
    vt := vt
    clr := s.clr.map (fun c => (N.r16 c.1, N.r16 c.2.1, N.r16 c.2.2.1, N.r16 c.2.2.2))
    lo := if s.vt.length = 1 then zero3 N else if isOpen then vt.getD 1 (zero3 N) else vt.getD (s.vt.length - 1) (zero3 N)
    hi := if s.vt.length = 1 then zero3 N else if isOpen then vt.getD (s.vt.length - 2) (zero3 N) else vt.getD 0 (zero3 N) }

/-- Curves built with the library: at least one component, each with a vertex and no more colours than vertices, sizes
that are `int`s, constraints as `plc_set_constraint` leaves them (C44). -/
structure Proper (L : Curve N) : Prop where
  comps : L.cp ≠ []
  verts : ∀ s ∈ L.cp, 1 ≤ s.vt.length ∧ s.clr.length ≤ s.vt.length
  small : L.cp.length ≤ intMax ∧ (L.cp.map fun s => s.vt.length).sum ≤ intMax
  tidy : Tidy L.cst
  inside : ∀ c ∈ L.cst, 0 ≤ c.vert ∧ (c.kind = .fixed → c.num = 1) ∧
    ∃ s, L.cp[c.cmp]? = some s ∧ c.vert + c.num ≤ (s.vt.length : Int)

/-- The line of each vertex, with the number of its constraint (two digits at most), fits into 79 characters. -/
def ShortLines (L : Curve N) : Prop :=
  ∀ (p : Nat) (s : Strand N) (v : Nat) (x : V3 N), L.cp[p]? = some s → s.vt[v]? = some x →
    (N.p16 x.1).length + (N.p16 x.2.1).length + (N.p16 x.2.2).length + 2 +
      (if (answer L.cst p v).isSome then 10 else 0) ≤ 79

end Plc.Vect
