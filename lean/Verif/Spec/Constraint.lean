import Verif.Model.Constraint

/-! # What constraints say about vertices -/

namespace Plc.Cst

variable {V : Type} [DecidableEq V]

/-- What the library answers about vertex `vt` of component `cp`: the kind and the vectors. -/
def answer (l : List (Cst V)) (cp : Nat) (vt : Int) : Option (Kind × V) :=
  (isConstrained l cp vt).map (fun c => (c.kind, c.vect))

/-- The list is sorted, its runs are not empty and do not overlap, and nothing in it says "unconstrained". -/
def Tidy (l : List (Cst V)) : Prop :=
  l.Pairwise (fun a b => a.cmp < b.cmp ∨ (a.cmp = b.cmp ∧ a.vert + a.num ≤ b.vert)) ∧
    ∀ c ∈ l, 1 ≤ c.num ∧ c.kind ≠ .unconstrained

/-- A call that sets a constraint on a run of vertices. -/
structure Call (V : Type) where
  cmp : Nat
  vert : Int
  num : Int
  kind : Kind
  vect : V

/-- The call concerns this vertex. -/
def Call.hits (o : Call V) (cp : Nat) (vt : Int) : Bool := o.cmp = cp ∧ o.vert ≤ vt ∧ vt < o.vert + o.num

/-- The constraint a call puts on the vertices of its run. -/
def Call.says (o : Call V) : Option (Kind × V) := if o.kind = .unconstrained then none else some (o.kind, o.vect)

/-- What a user expects after a history (newest call first): the newest call that concerns the vertex decides. -/
def expected (history : List (Call V)) (cp : Nat) (vt : Int) : Option (Kind × V) :=
  match history.find? (fun o => o.hits cp vt) with
  | none => none
  | some o => o.says

/-- Run a history (newest call first) on a curve without constraints. -/
def runAll (nv : List Nat) : List (Call V) → Res (List (Cst V))
  | [] => .ok []
  | o :: older => do
    let l ← runAll nv older
    set nv l o.cmp o.vert o.num o.kind o.vect

end Plc.Cst
