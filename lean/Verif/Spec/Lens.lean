import Verif.Model.BigonDel
import Verif.Props.Comps
import Verif.Props.Strands

/-! # Two strands between the same two crossings -/

namespace Plc

open Plc.Comps

/-- Edge `e` comes in at crossing `c`, on the strand which passes over. -/
def PassesOver (cross : List Cross) (edge : List Edge) (e c : Nat) : Prop :=
  ∃ r x, edge[e]? = some r ∧ r.head = c ∧ cross[c]? = some x ∧
    ComesIn cross edge c ((r.headpos + if x.sign = .neg then 3 else 1) % 4)

/-- Edges `a0`, `a1`, `a2` follow each other, and so do `b0`, `b1`, `b2`; the first strand passes the crossings `c0` and then `c1`,
the second strand is the other one at each of them, and passes them in this order or in the opposite one. -/
structure Lens (cross : List Cross) (edge : List Edge) (s : BigonDel.Site) : Prop where
  ne : s.c0 ≠ s.c1
  a01 : Follows cross edge s.a0 s.a1
  a12 : Follows cross edge s.a1 s.a2
  b01 : Follows cross edge s.b0 s.b1
  b12 : Follows cross edge s.b1 s.b2
  heads : ∃ a0 a1 b0 b1, edge[s.a0]? = some a0 ∧ edge[s.a1]? = some a1 ∧ edge[s.b0]? = some b0 ∧ edge[s.b1]? = some b1 ∧
    a0.head = s.c0 ∧ a1.head = s.c1 ∧ ((b0.head = s.c0 ∧ b1.head = s.c1) ∨ (b0.head = s.c1 ∧ b1.head = s.c0))
  na0 : s.b0 ≠ s.a0 ∧ s.b1 ≠ s.a0
  na1 : s.b0 ≠ s.a1 ∧ s.b1 ≠ s.a1

/-- The crossings of the two strands are `c` and `d`, in one order or the other. -/
def At (c d : Nat) (s : BigonDel.Site) : Prop := (s.c0 = c ∧ s.c1 = d) ∨ (s.c0 = d ∧ s.c1 = c)

/-- The first strand passes over the second one at both crossings. -/
def Over (cross : List Cross) (edge : List Edge) (s : BigonDel.Site) : Prop :=
  PassesOver cross edge s.a0 s.c0 ∧ PassesOver cross edge s.a1 s.c1

/-- Two strands between crossings `c` and `d`, the first one over the second unless both crossings have no sign. -/
structure Strands2 (cross : List Cross) (edge : List Edge) (c d : Nat) (s : BigonDel.Site) : Prop where
  lens : Lens cross edge s
  at_ : At c d s
  over : ∀ x y, cross[c]? = some x → cross[d]? = some y → (x.sign ≠ .unset ∨ y.sign ≠ .unset) → Over cross edge s

end Plc
