import Verif.Spec.PlaneDiagram
import Verif.Props.Strands
import Verif.Model.KnotTheory

/-! # The diagram meant by a KnotTheory code -/

namespace Plc

open Plc.KT

/-- `cross` and `edge` are the plane diagram meant by the code `l`: crossing `c` is the `c`-th entry, with
edges counted from 0; the strand below comes in at the first place; a crossing is negative when the strand
above goes from the second to the fourth place and positive when it goes the other way; and every edge is
followed by the next number or by a smaller one. -/
structure Codes (l : List Quad) (cross : List Cross) (edge : List Edge) : Prop where
  plane : PlaneDiagram cross edge
  len : l.length = cross.length
  quad : ∀ (c : Nat) (q : Quad), l[c]? = some q →
    ∃ x, cross[c]? = some x ∧ q = ⟨x.e0 + 1, x.e1 + 1, x.e2 + 1, x.e3 + 1⟩
  under : ∀ c, c < cross.length → ComesIn cross edge c 0
  neg : ∀ (c : Nat) (x : Cross), cross[c]? = some x → ComesIn cross edge c 1 → x.sign = .neg
  pos : ∀ (c : Nat) (x : Cross), cross[c]? = some x → ComesIn cross edge c 3 → x.sign = .pos
  next : ∀ e f, Follows cross edge e f → f = e + 1 ∨ f < e

/-- Besides, the smaller number is smaller by at least two: every component has at least three edges. -/
structure CodeOf (l : List Quad) (cross : List Cross) (edge : List Edge) : Prop extends Codes l cross edge where
  order : ∀ e f, Follows cross edge e f → f = e + 1 ∨ f + 2 ≤ e

end Plc
