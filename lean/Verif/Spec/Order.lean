import Verif.Model.Basic

/-! What the C standard requires of a comparison function. -/

namespace Plc

/-- On the elements satisfying `P`, `cmp` answers 0 exactly for elements that are the
`same`, changes sign when its arguments are swapped, and is transitive. -/
structure ConsistentOrder {α : Type} (P : α → Prop) (same : α → α → Prop) (cmp : α → α → Int) :
    Prop where
  zero : ∀ a b, P a → P b → (cmp a b = 0 ↔ same a b)
  swap : ∀ a b, P a → P b → (cmp a b < 0 ↔ cmp b a > 0)
  trans : ∀ a b c, P a → P b → P c → cmp a b ≤ 0 → cmp b c ≤ 0 → cmp a c ≤ 0

/-- The same for a function that could fail: it does not, on these elements. -/
def ConsistentOrderR {α : Type} (P : α → Prop) (same : α → α → Prop) (cmp : α → α → Res Int) :
    Prop :=
  ∃ c : α → α → Int, (∀ a b, P a → P b → cmp a b = .ok (c a b)) ∧ ConsistentOrder P same c

end Plc
