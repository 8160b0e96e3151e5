import Verif.Model.Quick

/-! # Sorting: what is expected -/

namespace Plc

/-- A strict order up to equivalence: no two elements are less than each other, and "not less" is transitive. -/
structure Weak {α : Type} (lt : α → α → Bool) : Prop where
  asymm : ∀ a b, lt a b = true → lt b a = false
  trans : ∀ a b c, lt b a = false → lt c b = false → lt c a = false

/-- The elements from `l` to `h` are in order. -/
def SortedIn {α : Type} (lt : α → α → Bool) (l h : Nat) (A : List α) : Prop :=
  ∀ (i j : Nat) (a b : α), l ≤ i → i < j → j ≤ h → A[i]? = some a → A[j]? = some b → lt b a = false

end Plc
