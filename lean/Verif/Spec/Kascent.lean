import Verif.Model.Basic

/-! # Ascents and the table of probabilities -/

namespace Plc.Kasc

/-- Number of places `i` with `p[i] < p[i+1]`. -/
def ascents (p : List Int) : Nat :=
  ((List.range (p.length - 1)).filter fun i => p.getD i 0 < p.getD (i + 1) 0).length

/-- Number of places `i` with `p[i] > p[i+1]`. -/
def descents (p : List Int) : Nat :=
  ((List.range (p.length - 1)).filter fun i => p.getD i 0 > p.getD (i + 1) 0).length

/-- Eulerian numbers: the number of permutations of n letters with k ascents. -/
def euler : Nat → Nat → Nat
  | 0, 0 => 1
  | 0, _ + 1 => 0
  | _ + 1, 0 => 1
  | n + 1, k + 1 => (k + 2) * euler n (k + 1) + (n - k) * euler n k

/-- What the code needs of the table: it has an entry for every n from 2 to N and every k
from 1 to n-1, row by row, and the entry for k = n-1 is 1. -/
structure TableOk (tab : List Rat) (N : Nat) : Prop where
  entry : ∀ n k : Nat, 2 ≤ n → n ≤ N → 1 ≤ k → k + 1 ≤ n →
    ∃ p, tab[(n - 1) * (n - 2) / 2 + (k - 1)]? = some p
  one : ∀ n : Nat, 2 ≤ n → n ≤ N → tab[(n - 1) * (n - 2) / 2 + (n - 2)]? = some 1

/-- What the comment of `new_ascent_probability` (kascentpermutation.c 51-53) says the
entries are. -/
def Documented (tab : List Rat) (N : Nat) : Prop :=
  ∀ n k : Nat, 2 ≤ n → n ≤ N → 1 ≤ k → k + 1 ≤ n →
    tab[(n - 1) * (n - 2) / 2 + (k - 1)]? =
      some (((n - k : Nat) : Rat) * (euler (n - 1) (k - 1) : Rat) / (euler n k : Rat))

end Plc.Kasc
