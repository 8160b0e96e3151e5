import Verif.Model.Basic

/-! # Repeating a C call -/

namespace Plc

/-- Call `f` `k` times, starting from `a`; stops at the first fault. -/
def iterRes {α : Type} (f : α → Res α) : Nat → α → Res α
  | 0, a => .ok a
  | k + 1, a => do
    let b ← iterRes f k a
    f b

end Plc
