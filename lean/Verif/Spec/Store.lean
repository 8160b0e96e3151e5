import Verif.Model.Store

/-! # What a store holds, and what it needs of the functions it calls -/

namespace Plc.Store

variable {Pd Packed : Type}

/-- Everything a store holds, in order: hash, uid and packed diagram. -/
def entries (s : Stor Packed) : List (Hash × Nat × Packed) :=
  s.arr.flatMap (fun hb => hb.2.map (fun up => (hb.1, up.1, up.2)))

/-- `E` is an equivalence relation on the diagrams that are `Good`, equivalent diagrams have equal hashes, and
unpacking a packed diagram gives an equivalent diagram. -/
structure Faithful (k : Kit Pd Packed) (Good : Pd → Prop) (E : Pd → Pd → Prop) : Prop where
  refl : ∀ a, Good a → E a a
  symm : ∀ a b, Good a → Good b → E a b → E b a
  trans : ∀ a b c, Good a → Good b → Good c → E a b → E b c → E a c
  hash : ∀ a b, Good a → Good b → E a b → k.hash a = k.hash b
  pack : ∀ pd, Good pd → ∃ p a, k.pack pd = .ok p ∧ k.unpack p = .ok a ∧ Good a ∧ E a pd

/-- The test `t` answers whether two diagrams are equivalent. -/
def Decides (t : Pd → Pd → Res Bool) (Good : Pd → Prop) (E : Pd → Pd → Prop) : Prop :=
  ∀ a b, Good a → Good b → ∃ r, t a b = .ok r ∧ (r = true ↔ E a b)

end Plc.Store
