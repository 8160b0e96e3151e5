import Verif.Model.Basic

/-! Helper lemmas on outcomes and buffers. -/

namespace Plc

@[simp] theorem ok_bind {α β : Type} (a : α) (f : α → Res β) :
    ((Except.ok a : Res α) >>= f) = f a := rfl

@[simp] theorem error_bind {α β : Type} (e : Fault) (f : α → Res β) :
    ((Except.error e : Res α) >>= f) = .error e := rfl

theorem rd_ok {α : Type} {l : List α} {i : Nat} {a : α} (h : l[i]? = some a) : rd l i = .ok a := by
  simp [rd, h]

theorem rd_lt {α : Type} {l : List α} {i : Nat} (h : i < l.length) : rd l i = .ok l[i] := by
  simp [rd, h]

theorem rd_eq_ok {α : Type} {l : List α} {i : Nat} {a : α} : rd l i = .ok a ↔ l[i]? = some a := by
  unfold rd; cases l[i]? <;> simp

theorem wr_lt {α : Type} {l : List α} {i : Nat} {a : α} (h : i < l.length) :
    wr l i a = .ok (l.set i a) := by simp [wr, h]

@[simp] theorem assertC_true : assertC true = .ok () := rfl
@[simp] theorem assertC_false : assertC false = .error .die := rfl

theorem assertC_ok {b : Bool} (h : b = true) : assertC b = .ok () := by simp [h]

theorem bind_ok_iff {α β : Type} {x : Res α} {f : α → Res β} {b : β} :
    (x >>= f) = .ok b ↔ ∃ a, x = .ok a ∧ f a = .ok b := by
  cases x with
  | error e => simp
  | ok a => simp

theorem Cross.at_mod (c : Cross) (k : Nat) : c.at (k % 4) = c.at k := by
  simp [Cross.at]

theorem Cross.rdPos_lt {c : Cross} {k : Nat} (h : k < 4) : c.rdPos k = .ok (c.at k) := by
  simp [Cross.rdPos, h]

end Plc
