import Verif.Model.Cmp
import Verif.Spec.Order
import Verif.Proofs.Basic
import Mathlib.Data.List.Lex
import Mathlib.Order.Defs.LinearOrder

namespace Plc.Cmp

theorem udiff_eq {a b : Nat} (ha : a < 2 ^ 31) (hb : b < 2 ^ 31) : udiff a b = (a : Int) - b := by
  unfold udiff
  by_cases h : b ≤ a
  · have e : (a + 2 ^ 32 - b) % 2 ^ 32 = a - b := by omega
    rw [e]
    simp only
    rw [if_pos (by omega)]
    omega
  · have e : (a + 2 ^ 32 - b) % 2 ^ 32 = a + 2 ^ 32 - b := by omega
    rw [e]
    simp only
    rw [if_neg (by omega)]
    omega

/-- All entries are below 2^31. -/
def Small (l : List Nat) : Prop := ∀ x ∈ l, x < 2 ^ 31

theorem lexU_spec : ∀ (a b : List Nat), a.length = b.length → Small a → Small b →
    (lexU a b < 0 ↔ a < b) ∧ (lexU a b = 0 ↔ a = b)
  | [], [], _, _, _ => by simp [lexU]
  | [], b :: bs, h, _, _ => by simp at h
  | a :: as, [], h, _, _ => by simp at h
  | a :: as, b :: bs, h, ha, hb => by
    have ih := lexU_spec as bs (by simpa using h) (fun x hx => ha x (by simp [hx]))
      (fun x hx => hb x (by simp [hx]))
    have e := udiff_eq (ha a (by simp)) (hb b (by simp))
    unfold lexU
    by_cases hab : a = b
    · subst hab
      simp only [ne_eq, not_true_eq_false, if_false, List.cons_lt_cons_iff, Nat.lt_irrefl, false_or,
        true_and, List.cons.injEq]
      exact ih
    · simp only [ne_eq, hab, not_false_eq_true, if_true, e, List.cons_lt_cons_iff, false_and,
        or_false, List.cons.injEq, iff_false]
      constructor
      · omega
      · omega

/-- A comparison that follows a key in a linear order is consistent. -/
theorem order_of_key {α : Type} {P : α → Prop} {cmp : α → α → Int} {same : α → α → Prop}
    (key : α → List Nat)
    (h : ∀ a b, P a → P b → (cmp a b < 0 ↔ key a < key b) ∧ (cmp a b = 0 ↔ key a = key b))
    (hs : ∀ a b, P a → P b → (key a = key b ↔ same a b)) : ConsistentOrder P same cmp := by
  have le : ∀ a b, P a → P b → (cmp a b ≤ 0 ↔ key a ≤ key b) := by
    intro a b ha hb
    rw [le_iff_lt_or_eq, ← (h a b ha hb).1, ← (h a b ha hb).2]
    omega
  refine ⟨fun a b ha hb => ((h a b ha hb).2).trans (hs a b ha hb), ?_, ?_⟩
  · intro a b ha hb
    rw [(h a b ha hb).1]
    have := le b a hb ha
    constructor
    · intro hl
      by_contra hc
      exact absurd (this.mp (by omega)) (not_le.mpr hl)
    · intro hg
      by_contra hc
      have := this.mpr (not_lt.mp hc)
      omega
  · intro a b c ha hb hc h1 h2
    rw [le a c ha hc]
    exact ((le a b ha hb).mp h1).trans ((le b c hb hc).mp h2)

theorem longLex_spec (a b : List Nat) (ha : Small a) (hb : Small b) (hla : a.length < 2 ^ 31)
    (hlb : b.length < 2 ^ 31) :
    (longLex a b < 0 ↔ (2 ^ 31 - a.length) :: a < (2 ^ 31 - b.length) :: b) ∧
    (longLex a b = 0 ↔ (2 ^ 31 - a.length) :: a = (2 ^ 31 - b.length) :: b) := by
  unfold longLex
  by_cases h : a.length = b.length
  · simp only [h, ne_eq, not_true_eq_false, if_false]
    have := lexU_spec a b h ha hb
    simp [List.cons_lt_cons_iff, this.1, this.2]
  · simp only [ne_eq, h, not_false_eq_true, if_true, udiff_eq hlb hla, List.cons_lt_cons_iff,
      List.cons.injEq]
    have : 2 ^ 31 - a.length ≠ 2 ^ 31 - b.length := by omega
    simp only [this, false_and, or_false, iff_false]
    constructor <;> omega

end Plc.Cmp
