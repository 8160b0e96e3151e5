import Mathlib.NumberTheory.LucasPrimality
import Mathlib.Tactic.ReduceModChar
import Mathlib.Tactic.NormNum.Prime

/-! # Some large primes, by certificates of Lucas -/

namespace Plc.Xo

/-- A prime factor of a product of primes is one of them. -/
theorem prime_dvd_list : ∀ (l : List Nat), (∀ q ∈ l, q.Prime) → ∀ q : Nat, q.Prime → q ∣ l.prod → q ∈ l
  | [], _, q, hq, h => by
    rw [List.prod_nil, Nat.dvd_one] at h
    exact absurd h hq.one_lt.ne'
  | p :: l, hl, q, hq, h => by
    rw [List.prod_cons] at h
    rcases (Nat.Prime.dvd_mul hq).mp h with h | h
    · rw [(Nat.prime_dvd_prime_iff_eq hq (hl p (List.mem_cons_self ..))).mp h]
      exact List.mem_cons_self ..
    · exact List.mem_cons_of_mem _ (prime_dvd_list l (fun x hx => hl x (List.mem_cons_of_mem _ hx)) q hq h)

/-- A power modulo `p`, by squaring. -/
def powMod (p : Nat) : Nat → Nat → Nat → Nat
  | 0, _, _ => 1 % p
  | f + 1, a, e => if e % 2 = 1 then a * powMod p f (a * a % p) (e / 2) % p else powMod p f (a * a % p) (e / 2)

theorem powMod_eq (p : Nat) : ∀ (f a e : Nat), e < 2 ^ f → powMod p f a e = a ^ e % p
  | 0, a, e, h => by
    have : e = 0 := by simpa using h
    rw [this, powMod, pow_zero]
  | f + 1, a, e, h => by
    have h' : e / 2 < 2 ^ f := by rw [pow_succ] at h; omega
    have hp : (a * a % p) ^ (e / 2) % p = (a * a) ^ (e / 2) % p := by rw [← Nat.pow_mod]
    rw [powMod, powMod_eq p f _ _ h', hp, ← pow_two, ← pow_mul]
    split
    · rename_i ho
      have he : e = 2 * (e / 2) + 1 := by omega
      conv_rhs => rw [he, pow_succ]
      rw [Nat.mul_mod, Nat.mod_mod, ← Nat.mul_mod, mul_comm]
    · rename_i ho
      have he : e = 2 * (e / 2) := by omega
      conv_rhs => rw [he]

theorem lucas (p a : Nat) (l : List Nat) (h1 : 1 < p) (hb : p < 2 ^ 80) (hl : ∀ q ∈ l, q.Prime) (hp : l.prod = p - 1) (ha : powMod p 80 a (p - 1) = 1)
    (h : ∀ q ∈ l, powMod p 80 a ((p - 1) / q) ≠ 1) : p.Prime := by
  have key : ∀ e, e < p → ((a : ZMod p) ^ e = 1 ↔ powMod p 80 a e = 1) := by
    intro e he
    rw [powMod_eq p 80 a e (by omega)]
    have : ((a : ZMod p) ^ e = 1) ↔ (((a ^ e : Nat) : ZMod p) = ((1 : Nat) : ZMod p)) := by push_cast; rfl
    rw [this, ZMod.natCast_eq_natCast_iff, Nat.ModEq, Nat.mod_eq_of_lt h1]
  refine lucas_primality p (a : ZMod p) ((key _ (by omega)).mpr ha) fun q hq hd => ?_
  have hm : q ∈ l := prime_dvd_list l hl q hq (by rw [hp]; exact hd)
  intro hc
  exact h q hm ((key _ (lt_of_le_of_lt (Nat.div_le_self _ _) (by omega))).mp hc)

theorem prime_67280421310721 : Nat.Prime 67280421310721 := by
  refine lucas 67280421310721 3 [2, 2, 2, 2, 2, 2, 2, 2, 5, 47, 373, 2998279] (by norm_num) (by norm_num) ?_ (by norm_num) (by decide +kernel) (by decide +kernel)
  intro q hq
  have hq : q ∈ ([2, 5, 47, 373, 2998279] : List Nat) := by simpa using hq
  simp only [List.mem_cons, List.not_mem_nil, or_false] at hq
  rcases hq with rfl | rfl | rfl | rfl | rfl
  · norm_num
  · norm_num
  · norm_num
  · norm_num
  · norm_num

theorem prime_18533742247 : Nat.Prime 18533742247 := by
  refine lucas 18533742247 6 [2, 3, 3, 3, 181, 1896229] (by norm_num) (by norm_num) ?_ (by norm_num) (by decide +kernel) (by decide +kernel)
  intro q hq
  have hq : q ∈ ([2, 3, 181, 1896229] : List Nat) := by simpa using hq
  simp only [List.mem_cons, List.not_mem_nil, or_false] at hq
  rcases hq with rfl | rfl | rfl | rfl
  · norm_num
  · norm_num
  · norm_num
  · norm_num

theorem prime_116503103764643 : Nat.Prime 116503103764643 := by
  refine lucas 116503103764643 2 [2, 7, 449, 18533742247] (by norm_num) (by norm_num) ?_ (by norm_num) (by decide +kernel) (by decide +kernel)
  intro q hq
  have hq : q ∈ ([2, 7, 449, 18533742247] : List Nat) := by simpa using hq
  simp only [List.mem_cons, List.not_mem_nil, or_false] at hq
  rcases hq with rfl | rfl | rfl | rfl
  · norm_num
  · norm_num
  · norm_num
  · exact prime_18533742247

theorem prime_59649589127497217 : Nat.Prime 59649589127497217 := by
  refine lucas 59649589127497217 3 [2, 2, 2, 2, 2, 2, 2, 2, 2, 116503103764643] (by norm_num) (by norm_num) ?_ (by norm_num) (by decide +kernel) (by decide +kernel)
  intro q hq
  have hq : q ∈ ([2, 116503103764643] : List Nat) := by simpa using hq
  simp only [List.mem_cons, List.not_mem_nil, or_false] at hq
  rcases hq with rfl | rfl
  · norm_num
  · exact prime_116503103764643

theorem prime_55515497 : Nat.Prime 55515497 := by
  refine lucas 55515497 3 [2, 2, 2, 6939437] (by norm_num) (by norm_num) ?_ (by norm_num) (by decide +kernel) (by decide +kernel)
  intro q hq
  have hq : q ∈ ([2, 6939437] : List Nat) := by simpa using hq
  simp only [List.mem_cons, List.not_mem_nil, or_false] at hq
  rcases hq with rfl | rfl
  · norm_num
  · norm_num

theorem prime_733803839347 : Nat.Prime 733803839347 := by
  refine lucas 733803839347 2 [2, 3, 2203, 55515497] (by norm_num) (by norm_num) ?_ (by norm_num) (by decide +kernel) (by decide +kernel)
  intro q hq
  have hq : q ∈ ([2, 3, 2203, 55515497] : List Nat) := by simpa using hq
  simp only [List.mem_cons, List.not_mem_nil, or_false] at hq
  rcases hq with rfl | rfl | rfl | rfl
  · norm_num
  · norm_num
  · norm_num
  · exact prime_55515497

theorem prime_5704689200685129054721 : Nat.Prime 5704689200685129054721 := by
  refine lucas 5704689200685129054721 21 [2, 2, 2, 2, 2, 2, 2, 2, 2, 3, 3, 3, 3, 3, 5, 12497, 733803839347] (by norm_num) (by norm_num) ?_ (by norm_num) (by decide +kernel) (by decide +kernel)
  intro q hq
  have hq : q ∈ ([2, 3, 5, 12497, 733803839347] : List Nat) := by simpa using hq
  simp only [List.mem_cons, List.not_mem_nil, or_false] at hq
  rcases hq with rfl | rfl | rfl | rfl | rfl
  · norm_num
  · norm_num
  · norm_num
  · norm_num
  · exact prime_733803839347

/-- The prime factors of 2²⁵⁶ - 1, which is the product of the first eight Fermat numbers. -/
def factors : List Nat := [3, 5, 17, 257, 641, 65537, 274177, 6700417, 67280421310721, 59649589127497217, 5704689200685129054721]

theorem factors_prod : factors.prod = 2 ^ 256 - 1 := by decide +kernel

theorem factors_prime : ∀ q ∈ factors, q.Prime := by
  intro q hq
  simp only [factors, List.mem_cons, List.not_mem_nil, or_false] at hq
  rcases hq with rfl | rfl | rfl | rfl | rfl | rfl | rfl | rfl | rfl | rfl | rfl
  · norm_num
  · norm_num
  · norm_num
  · norm_num
  · norm_num
  · norm_num
  · norm_num
  · norm_num
  · exact prime_67280421310721
  · exact prime_59649589127497217
  · exact prime_5704689200685129054721

end Plc.Xo
