import Verif.Model.Xoshiro
import Mathlib.Data.Fintype.EquivFin
import Mathlib.Data.Finite.Prod
import Mathlib.Logic.Function.Iterate
import Mathlib.Dynamics.PeriodicPts.Defs
import Mathlib.Data.Rat.Cast.Order
import Mathlib.Tactic.NormNum
import Mathlib.Tactic.Linarith
import Mathlib.Tactic.Positivity
import Mathlib.Tactic.Ring
import Mathlib.Data.Fintype.Pigeonhole

namespace Plc.Xo

theorem shr_fix (z : BitVec 64) (n : Nat) (hn : 0 < n) (h : z = z >>> n) : z = 0#64 := by
  have h1 := congrArg BitVec.toNat h
  rw [BitVec.toNat_ushiftRight, Nat.shiftRight_eq_div_pow] at h1
  have : z.toNat = 0 := by
    by_contra hc
    have := Nat.div_lt_self (Nat.pos_of_ne_zero hc) (Nat.one_lt_two_pow (by omega : n ≠ 0))
    omega
  exact BitVec.eq_of_toNat_eq (by simpa using this)

theorem shl_fix (z : BitVec 64) (h : z = z <<< 17) : z = 0#64 := by
  have h2 : z = z <<< 34 := by rw [show (34 : Nat) = 17 + 17 from rfl, BitVec.shiftLeft_add, ← h, ← h]
  have h4 : z = z <<< 68 := by rw [show (68 : Nat) = 34 + 34 from rfl, BitVec.shiftLeft_add, ← h2, ← h2]
  rw [h4]
  exact BitVec.shiftLeft_eq_zero (by omega)

theorem xor_swap {a b c d : BitVec 64} (h : a ^^^ b = c ^^^ d) : a ^^^ c = b ^^^ d := by
  have : a = c ^^^ d ^^^ b := by rw [← h, BitVec.xor_assoc, BitVec.xor_self, BitVec.xor_zero]
  rw [this, BitVec.xor_comm c d, BitVec.xor_assoc, BitVec.xor_assoc, BitVec.xor_comm b c, ← BitVec.xor_assoc c c,
    BitVec.xor_self, BitVec.zero_xor, BitVec.xor_comm]

theorem xor_shr_inj (n : Nat) (hn : 0 < n) (x y : BitVec 64) (h : x ^^^ (x >>> n) = y ^^^ (y >>> n)) : x = y := by
  have : x ^^^ y = (x ^^^ y) >>> n := by
    rw [BitVec.ushiftRight_xor_distrib]
    exact xor_swap h
  exact BitVec.xor_eq_zero_iff.mp (shr_fix _ n hn this)

theorem xor_shl_inj (x y : BitVec 64) (h : x ^^^ (x <<< 17) = y ^^^ (y <<< 17)) : x = y := by
  have : x ^^^ y = (x ^^^ y) <<< 17 := by
    rw [BitVec.shiftLeft_xor_distrib]
    exact xor_swap h
  exact BitVec.xor_eq_zero_iff.mp (shl_fix _ this)

theorem mul_inj (m m' x y : BitVec 64) (hm : m * m' = 1#64) (h : x * m = y * m) : x = y := by
  have := congrArg (· * m') h
  simp only [BitVec.mul_assoc, hm, BitVec.mul_one] at this
  exact this

theorem mix_inj (x y : BitVec 64) (h : mix x = mix y) : x = y := by
  unfold mix at h
  have h := xor_shr_inj 31 (by omega) _ _ h
  have h := mul_inj _ 0x319642b2d24d8ec3#64 _ _ (by decide) h
  have h := xor_shr_inj 27 (by omega) _ _ h
  have h := mul_inj _ 0x96de1b173f119089#64 _ _ (by decide) h
  exact xor_shr_inj 30 (by omega) _ _ h

theorem rotl_inj (x y : BitVec 64) (h : rotl x 45 = rotl y 45) : x = y := by
  refine BitVec.eq_of_getLsbD_eq (fun i hi => ?_)
  unfold rotl at h
  by_cases hc : i < 19
  · have := congrArg (fun w => w.getLsbD (i + 45)) h
    simp only [BitVec.getLsbD_or, BitVec.getLsbD_shiftLeft, BitVec.getLsbD_ushiftRight] at this
    simpa [show i + 45 < 64 by omega, BitVec.getLsbD_of_ge, show 64 ≤ 19 + (i + 45) by omega] using this
  · have := congrArg (fun w => w.getLsbD (i - 19)) h
    simp only [BitVec.getLsbD_or, BitVec.getLsbD_shiftLeft, BitVec.getLsbD_ushiftRight] at this
    simpa [show i - 19 < 45 by omega, show 19 + (i - 19) = i by omega] using this

/-- **C39, transition.** Two different states never have the same successor. -/
theorem C39_next_injective : Function.Injective (fun s => (next s).2) := by
  rintro ⟨a, b, c, d⟩ ⟨a', b', c', d'⟩ h
  simp only [next, St.mk.injEq] at h
  obtain ⟨h0, h1, h2, h3⟩ := h
  have hd := rotl_inj _ _ h3
  have ha : a = a' := by
    rw [hd] at h0
    exact BitVec.xor_left_inj _ |>.mp h0
  have hb : b = b' := by
    have e : b ^^^ (c ^^^ a) ^^^ (c ^^^ a ^^^ b <<< 17) = b' ^^^ (c' ^^^ a') ^^^ (c' ^^^ a' ^^^ b' <<< 17) := by rw [h1, h2]
    have red : ∀ x y z : BitVec 64, x ^^^ y ^^^ (y ^^^ z) = x ^^^ z := by
      intro x y z
      rw [BitVec.xor_assoc, ← BitVec.xor_assoc y y z, BitVec.xor_self, BitVec.zero_xor]
    rw [red, red] at e
    exact xor_shl_inj _ _ e
  subst ha hb
  have hc : c = c' := by
    have := BitVec.xor_right_inj _ |>.mp h1
    exact BitVec.xor_left_inj _ |>.mp this
  have hdd : d = d' := BitVec.xor_left_inj _ |>.mp hd
  subst hc hdd
  rfl

/-- The all-zero state. -/
def zeroSt : St := ⟨0#64, 0#64, 0#64, 0#64⟩

theorem next_zero : (next zeroSt).2 = zeroSt := by decide

/-- **C39, never stuck.** From a state that is not all zero no number of steps leads to the all-zero state. -/
theorem C39_never_zero (s : St) (h : s ≠ zeroSt) (k : Nat) : (fun s => (next s).2)^[k] s ≠ zeroSt := by
  intro hk
  have hz : (fun s => (next s).2)^[k] zeroSt = zeroSt := Function.iterate_fixed next_zero k
  exact h (C39_next_injective.iterate k (hk.trans hz.symm))

def St.toProd (s : St) : BitVec 64 × BitVec 64 × BitVec 64 × BitVec 64 := (s.s0, s.s1, s.s2, s.s3)

theorem toProd_inj : Function.Injective St.toProd := by
  rintro ⟨a, b, c, d⟩ ⟨a', b', c', d'⟩ h
  simpa [St.toProd] using h

theorem bv_finite (n : Nat) : Finite (BitVec n) :=
  Finite.of_injective (fun x : BitVec n => x.toFin) (fun x y h => BitVec.eq_of_toFin_eq h)

instance : Finite St :=
  have := bv_finite 64
  Finite.of_injective _ toProd_inj

/-- **C39, cycles.** Every state is the successor of one, and comes back after a number of steps. -/
theorem C39_periodic (s : St) : (∃ s', (next s').2 = s) ∧ ∃ k, 0 < k ∧ (fun s => (next s).2)^[k] s = s := by
  refine ⟨(Finite.injective_iff_surjective.mp C39_next_injective) s, ?_⟩
  obtain ⟨i, j, hij, he⟩ := Finite.exists_ne_map_eq_of_infinite (fun k : Nat => (fun s => (next s).2)^[k] s)
  have key : ∀ i j : Nat, i < j → (fun s => (next s).2)^[i] s = (fun s => (next s).2)^[j] s →
      ∃ k, 0 < k ∧ (fun s => (next s).2)^[k] s = s := by
    intro i j hlt h
    refine ⟨j - i, by omega, ?_⟩
    apply C39_next_injective.iterate i
    rw [← Function.iterate_add_apply, show i + (j - i) = j by omega, ← h]
  rcases Nat.lt_or_gt_of_ne hij with h | h
  · exact key i j h he
  · exact key j i h he.symm

/-- **C39, seeding.** Whatever the seed, the four words are different from each other, so the state is
not all zero; different seeds give different states. -/
theorem C39_init (x : BitVec 64) : init x ≠ zeroSt ∧
    [(init x).s0, (init x).s1, (init x).s2, (init x).s3].Nodup ∧ ∀ y, init x = init y → x = y := by
  have ne : ∀ c : BitVec 64, c ≠ 0#64 → ∀ z, z ≠ z + c := by
    intro c hc z h
    exact hc (by simpa using h.symm)
  have hnd : [(init x).s0, (init x).s1, (init x).s2, (init x).s3].Nodup := by
    simp only [init, List.nodup_cons, List.mem_cons, List.not_mem_nil, or_false, not_or, not_false_eq_true,
      List.nodup_nil, and_true]
    refine ⟨⟨fun h => ?_, fun h => ?_, fun h => ?_⟩, ⟨fun h => ?_, fun h => ?_⟩, fun h => ?_⟩ <;>
      have h := mix_inj _ _ h <;> simp only [BitVec.add_assoc] at h <;>
      exact absurd h (by
        first
        | exact fun h => absurd (BitVec.add_right_inj _ |>.mp h) (by decide))
  refine ⟨?_, hnd, ?_⟩
  · intro h
    rw [h] at hnd
    exact absurd hnd (by decide)
  · intro y h
    have h0 : mix (x + gamma) = mix (y + gamma) := congrArg St.s0 h
    exact BitVec.add_left_inj _ |>.mp (mix_inj _ _ h0)

/-- **C39, range.** The uniform value is one of the multiples of 2^-52 in [0,1), and each of them occurs. -/
theorem C39_uniform (s : St) : 0 ≤ (uniform s).1 ∧ (uniform s).1 < 1 ∧ ∃ m : Nat, m < 2 ^ 52 ∧ (uniform s).1 = (m : Rat) / 2 ^ 52 := by
  have hlt : ((next s).1 >>> 12).toNat < 2 ^ 52 := by
    rw [BitVec.toNat_ushiftRight, Nat.shiftRight_eq_div_pow]
    have := (next s).1.isLt
    omega
  unfold uniform
  simp only
  generalize ((next s).1 >>> 12).toNat = m at hlt
  have hm : (m : Rat) < 2 ^ 52 := by exact_mod_cast hlt
  refine ⟨by positivity, ?_, m, hlt, by ring⟩
  rw [mul_one_div, div_lt_one (by positivity)]
  exact hm

theorem C39_uniform_onto (m : Nat) (hm : m < 2 ^ 52) : ∃ s, s ≠ zeroSt ∧ (uniform s).1 = (m : Rat) / 2 ^ 52 := by
  refine ⟨⟨BitVec.ofNat 64 (m * 2 ^ 12), 1#64, 0#64, 0#64⟩, by simp [zeroSt], ?_⟩
  unfold uniform next
  simp only
  have : ((BitVec.ofNat 64 (m * 2 ^ 12) + 0#64) >>> 12).toNat = m := by
    rw [BitVec.add_zero, BitVec.toNat_ushiftRight, Nat.shiftRight_eq_div_pow, BitVec.toNat_ofNat]
    omega
  rw [this]
  ring

/-- The published first output of xoshiro256+ for the state 1, 2, 3, 4 is 1 + 4. -/
example : (next ⟨1#64, 2#64, 3#64, 4#64⟩).1 = 5#64 ∧
    (next ⟨1#64, 2#64, 3#64, 4#64⟩).2 = ⟨7#64, 0#64, 262146#64, 211106232532992#64⟩ := by decide +kernel
example : init 0#64 ≠ zeroSt ∧ (init 0#64).s0 = 0xE220A8397B1DCDAF#64 := by decide +kernel

end Plc.Xo
