import Verif.Model.Xoshiro
import Verif.Props.Xoshiro

/-! # The transition of the generator is linear; polynomials in it

A polynomial over the field of two elements is a natural number, its bits being the coefficients. -/

namespace Plc.Xo

/-- The transition. -/
def f (s : St) : St := (next s).2

theorem xorSt_assoc (a b c : St) : xorSt (xorSt a b) c = xorSt a (xorSt b c) := by simp [xorSt, BitVec.xor_assoc]
theorem xorSt_comm (a b : St) : xorSt a b = xorSt b a := by simp [xorSt, BitVec.xor_comm]
theorem xorSt_zero (a : St) : xorSt a zeroSt = a := by simp [xorSt, zeroSt]
theorem zero_xorSt (a : St) : xorSt zeroSt a = a := by simp [xorSt, zeroSt]
theorem xorSt_self (a : St) : xorSt a a = zeroSt := by simp [xorSt, zeroSt]

theorem xorSt_swap (a b c d : St) : xorSt (xorSt a b) (xorSt c d) = xorSt (xorSt a c) (xorSt b d) := by
  rw [xorSt_assoc, xorSt_assoc, ← xorSt_assoc b c d, xorSt_comm b c, xorSt_assoc c b d]

theorem xor4 (a b c d : BitVec 64) : (a ^^^ b) ^^^ (c ^^^ d) = (a ^^^ c) ^^^ (b ^^^ d) := by
  rw [BitVec.xor_assoc, BitVec.xor_assoc, ← BitVec.xor_assoc b c d, BitVec.xor_comm b c, BitVec.xor_assoc c b d]

theorem rotl_xor (x y : BitVec 64) : rotl (x ^^^ y) 45 = rotl x 45 ^^^ rotl y 45 := by
  refine BitVec.eq_of_getLsbD_eq (fun i hi => ?_)
  unfold rotl
  simp only [BitVec.getLsbD_or, BitVec.getLsbD_shiftLeft, BitVec.getLsbD_ushiftRight, BitVec.getLsbD_xor]
  by_cases hc : i < 45
  · simp [hc]
  · have h1 : ∀ z : BitVec 64, z.getLsbD (64 - 45 + i) = false := fun z => BitVec.getLsbD_of_ge z _ (by omega)
    simp [h1, hc, hi]

theorem f_xor (a b : St) : f (xorSt a b) = xorSt (f a) (f b) := by
  obtain ⟨a0, a1, a2, a3⟩ := a
  obtain ⟨b0, b1, b2, b3⟩ := b
  have e1 := xor4 a2 b2 a0 b0
  have e2 := xor4 a3 b3 a1 b1
  simp only [f, next, xorSt, St.mk.injEq]
  rw [e1, e2, BitVec.shiftLeft_xor_distrib, rotl_xor]
  exact ⟨xor4 .., xor4 .., xor4 .., rfl⟩

theorem f_zero : f zeroSt = zeroSt := next_zero

/-- A polynomial in the transition, applied to a state; `m` bits of it. -/
def actN : Nat → Nat → St → St
  | 0, _, _ => zeroSt
  | m + 1, P, s => xorSt (if P % 2 = 1 then s else zeroSt) (actN m (P / 2) (f s))

theorem actN_zero (P : Nat) : ∀ m, actN m P zeroSt = zeroSt := by
  intro m
  induction m generalizing P with
  | zero => rfl
  | succ m ih => rw [actN, f_zero, ih]; simp [xorSt_zero]

theorem actN_add : ∀ (m P : Nat) (a b : St), actN m P (xorSt a b) = xorSt (actN m P a) (actN m P b)
  | 0, _, _, _ => (xorSt_self zeroSt).symm
  | m + 1, P, a, b => by
    rw [actN, actN, actN, f_xor, actN_add m, xorSt_swap]
    congr 1
    split
    · rfl
    · exact (xorSt_self zeroSt).symm

theorem actN_f : ∀ (m P : Nat) (s : St), actN m P (f s) = f (actN m P s)
  | 0, _, _ => f_zero.symm
  | m + 1, P, s => by
    rw [actN, actN, f_xor, actN_f m]
    congr 1
    split
    · rfl
    · exact f_zero.symm

theorem xor_mod_two (P Q : Nat) : (P ^^^ Q) % 2 = (P % 2 + Q % 2) % 2 := by
  have h := Nat.testBit_xor P Q 0
  simp only [Nat.testBit_zero] at h
  rcases Nat.mod_two_eq_zero_or_one P with h1 | h1 <;> rcases Nat.mod_two_eq_zero_or_one Q with h2 | h2 <;>
    rcases Nat.mod_two_eq_zero_or_one (P ^^^ Q) with h3 | h3 <;> simp_all

theorem xor_div_two (P Q : Nat) : (P ^^^ Q) / 2 = P / 2 ^^^ Q / 2 := by
  refine Nat.eq_of_testBit_eq (fun i => ?_)
  rw [Nat.testBit_xor, Nat.testBit_div_two, Nat.testBit_div_two, Nat.testBit_div_two, Nat.testBit_xor]

theorem actN_xor : ∀ (m P Q : Nat) (s : St), actN m (P ^^^ Q) s = xorSt (actN m P s) (actN m Q s)
  | 0, _, _, _ => (xorSt_self zeroSt).symm
  | m + 1, P, Q, s => by
    rw [actN, actN, actN, xor_div_two, actN_xor m, xorSt_swap, xor_mod_two]
    congr 1
    rcases Nat.mod_two_eq_zero_or_one P with h1 | h1 <;> rcases Nat.mod_two_eq_zero_or_one Q with h2 | h2 <;>
      simp [h1, h2, xorSt_zero, zero_xorSt, xorSt_self]

theorem actN_null : ∀ (m : Nat) (s : St), actN m 0 s = zeroSt
  | 0, _ => rfl
  | m + 1, s => by rw [actN, Nat.zero_div, actN_null m]; simp [xorSt_zero]

theorem actN_more : ∀ (m k P : Nat) (s : St), P < 2 ^ m → actN (m + k) P s = actN m P s
  | 0, k, P, s, h => by
    have : P = 0 := by simpa using h
    rw [this, actN_null, actN_null]
  | m + 1, k, P, s, h => by
    rw [show m + 1 + k = (m + k) + 1 by omega, actN, actN, actN_more m k _ _ (by rw [pow_succ] at h; omega)]

theorem actN_double (m P : Nat) (s : St) : actN (m + 1) (2 * P) s = f (actN m P s) := by
  rw [actN, Nat.mul_div_cancel_left _ (by omega), actN_f, if_neg (by omega), zero_xorSt]

/-- The characteristic polynomial of the transition. -/
def charP : Nat := 0x10003c03c3f3ecb1904b4edcf26259f850280002bcefd1a5e9d116f2bb0f0f001

/-- A state given by four numbers. -/
def stOf (a b c d : Nat) : St := ⟨BitVec.ofNat 64 a, BitVec.ofNat 64 b, BitVec.ofNat 64 c, BitVec.ofNat 64 d⟩

/-- The transition on numbers. -/
def nextN (a b c d : Nat) (k : Nat → Nat → Nat → Nat → Bool) : Bool :=
  let t := (b * 131072) % 18446744073709551616
  let c := c ^^^ a
  let d := d ^^^ b
  let b := b ^^^ c
  let a := a ^^^ d
  let c := c ^^^ t
  let d := (d * 35184372088832) % 18446744073709551616 ||| (d / 524288)
  k a b c d

/-- Is the polynomial, applied to a state, and added to another one, 0? -/
def chk : Nat → Nat → Nat → Nat → Nat → Nat → Nat → Nat → Nat → Nat → Bool
  | 0, _, _, _, _, _, A, B, C, D => A == 0 && B == 0 && C == 0 && D == 0
  | m + 1, P, a, b, c, d, A, B, C, D =>
    let q := P % 2
    nextN a b c d fun a' b' c' d' => chk m (P / 2) a' b' c' d' (A ^^^ q * a) (B ^^^ q * b) (C ^^^ q * c) (D ^^^ q * d)

theorem ofNat_xor (a b : Nat) : BitVec.ofNat 64 (a ^^^ b) = BitVec.ofNat 64 a ^^^ BitVec.ofNat 64 b := by
  refine BitVec.eq_of_getLsbD_eq (fun i hi => ?_)
  simp [BitVec.getLsbD_ofNat, hi]

theorem shl_ofNat (b : Nat) (hb : b < 2 ^ 64) : BitVec.ofNat 64 b <<< 17 = BitVec.ofNat 64 (b * 131072 % 18446744073709551616) := by
  refine BitVec.eq_of_toNat_eq ?_
  rw [BitVec.toNat_shiftLeft, BitVec.toNat_ofNat, BitVec.toNat_ofNat, Nat.shiftLeft_eq, Nat.mod_eq_of_lt hb,
    show (2 : Nat) ^ 17 = 131072 by norm_num, show (2 : Nat) ^ 64 = 18446744073709551616 by norm_num, Nat.mod_mod]

theorem rotl_ofNat (d : Nat) (hd : d < 2 ^ 64) :
    rotl (BitVec.ofNat 64 d) 45 = BitVec.ofNat 64 (d * 35184372088832 % 18446744073709551616 ||| d / 524288) := by
  unfold rotl
  refine BitVec.eq_of_toNat_eq ?_
  rw [BitVec.toNat_or, BitVec.toNat_shiftLeft, BitVec.toNat_ushiftRight, BitVec.toNat_ofNat, BitVec.toNat_ofNat, Nat.mod_eq_of_lt hd,
    Nat.shiftLeft_eq, Nat.shiftRight_eq_div_pow,
    Nat.mod_eq_of_lt (Nat.or_lt_two_pow (Nat.mod_lt _ (by norm_num)) (lt_of_le_of_lt (Nat.div_le_self _ _) hd)),
    show (2 : Nat) ^ 45 = 35184372088832 by norm_num, show (2 : Nat) ^ 64 = 18446744073709551616 by norm_num,
    show (2 : Nat) ^ (64 - 45) = 524288 by norm_num]

theorem f_stOf (a b c d : Nat) (ha : a < 2 ^ 64) (hb : b < 2 ^ 64) (hc : c < 2 ^ 64) (hd : d < 2 ^ 64) :
    ∃ a' b' c' d', (∀ k, nextN a b c d k = k a' b' c' d') ∧ f (stOf a b c d) = stOf a' b' c' d' ∧
      a' < 2 ^ 64 ∧ b' < 2 ^ 64 ∧ c' < 2 ^ 64 ∧ d' < 2 ^ 64 := by
  have x1 : d ^^^ b < 2 ^ 64 := Nat.xor_lt_two_pow hd hb
  have x2 : c ^^^ a < 2 ^ 64 := Nat.xor_lt_two_pow hc ha
  have x3 : b * 131072 % 18446744073709551616 < 2 ^ 64 := Nat.mod_lt _ (by norm_num)
  refine ⟨_, _, _, _, fun k => rfl, ?_, Nat.xor_lt_two_pow ha x1, Nat.xor_lt_two_pow hb x2, Nat.xor_lt_two_pow x2 x3,
    Nat.or_lt_two_pow (Nat.mod_lt _ (by norm_num)) (lt_of_le_of_lt (Nat.div_le_self _ _) x1)⟩
  have h1 := shl_ofNat b hb
  have h2 := rotl_ofNat (d ^^^ b) x1
  rw [ofNat_xor] at h2
  unfold f next stOf
  simp only
  rw [h1, h2, ofNat_xor, ofNat_xor, ofNat_xor, ofNat_xor, ofNat_xor, ofNat_xor]

theorem chk_ok : ∀ (m P a b c d A B C D : Nat), a < 2 ^ 64 → b < 2 ^ 64 → c < 2 ^ 64 → d < 2 ^ 64 → chk m P a b c d A B C D = true →
    xorSt (stOf A B C D) (actN m P (stOf a b c d)) = zeroSt
  | 0, P, a, b, c, d, A, B, C, D, _, _, _, _, h => by
    simp only [chk, Bool.and_eq_true, beq_iff_eq] at h
    obtain ⟨⟨⟨rfl, rfl⟩, rfl⟩, rfl⟩ := h
    exact xorSt_self zeroSt
  | m + 1, P, a, b, c, d, A, B, C, D, ha, hb, hc, hd, h => by
    obtain ⟨a', b', c', d', h1, h2, g1, g2, g3, g4⟩ := f_stOf a b c d ha hb hc hd
    rw [chk, h1] at h
    have ih := chk_ok m _ _ _ _ _ _ _ _ _ g1 g2 g3 g4 h
    rw [actN, h2, ← xorSt_assoc]
    refine Eq.trans ?_ ih
    congr 1
    rcases Nat.mod_two_eq_zero_or_one P with e | e
    · simp [e, xorSt_zero]
    · simp [e, stOf, xorSt, ofNat_xor]

/-- The check for all states with a single bit. -/
def chkAll : Bool :=
  (List.range 64).all fun i =>
    chk 257 charP (2 ^ i) 0 0 0 0 0 0 0 && chk 257 charP 0 (2 ^ i) 0 0 0 0 0 0 && chk 257 charP 0 0 (2 ^ i) 0 0 0 0 0 &&
      chk 257 charP 0 0 0 (2 ^ i) 0 0 0 0

set_option maxRecDepth 100000 in
theorem chkAll_true : chkAll = true := by decide +kernel

/-- An additive function which is 0 at the powers of 2 is 0. -/
theorem additive_zero (g : BitVec 64 → St) (hg : ∀ x y, g (x ^^^ y) = xorSt (g x) (g y)) (h : ∀ i < 64, g (BitVec.ofNat 64 (2 ^ i)) = zeroSt)
    (x : BitVec 64) : g x = zeroSt := by
  have h0 : g 0#64 = zeroSt := by
    have := hg 0#64 0#64
    rw [BitVec.xor_self, xorSt_self] at this
    exact this
  have key : ∀ k ≤ 64, ∀ n < 2 ^ k, g (BitVec.ofNat 64 n) = zeroSt := by
    intro k
    induction k with
    | zero =>
      intro _ n hn
      have : n = 0 := by simpa using hn
      rw [this]; exact h0
    | succ k ih =>
      intro hk n hn
      by_cases hlt : n < 2 ^ k
      · exact ih (by omega) n hlt
      · have hn' : n = 2 ^ k ^^^ (n - 2 ^ k) := by
          rw [pow_succ] at hn
          have hm : n - 2 ^ k < 2 ^ k := by omega
          have := Nat.two_pow_add_eq_or_of_lt hm 1
          have hor : 2 ^ k ^^^ (n - 2 ^ k) = 2 ^ k + (n - 2 ^ k) := by
            rw [mul_one] at this
            rw [this]
            refine Nat.eq_of_testBit_eq (fun i => ?_)
            rw [Nat.testBit_xor, Nat.testBit_or, Nat.testBit_two_pow]
            by_cases e : k = i
            · subst e
              rw [Nat.testBit_lt_two_pow hm]; simp
            · simp [e]
          omega
        rw [hn', ofNat_xor, hg, h k (by omega), zero_xorSt]
        refine ih (by omega) _ ?_
        rw [pow_succ] at hn
        omega
  have := key 64 le_rfl x.toNat x.isLt
  rwa [BitVec.ofNat_toNat, BitVec.setWidth_eq] at this

/-- The characteristic polynomial of the transition gives 0. -/
theorem charP_zero (s : St) : actN 257 charP s = zeroSt := by
  have hall := chkAll_true
  unfold chkAll at hall
  rw [List.all_eq_true] at hall
  have hbit : ∀ i < 64, actN 257 charP (stOf (2 ^ i) 0 0 0) = zeroSt ∧ actN 257 charP (stOf 0 (2 ^ i) 0 0) = zeroSt ∧
      actN 257 charP (stOf 0 0 (2 ^ i) 0) = zeroSt ∧ actN 257 charP (stOf 0 0 0 (2 ^ i)) = zeroSt := by
    intro i hi
    have h := hall i (List.mem_range.mpr hi)
    simp only [Bool.and_eq_true] at h
    obtain ⟨⟨⟨h1, h2⟩, h3⟩, h4⟩ := h
    have hp : 2 ^ i < 2 ^ 64 := Nat.pow_lt_pow_right (by omega) hi
    have z : (0 : Nat) < 2 ^ 64 := by norm_num
    have e1 := chk_ok _ _ _ _ _ _ _ _ _ _ hp z z z h1
    have e2 := chk_ok _ _ _ _ _ _ _ _ _ _ z hp z z h2
    have e3 := chk_ok _ _ _ _ _ _ _ _ _ _ z z hp z h3
    have e4 := chk_ok _ _ _ _ _ _ _ _ _ _ z z z hp h4
    have ez : stOf 0 0 0 0 = zeroSt := rfl
    rw [ez, zero_xorSt] at e1 e2 e3 e4
    exact ⟨e1, e2, e3, e4⟩
  obtain ⟨a, b, c, d⟩ := s
  have g1 := additive_zero (fun x => actN 257 charP ⟨x, 0#64, 0#64, 0#64⟩)
    (fun x y => by rw [← actN_add]; simp [xorSt]) (fun i hi => (hbit i hi).1) a
  have g2 := additive_zero (fun x => actN 257 charP ⟨0#64, x, 0#64, 0#64⟩)
    (fun x y => by rw [← actN_add]; simp [xorSt]) (fun i hi => (hbit i hi).2.1) b
  have g3 := additive_zero (fun x => actN 257 charP ⟨0#64, 0#64, x, 0#64⟩)
    (fun x y => by rw [← actN_add]; simp [xorSt]) (fun i hi => (hbit i hi).2.2.1) c
  have g4 := additive_zero (fun x => actN 257 charP ⟨0#64, 0#64, 0#64, x⟩)
    (fun x y => by rw [← actN_add]; simp [xorSt]) (fun i hi => (hbit i hi).2.2.2) d
  have e : (⟨a, b, c, d⟩ : St) = xorSt (xorSt ⟨a, 0#64, 0#64, 0#64⟩ ⟨0#64, b, 0#64, 0#64⟩) (xorSt ⟨0#64, 0#64, c, 0#64⟩ ⟨0#64, 0#64, 0#64, d⟩) := by
    simp [xorSt]
  rw [e, actN_add, actN_add, actN_add, g1, g2, g3, g4]
  rfl

/-- Multiplication by x modulo the characteristic polynomial. -/
def xtime (B : Nat) : Nat := (2 * B) ^^^ ((2 * B) / 2 ^ 256 * charP)

/-- Multiplication modulo the characteristic polynomial. -/
def mulP : Nat → Nat → Nat → Nat
  | 0, _, _ => 0
  | m + 1, A, B => (A % 2 * B) ^^^ mulP m (A / 2) (xtime B)

/-- The product of the entries of a table at the places where `e` has a bit. -/
def powP : List Nat → Nat → Nat
  | [], _ => 1
  | r :: t, e => if e % 2 = 1 then mulP 256 r (powP t (e / 2)) else powP t (e / 2)

theorem xtime_ok (B : Nat) (hB : B < 2 ^ 256) : xtime B < 2 ^ 256 ∧ ∀ s, actN 256 (xtime B) s = f (actN 256 B s) := by
  unfold xtime
  by_cases h : 2 * B < 2 ^ 256
  · rw [Nat.div_eq_of_lt h, zero_mul, Nat.xor_zero]
    refine ⟨h, fun s => ?_⟩
    rw [← actN_double, actN_more 256 1 _ _ h]
  · have hdiv : 2 * B / 2 ^ 256 = 1 := by
      refine Nat.div_eq_of_lt_le ?_ ?_ <;> omega
    rw [hdiv, one_mul]
    have hlt : 2 * B ^^^ charP < 2 ^ 256 := by
      refine Nat.lt_pow_two_of_testBit _ (fun j hj => ?_)
      rcases Nat.eq_or_lt_of_le hj with rfl | hj
      · rw [Nat.testBit_xor]
        have e1 : (2 * B).testBit 256 = true := by
          rw [Nat.testBit_eq_decide_div_mod_eq, hdiv]; rfl
        have e2 : charP.testBit 256 = true := by decide +kernel
        rw [e1, e2]; rfl
      · have e1 : (2 * B ^^^ charP) < 2 ^ j := by
          refine lt_of_lt_of_le (Nat.xor_lt_two_pow (n := 257) (by omega) (by decide +kernel)) ?_
          exact Nat.pow_le_pow_right (by omega) (by omega)
        exact Nat.testBit_lt_two_pow e1
    refine ⟨hlt, fun s => ?_⟩
    rw [← actN_more 256 1 _ _ hlt, actN_xor, charP_zero, xorSt_zero, actN_double]

theorem mulP_ok : ∀ (m A B : Nat), B < 2 ^ 256 → mulP m A B < 2 ^ 256 ∧ ∀ s, actN 256 (mulP m A B) s = actN m A (actN 256 B s)
  | 0, A, B, _ => ⟨by rw [mulP]; norm_num, fun s => by rw [mulP, actN_null]; rfl⟩
  | m + 1, A, B, hB => by
    obtain ⟨x1, x2⟩ := xtime_ok B hB
    obtain ⟨h1, h2⟩ := mulP_ok m (A / 2) (xtime B) x1
    rw [mulP]
    have hl : A % 2 * B < 2 ^ 256 := by
      rcases Nat.mod_two_eq_zero_or_one A with e | e
      · rw [e, zero_mul]; norm_num
      · rw [e, one_mul]; exact hB
    refine ⟨Nat.xor_lt_two_pow hl h1, fun s => ?_⟩
    rw [actN_xor, h2, x2]
    show _ = xorSt (if A % 2 = 1 then actN 256 B s else zeroSt) (actN m (A / 2) (f (actN 256 B s)))
    rcases Nat.mod_two_eq_zero_or_one A with e | e
    · rw [e, zero_mul, actN_null, if_neg (by omega)]
    · rw [e, one_mul, if_pos rfl]

/-- The polynomial stands for the function. -/
def Rep (P : Nat) (g : St → St) : Prop := P < 2 ^ 256 ∧ ∀ s, actN 256 P s = g s

theorem Rep.mul {P Q : Nat} {g h : St → St} (hP : Rep P g) (hQ : Rep Q h) : Rep (mulP 256 P Q) (g ∘ h) := by
  obtain ⟨m1, m2⟩ := mulP_ok 256 P Q hQ.1
  exact ⟨m1, fun s => by rw [m2, hQ.2, hP.2]; rfl⟩

theorem Rep.one : Rep 1 id := by
  refine ⟨by norm_num, fun s => ?_⟩
  rw [show (256 : Nat) = 1 + 255 by rfl, actN_more 1 255 1 s (by norm_num)]
  simp [actN, xorSt_zero]

theorem Rep.x : Rep 2 f := by
  refine ⟨by norm_num, fun s => ?_⟩
  rw [show (256 : Nat) = 2 + 254 by rfl, actN_more 2 254 2 s (by norm_num)]
  simp [actN, xorSt_zero, zero_xorSt]

end Plc.Xo
