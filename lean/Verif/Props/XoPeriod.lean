import Verif.Proofs.XoTables
import Verif.Proofs.XoPrimes
import Mathlib.Dynamics.PeriodicPts.Defs
import Mathlib.Data.Fintype.Card
import Mathlib.Data.Fintype.Prod
import Mathlib.Data.Fintype.BigOperators

/-! # C79: the period of the random number generator, and jumping ahead in it -/

namespace Plc.Xo

theorem squares_rep : ∀ (l : List Nat) (n : Nat), squares l = true → (∀ r, l[0]? = some r → Rep r f^[2 ^ n]) →
    ∀ (i r : Nat), l[i]? = some r → Rep r f^[2 ^ (n + i)]
  | [], _, _, _, i, r, h => by simp at h
  | a :: l, n, hs, h0, 0, r, h => h0 r h
  | a :: l, n, hs, h0, i + 1, r, h => by
    rw [List.getElem?_cons_succ] at h
    cases l with
    | nil => simp at h
    | cons b l =>
      simp only [squares, Bool.and_eq_true, beq_iff_eq] at hs
      have := squares_rep (b :: l) (n + 1) hs.2 (fun r hr => by
        simp only [List.getElem?_cons_zero, Option.some.injEq] at hr
        subst hr
        rw [← hs.1]
        have ha := h0 a rfl
        have := ha.mul ha
        rwa [← Function.iterate_add, ← two_mul, ← pow_succ'] at this) i r h
      rwa [show n + 1 + i = n + (i + 1) by omega] at this

theorem table_rep (i r : Nat) (h : table[i]? = some r) : Rep r f^[2 ^ i] := by
  have := squares_rep table 0 table_squares (fun r hr => by
    rw [table_start, Option.some.injEq] at hr
    subst hr
    rw [pow_zero, Function.iterate_one]
    exact Rep.x) i r h
  rwa [Nat.zero_add] at this

theorem powP_rep : ∀ (l : List Nat) (n e : Nat), (∀ (i r : Nat), l[i]? = some r → Rep r f^[2 ^ (n + i)]) → e < 2 ^ l.length →
    Rep (powP l e) f^[2 ^ n * e]
  | [], n, e, _, h => by
    have : e = 0 := by simpa using h
    rw [this, mul_zero]
    exact Rep.one
  | r :: t, n, e, hl, h => by
    have ih := powP_rep t (n + 1) (e / 2) (fun i q hq => by
      have := hl (i + 1) q (by rw [List.getElem?_cons_succ]; exact hq)
      rwa [show n + (i + 1) = n + 1 + i by omega] at this) (by rw [List.length_cons, pow_succ] at h; omega)
    rw [powP]
    split
    · rename_i ho
      have := (hl 0 r rfl).mul ih
      rw [← Function.iterate_add, Nat.add_zero] at this
      have he : 2 ^ n * e = 2 ^ n + 2 ^ (n + 1) * (e / 2) := by
        conv_lhs => rw [show e = 2 * (e / 2) + 1 by omega]
        rw [pow_succ]; ring
      rwa [he]
    · rename_i ho
      have he : 2 ^ n * e = 2 ^ (n + 1) * (e / 2) := by
        conv_lhs => rw [show e = 2 * (e / 2) by omega]
        rw [pow_succ]; ring
      rwa [he]

theorem table_length : table.length = 257 := by decide +kernel

theorem power_rep (e : Nat) (h : e < 2 ^ 257) : Rep (powP table e) f^[e] := by
  have := powP_rep table 0 e (fun i r hr => by rw [Nat.zero_add]; exact table_rep i r hr) (by rw [table_length]; exact h)
  rwa [pow_zero, one_mul] at this

theorem f_injective : Function.Injective f := C39_next_injective

/-- After 2²⁵⁶ - 1 steps every state comes back. -/
theorem comes_back (s : St) : f^[2 ^ 256 - 1] s = s := by
  have h := (table_rep 256 2 table_256).2 s
  rw [Rep.x.2 s] at h
  obtain ⟨n, hn⟩ : ∃ n, n = 2 ^ 256 - 1 := ⟨_, rfl⟩
  have hn' : 2 ^ 256 = n + 1 := by rw [hn]; norm_num
  rw [hn', Function.iterate_succ_apply'] at h
  rw [← hn]
  exact (f_injective h).symm

/-- For a prime factor q of 2²⁵⁶ - 1, only the zero state comes back after one q-th of this number of steps. -/
theorem not_back (q : Nat) (hq : q ∈ factors) (s : St) (h : f^[(2 ^ 256 - 1) / q] s = s) : s = zeroSt := by
  have key : ∀ V Q : Nat, powP table ((2 ^ 256 - 1) / q) = V → mulP 256 Q (V ^^^ 1) = 1 → s = zeroSt := by
    intro V Q hV hQ
    obtain ⟨n, hn⟩ : ∃ n, n = (2 ^ 256 - 1) / q := ⟨_, rfl⟩
    rw [← hn] at h hV
    have hlt : n < 2 ^ 257 := by
      rw [hn]
      exact lt_of_le_of_lt (Nat.div_le_self _ _) (lt_of_lt_of_le (Nat.sub_lt (by positivity) one_pos) (Nat.pow_le_pow_right two_pos (by omega)))
    have hR := power_rep n hlt
    rw [hV] at hR
    have h1 : V ^^^ 1 < 2 ^ 256 := Nat.xor_lt_two_pow hR.1 (by norm_num)
    have h2 : actN 256 (V ^^^ 1) s = zeroSt := by rw [actN_xor, hR.2, Rep.one.2, h, id, xorSt_self]
    have h3 := (mulP_ok 256 Q (V ^^^ 1) h1).2 s
    rw [hQ, Rep.one.2, h2, actN_zero] at h3
    exact h3
  simp only [factors, List.mem_cons, List.not_mem_nil, or_false] at hq
  rcases hq with rfl | rfl | rfl | rfl | rfl | rfl | rfl | rfl | rfl | rfl | rfl
  · exact key _ _ power_3 inverse_3
  · exact key _ _ power_5 inverse_5
  · exact key _ _ power_17 inverse_17
  · exact key _ _ power_257 inverse_257
  · exact key _ _ power_641 inverse_641
  · exact key _ _ power_65537 inverse_65537
  · exact key _ _ power_274177 inverse_274177
  · exact key _ _ power_6700417 inverse_6700417
  · exact key _ _ power_67280421310721 inverse_67280421310721
  · exact key _ _ power_59649589127497217 inverse_59649589127497217
  · exact key _ _ power_5704689200685129054721 inverse_5704689200685129054721

theorem minimalPeriod_eq (s : St) (hs : s ≠ zeroSt) : Function.minimalPeriod f s = 2 ^ 256 - 1 := by
  obtain ⟨N, hN⟩ : ∃ N, N = 2 ^ 256 - 1 := ⟨_, rfl⟩
  have hback := comes_back s
  have hnot : ∀ q ∈ factors, f^[N / q] s ≠ s := fun q hq h => hs (not_back q hq s (by rw [← hN]; exact h))
  have hprod := factors_prod
  rw [← hN] at hback hprod ⊢
  have hpos : 0 < N := by rw [hN]; norm_num
  have hd : Function.minimalPeriod f s ∣ N := Function.IsPeriodicPt.minimalPeriod_dvd hback
  obtain ⟨k, hk⟩ := hd
  by_contra hne
  have hk1 : k ≠ 1 := fun e => hne (by rw [hk, e, mul_one])
  obtain ⟨q, hq, hqk⟩ := Nat.exists_prime_and_dvd hk1
  have hm : q ∈ factors := prime_dvd_list factors factors_prime q hq (by rw [hprod, hk]; exact Dvd.dvd.mul_left hqk _)
  refine hnot q hm ?_
  obtain ⟨j, hj⟩ := hqk
  have e : N / q = Function.minimalPeriod f s * j := by
    rw [hk, hj, show Function.minimalPeriod f s * (q * j) = q * (Function.minimalPeriod f s * j) by ring,
      Nat.mul_div_cancel_left _ hq.pos]
  rw [e]
  exact (Function.isPeriodicPt_minimalPeriod f s).mul_const j

theorem actN_split : ∀ (m k P : Nat) (s : St), actN (m + k) P s = xorSt (actN m P s) (actN k (P / 2 ^ m) (f^[m] s))
  | 0, k, P, s => by
    rw [pow_zero, Nat.div_one, Function.iterate_zero, id]
    show actN (0 + k) P s = xorSt zeroSt _
    rw [zero_xorSt, Nat.zero_add]
  | m + 1, k, P, s => by
    rw [show m + 1 + k = (m + k) + 1 by omega]
    show xorSt (if P % 2 = 1 then s else zeroSt) (actN (m + k) (P / 2) (f s)) =
      xorSt (xorSt (if P % 2 = 1 then s else zeroSt) (actN m (P / 2) (f s))) _
    rw [actN_split m k, xorSt_assoc, Nat.div_div_eq_div_mul, ← pow_succ', Function.iterate_succ_apply]

theorem actN_low (m P Q : Nat) (s : St) (h : P % 2 ^ m = Q % 2 ^ m) : actN m P s = actN m Q s := by
  induction m generalizing P Q s with
  | zero => rfl
  | succ m ih =>
    have e1 : P % 2 = Q % 2 := by
      have := congrArg (· % 2) h
      simp only [Nat.mod_mod_of_dvd _ (Dvd.intro_left (2 ^ m) (pow_succ 2 m).symm)] at this
      exact this
    have e2 : P / 2 % 2 ^ m = Q / 2 % 2 ^ m := by
      have := congrArg (· / 2) h
      simp only [pow_succ'] at this
      rwa [Nat.mod_mul_right_div_self, Nat.mod_mul_right_div_self] at this
    show xorSt (if P % 2 = 1 then s else zeroSt) (actN m (P / 2) (f s)) = xorSt (if Q % 2 = 1 then s else zeroSt) (actN m (Q / 2) (f s))
    rw [e1, ih _ _ _ e2]

theorem bit_iff (w : BitVec 64) (b : Nat) (hb : b < 64) : (w &&& (1#64 <<< b) ≠ 0#64) ↔ w.toNat / 2 ^ b % 2 = 1 := by
  have h1 : w.getLsbD b = decide (w.toNat / 2 ^ b % 2 = 1) := by
    rw [BitVec.getLsbD, Nat.testBit_eq_decide_div_mod_eq]
  have h2 : (w &&& (1#64 <<< b) ≠ 0#64) ↔ w.getLsbD b = true := by
    have e : w &&& (1#64 <<< b) = if w.getLsbD b then BitVec.twoPow 64 b else 0#64 := by
      rw [← BitVec.twoPow_eq, BitVec.and_twoPow]
    rw [e]
    cases w.getLsbD b
    · simp
    · simp only [if_true, ne_eq, iff_true]
      intro h
      have := congrArg (fun x => x.getLsbD b) h
      simp [hb] at this
  rw [h2, h1, decide_eq_true_eq]

theorem jumpWord_eq (w : BitVec 64) : ∀ (k b : Nat) (acc s : St), b + k = 64 →
    jumpWord w k b acc s = (xorSt acc (actN k (w.toNat / 2 ^ b) s), f^[k] s)
  | 0, b, acc, s, _ => by
    show (acc, s) = (xorSt acc zeroSt, s)
    rw [xorSt_zero]
  | k + 1, b, acc, s, h => by
    rw [jumpWord, jumpWord_eq w k (b + 1) _ _ (by omega), Function.iterate_succ_apply]
    show (xorSt _ (actN k _ (f s)), f^[k] (f s)) = (xorSt acc (xorSt (if w.toNat / 2 ^ b % 2 = 1 then s else zeroSt) (actN k _ (f s))), f^[k] (f s))
    rw [pow_succ, ← Nat.div_div_eq_div_mul, ← xorSt_assoc]
    congr 2
    by_cases hc : w.toNat / 2 ^ b % 2 = 1
    · rw [if_pos ((bit_iff w b (by omega)).mpr hc), if_pos hc]
    · rw [if_neg (fun q => hc ((bit_iff w b (by omega)).mp q)), if_neg hc, xorSt_zero]

theorem word_toNat (n : Nat) (h : n < 2 ^ 64) : (BitVec.ofNat 64 n).toNat = n := by
  rw [BitVec.toNat_ofNat, Nat.mod_eq_of_lt h]

theorem jump_words (a b c d : BitVec 64) (acc s : St) :
    ([a, b, c, d].foldl (fun r w => jumpWord w 64 0 r.1 r.2) (acc, s)).1 =
      xorSt (xorSt (xorSt (xorSt acc (actN 64 a.toNat s)) (actN 64 b.toNat (f^[64] s))) (actN 64 c.toNat (f^[64] (f^[64] s))))
        (actN 64 d.toNat (f^[64] (f^[64] (f^[64] s)))) := by
  have h : ∀ (w : BitVec 64) (acc s : St), jumpWord w 64 0 acc s = (xorSt acc (actN 64 w.toNat s), f^[64] s) := by
    intro w acc s
    rw [jumpWord_eq w 64 0 acc s rfl, pow_zero, Nat.div_one]
  rw [List.foldl_cons, List.foldl_cons, List.foldl_cons, List.foldl_cons, List.foldl_nil, h, h, h, h]

theorem act_words (J a b c d : Nat) (s : St) (j0 : a % 2 ^ 64 = J % 2 ^ 64) (j1 : b % 2 ^ 64 = J / 2 ^ 64 % 2 ^ 64)
    (j2 : c % 2 ^ 64 = J / 2 ^ 64 / 2 ^ 64 % 2 ^ 64) (j3 : d % 2 ^ 64 = J / 2 ^ 64 / 2 ^ 64 / 2 ^ 64 % 2 ^ 64) :
    actN (64 + (64 + (64 + 64))) J s = xorSt (actN 64 a s) (xorSt (actN 64 b (f^[64] s)) (xorSt (actN 64 c (f^[64] (f^[64] s)))
      (actN 64 d (f^[64] (f^[64] (f^[64] s)))))) := by
  rw [actN_split 64, actN_split 64, actN_split 64,
    ← actN_low 64 _ _ _ j0, ← actN_low 64 _ _ _ j1, ← actN_low 64 _ _ _ j2, ← actN_low 64 _ _ _ j3]

theorem jump_act (s : St) : jump s = actN 256 0x39abdc4529b1661ca9582618e03fc9aad5a61266f0c9392c180ec6d33cfd0aba s := by
  have e : (256 : Nat) = 64 + (64 + (64 + 64)) := by norm_num
  rw [e, act_words _ 0x180ec6d33cfd0aba 0xd5a61266f0c9392c 0xa9582618e03fc9aa 0x39abdc4529b1661c s (by decide +kernel) (by decide +kernel)
    (by decide +kernel) (by decide +kernel)]
  have h := jump_words 0x180ec6d33cfd0aba#64 0xd5a61266f0c9392c#64 0xa9582618e03fc9aa#64 0x39abdc4529b1661c#64 zeroSt s
  rw [zero_xorSt, word_toNat _ (by decide +kernel), word_toNat _ (by decide +kernel), word_toNat _ (by decide +kernel),
    word_toNat _ (by decide +kernel), xorSt_assoc, xorSt_assoc] at h
  rw [← h, jump, JUMP, zeroSt]

theorem jump_eq (s : St) : jump s = f^[2 ^ 128] s :=
  (jump_act s).trans ((table_rep 128 _ table_128).2 s)

/-- **C79.** `plc_xoshiro_jump` is 2¹²⁸ calls of `plc_xoshiro_next`. -/
theorem C79_jump (s : St) : jump s = (fun s => (next s).2)^[2 ^ 128] s := jump_eq s

/-- **C79.** The period of the generator is 2²⁵⁶ - 1 from every state which is not all zero: it comes back after so many calls and never
before. -/
theorem C79_period (s : St) (hs : s ≠ zeroSt) :
    (fun s => (next s).2)^[2 ^ 256 - 1] s = s ∧ ∀ k, 0 < k → k < 2 ^ 256 - 1 → (fun s => (next s).2)^[k] s ≠ s := by
  refine ⟨comes_back s, fun k hk hlt h => ?_⟩
  have hm := minimalPeriod_eq s hs
  rw [← hm] at hlt
  exact absurd (Function.IsPeriodicPt.minimalPeriod_le hk (show Function.IsPeriodicPt f k s from h)) (by omega)

/-- States at different places of the period are different. -/
theorem places_differ (s : St) (hs : s ≠ zeroSt) (i j : Nat) (hi : i < 2 ^ 256 - 1) (hj : j < 2 ^ 256 - 1) (h : f^[i] s = f^[j] s) : i = j := by
  have hm := minimalPeriod_eq s hs
  rw [← hm] at hi hj
  exact Function.iterate_injOn_Iio_minimalPeriod hi hj h

noncomputable instance : Fintype St := Fintype.ofFinite St

theorem card_bv (n : Nat) : Nat.card (BitVec n) = 2 ^ n := by
  have e : BitVec n ≃ Fin (2 ^ n) := ⟨fun x => x.toFin, fun x => BitVec.ofFin x, fun x => rfl, fun x => rfl⟩
  rw [Nat.card_congr e, Nat.card_fin]

/-- A state is four words. -/
def stEquiv : St ≃ BitVec 64 × BitVec 64 × BitVec 64 × BitVec 64 :=
  ⟨fun s => (s.s0, s.s1, s.s2, s.s3), fun p => ⟨p.1, p.2.1, p.2.2.1, p.2.2.2⟩, fun s => rfl, fun p => rfl⟩

theorem card_St : Nat.card St = 2 ^ 256 := by
  rw [Nat.card_congr stEquiv, Nat.card_prod, Nat.card_prod, Nat.card_prod, card_bv, ← pow_add, ← pow_add, ← pow_add]

/-- **C79.** There is only one cycle besides the zero state: from any state which is not all zero every other one is reached. -/
theorem C79_one_cycle (s t : St) (hs : s ≠ zeroSt) (ht : t ≠ zeroSt) : ∃ k < 2 ^ 256 - 1, (fun s => (next s).2)^[k] s = t := by
  classical
  obtain ⟨N, hN⟩ : ∃ N, N = 2 ^ 256 - 1 := ⟨_, rfl⟩
  rw [← hN]
  have hinj : Set.InjOn (fun k => f^[k] s) (Finset.range N : Set Nat) := by
    intro i hi j hj h
    refine places_differ s hs i j ?_ ?_ h
    · rw [← hN]; simpa using hi
    · rw [← hN]; simpa using hj
  have hc : ((Finset.range N).image (fun k => f^[k] s)).card = N := by
    rw [Finset.card_image_of_injOn hinj, Finset.card_range]
  have hsub : (Finset.range N).image (fun k => f^[k] s) ⊆ Finset.univ.erase zeroSt := by
    intro x hx
    obtain ⟨k, -, rfl⟩ := Finset.mem_image.mp hx
    exact Finset.mem_erase.mpr ⟨C39_never_zero s hs k, Finset.mem_univ _⟩
  have hce : (Finset.univ.erase zeroSt).card = N := by
    rw [Finset.card_erase_of_mem (Finset.mem_univ _), Finset.card_univ, ← Nat.card_eq_fintype_card, card_St, hN]
  have heq := Finset.eq_of_subset_of_card_le hsub (by rw [hce, hc])
  have : t ∈ (Finset.range N).image (fun k => f^[k] s) := by
    rw [heq]; exact Finset.mem_erase.mpr ⟨ht, Finset.mem_univ _⟩
  obtain ⟨k, hk, e⟩ := Finset.mem_image.mp this
  exact ⟨k, Finset.mem_range.mp hk, e⟩

/-- **C79.** Jumping makes streams which do not overlap: of the streams of 2¹²⁸ states begun by up to 2¹²⁸ - 1 jumps, no two have a
state in common, and no state is twice in one. (The period is one too short for 2¹²⁸ of them.) -/
theorem C79_streams (s : St) (hs : s ≠ zeroSt) (i i' j j' : Nat) (hi : i < 2 ^ 128) (hi' : i' < 2 ^ 128) (hj : j < 2 ^ 128 - 1)
    (hj' : j' < 2 ^ 128 - 1) (h : (fun s => (next s).2)^[i] (jump^[j] s) = (fun s => (next s).2)^[i'] (jump^[j'] s)) : j = j' ∧ i = i' := by
  have hjump : jump = f^[2 ^ 128] := funext jump_eq
  obtain ⟨M, hM⟩ : ∃ M, M = 2 ^ 128 := ⟨_, rfl⟩
  rw [hjump] at h
  have hMM : M * M = 2 ^ 256 := by rw [hM, ← pow_add]
  rw [← hM] at h hi hi' hj hj'
  have h' : f^[i + M * j] s = f^[i' + M * j'] s := by
    rw [Function.iterate_add_apply, Function.iterate_add_apply, Function.iterate_mul, Function.iterate_mul]
    exact h
  have hM1 : 2 ≤ M := by rw [hM]; norm_num
  have bound : ∀ a b : Nat, a < M → b < M - 1 → a + M * b < 2 ^ 256 - 1 := by
    intro a b ha hb
    rw [← hMM]
    have : M * (b + 1) ≤ M * (M - 1) := Nat.mul_le_mul_left _ (by omega)
    have e : M * (M - 1) + M = M * M := by rw [← Nat.mul_succ]; congr 1; omega
    rw [Nat.mul_succ] at this
    omega
  have := places_differ s hs _ _ (bound i j hi hj) (bound i' j' hi' hj') h'
  have e1 := congrArg (· % M) this
  simp only [Nat.add_mul_mod_self_left, Nat.mod_eq_of_lt hi, Nat.mod_eq_of_lt hi'] at e1
  subst e1
  refine ⟨?_, rfl⟩
  exact Nat.eq_of_mul_eq_mul_left (by omega) (Nat.add_left_cancel this)

/-- **C79.** Over a whole period every number is returned equally often, 2¹⁹² times, but for 0, which is returned once less. -/
theorem C79_uniform (s : St) (hs : s ≠ zeroSt) (v : BitVec 64) :
    ((Finset.range (2 ^ 256 - 1)).filter (fun k => (next ((fun s => (next s).2)^[k] s)).1 = v)).card = if v = 0#64 then 2 ^ 192 - 1 else 2 ^ 192 := by
  classical
  obtain ⟨N, hN⟩ : ∃ N, N = 2 ^ 256 - 1 := ⟨_, rfl⟩
  rw [← hN]
  have h1 : ((Finset.range N).filter (fun k => (next (f^[k] s)).1 = v)).card = ((Finset.univ.erase zeroSt).filter (fun t => (next t).1 = v)).card := by
    refine Finset.card_bij (fun k _ => f^[k] s) ?_ ?_ ?_
    · intro k hk
      rw [Finset.mem_filter] at hk ⊢
      exact ⟨Finset.mem_erase.mpr ⟨C39_never_zero s hs k, Finset.mem_univ _⟩, hk.2⟩
    · intro i hi j hj h
      rw [Finset.mem_filter, Finset.mem_range] at hi hj
      exact places_differ s hs i j (by rw [← hN]; exact hi.1) (by rw [← hN]; exact hj.1) h
    · intro t ht
      rw [Finset.mem_filter, Finset.mem_erase] at ht
      obtain ⟨k, hk, e⟩ := C79_one_cycle s t hs ht.1.1
      refine ⟨k, ?_, e⟩
      rw [Finset.mem_filter, Finset.mem_range]
      refine ⟨by rw [hN]; exact hk, ?_⟩
      rw [show f^[k] s = t from e]; exact ht.2
  have h2 : ((Finset.univ : Finset St).filter (fun t => (next t).1 = v)).card = 2 ^ 192 := by
    have e : {t : St // (next t).1 = v} ≃ BitVec 64 × BitVec 64 × BitVec 64 :=
      ⟨fun t => (t.1.s0, t.1.s1, t.1.s2), fun p => ⟨⟨p.1, p.2.1, p.2.2, v - p.1⟩, by
          show p.1 + (v - p.1) = v
          rw [BitVec.add_comm, BitVec.sub_add_cancel]⟩, by
        rintro ⟨⟨a, b, c, d⟩, ht⟩
        have ht' : a + d = v := ht
        simp only [Subtype.mk.injEq, St.mk.injEq, true_and]
        rw [← ht', BitVec.add_comm, BitVec.add_sub_cancel], fun p => rfl⟩
    rw [← Fintype.card_subtype, ← Nat.card_eq_fintype_card, Nat.card_congr e, Nat.card_prod, Nat.card_prod, card_bv, ← pow_add, ← pow_add]
  refine Eq.trans h1 ?_
  rw [Finset.filter_erase]
  by_cases hv : v = 0#64
  · rw [if_pos hv, Finset.card_erase_of_mem, h2]
    rw [Finset.mem_filter]
    exact ⟨Finset.mem_univ _, by rw [hv]; rfl⟩
  · rw [if_neg hv, Finset.erase_eq_of_notMem, h2]
    rw [Finset.mem_filter]
    rintro ⟨-, h⟩
    exact hv h.symm

/-- The hypothesis is met by every seed. -/
theorem seed_ok (x : BitVec 64) : init x ≠ zeroSt := (C39_init x).1

end Plc.Xo
