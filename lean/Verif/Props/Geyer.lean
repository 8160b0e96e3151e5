import Verif.Proofs.Geyer
import Mathlib.Tactic.NormNum

/-! # Estimates of the error of Markov chain integration -/

namespace Plc.Geyer

open Finset Spec

/-- The values of a list. -/
abbrev vals (ds : List ℝ) : Nat → ℝ := fun i => ds.getD i 0

/-- **C99** `ips_value` returns the mean of the data and the error estimated from the autocovariances with the initial sequence of positive Γ k. If the
estimate of the variance is negative γ 0 is used instead. None of the assertions fails. -/
theorem C99_direct (x : Nat → ℝ) {n : Nat} (hn : 0 < n) : ∃ K, Initial (Gam x n) (n / 2) K ∧
    ipsValue x n = .ok (mean x n, 1.96 * Real.sqrt (if 0 ≤ est x n K then est x n K else gam x n 0) / Real.sqrt n) := by
  obtain ⟨e, K, h1, h2, h3, _⟩ := sigmaEst_ok x hn
  refine ⟨K, h2, ?_⟩
  unfold ipsValue
  simp only [sampleMean_eq x hn]
  rw [h1, ok_bind, h3]
  rfl

theorem run (nan : ℝ) {B : Nat} (hB : 0 < B) (ds : List ℝ) : ∃ g, addAll nan (new nan B) ds = .ok g ∧ Inv (vals ds) ds.length B g := by
  have := addAll_ok nan hB ds [] (new nan B) (inv_new _ nan hB)
  exact this

/-- **C99** With at least 4 samples, all in the buffer, `geyer_ips_value` returns what `ips_value` returns. -/
theorem C99_buffer (nan : ℝ) {B : Nat} {ds : List ℝ} (h4 : 4 ≤ ds.length) (hB : ds.length ≤ B) : ∃ g m e, addAll nan (new nan B) ds = .ok g ∧
    ipsValue (vals ds) ds.length = .ok (m, e) ∧ value g = .ok ⟨m, some e, some true⟩ := by
  obtain ⟨g, hg, hi⟩ := run nan (show 0 < B by omega) ds
  have hsa := hi.samples
  have hsz := hi.size
  rcases hi.phase with ⟨p1, p2, p3, p4⟩ | ⟨q, F⟩
  · obtain ⟨K, k1, k2⟩ := C99_direct (vals ds) (show 0 < ds.length by omega)
    have hc : gam g.buf ds.length = gam (vals ds) ds.length := gam_congr p3
    have hm : mean g.buf ds.length = mean (vals ds) ds.length := by
      unfold mean
      congr 1
      exact sum_congr rfl fun i hi => p3 i (mem_range.mp hi)
    obtain ⟨e, K', h1, h2, h3, h5⟩ := sigmaEst_ok g.buf (show 0 < ds.length by omega)
    have hG : Gam g.buf ds.length = Gam (vals ds) ds.length := by funext k; unfold Gam; rw [hc]
    have hE : ∀ K, est g.buf ds.length K = est (vals ds) ds.length K := by intro K; unfold est; rw [hc, hG]
    rw [hG] at h2
    obtain rfl := initial_unique k1 h2
    refine ⟨g, _, _, hg, k2, ?_⟩
    unfold value
    rw [if_neg (by omega)]
    simp only [mean_eq hi]
    rw [if_pos (by omega), hsa, ← hm, h1, ok_bind, if_neg (by rw [h5]; omega), h3, hE, hc]
    rfl
  · have hqB : g.size ≤ q * g.size := Nat.le_mul_of_pos_left _ F.q1
    have := F.hn
    have := F.u1
    omega

theorem full_of {D : Nat → ℝ} {n B : Nat} {g : Gips} (hi : Inv D n B g) (h : B < n) : ∃ q, Full D n q g := by
  rcases hi.phase with ⟨p1, _⟩ | F
  · omega
  · exact F

theorem sum_est {x : Nat → ℝ} {n K : Nat} : -(gam x n 0) + ∑ i ∈ range (K + 1), 2 * Gam x n i = est x n K := by
  rw [sum_range_succ']
  unfold est
  rw [← mul_sum]
  unfold Gam
  simp only [Nat.mul_zero, Nat.zero_add]
  ring

/-- **C99** With more samples than fit in the buffer, however large it is (at least 2): the mean is that of all samples, and if `*ok` is set the error is the
one computed from all samples with the whole initial positive sequence, except that it is NaN if the estimate of the variance is negative. If `*ok` is false the sum
ends earlier, after at least min(50,B)/2 - 1 of the Γ k or at one which is 0. Values left in the buffers are not used. -/
theorem C99_buffered (nan : ℝ) {B : Nat} {ds : List ℝ} (h2 : 2 ≤ B) (hB : B < ds.length) : ∃ g v, addAll nan (new nan B) ds = .ok g ∧ value g = .ok v ∧
    v.mean = mean (vals ds) ds.length ∧
    ((v.ok = some true ∧ ∃ K, Initial (Gam (vals ds) ds.length) (ds.length / 2) K ∧
        v.error = if est (vals ds) ds.length K < 0 then none else some (1.96 * Real.sqrt (est (vals ds) ds.length K) / Real.sqrt ds.length)) ∨
     (v.ok = some false ∧ ∃ K, (∀ k, 1 ≤ k → k < K → 0 < Gam (vals ds) ds.length k) ∧ 0 ≤ Gam (vals ds) ds.length K ∧
        (Gam (vals ds) ds.length K = 0 ∨ min 50 B ≤ 2 * K + 3) ∧
        v.error = if est (vals ds) ds.length K < 0 then none else some (1.96 * Real.sqrt (est (vals ds) ds.length K) / Real.sqrt ds.length))) := by
  obtain ⟨g, hg, hi⟩ := run nan (show 0 < B by omega) ds
  obtain ⟨q, F⟩ := full_of hi hB
  obtain ⟨R, r1, r2, r3, r4, r5⟩ := value_full hi F h2
  have hsz := hi.size
  have k3 := F.if2
  have k4 := F.if1
  have k5 := F.nl
  refine ⟨g, _, hg, r5, rfl, ?_⟩
  have hmap : ∀ y : ℝ, (sqrtC y).map (fun s => 1.96 * s / Real.sqrt (ds.length : ℝ)) = if y < 0 then none else some (1.96 * Real.sqrt y / Real.sqrt (ds.length : ℝ)) := by
    intro y
    unfold sqrtC
    split <;> rfl
  by_cases hneg : Gam (vals ds) ds.length (R - 1) < 0
  · left
    have hR : 2 ≤ R := by
      by_contra hc
      obtain rfl : R = 1 := by omega
      exact absurd hneg (not_lt.mpr (Gam_zero_nonneg _ _))
    refine ⟨by simp [hneg], R - 2, ⟨?_, Or.inr ⟨by omega, ?_⟩, by omega⟩, ?_⟩
    · intro k hk1 hk2
      exact r3 k (by omega)
    · rw [show R - 2 + 1 = R - 1 from by omega]
      exact le_of_lt hneg
    · show (sqrtC _).map _ = _
      rw [if_pos hneg, show R - 1 = R - 2 + 1 from by omega, sum_est, hmap]
  · right
    refine ⟨by simp [hneg], R - 1, ?_, not_lt.mp hneg, ?_, ?_⟩
    · intro k hk1 hk2
      exact r3 k (by omega)
    · rcases r4 with r4 | r4
      · exact Or.inl (le_antisymm r4 (not_lt.mp hneg))
      · exact Or.inr (by omega)
    · show (sqrtC _).map _ = _
      rw [if_neg hneg, show range R = range (R - 1 + 1) from by congr 1; omega, sum_est, hmap]

/-- **C99** So the size of the buffer is not visible: if `*ok` is true and the error is a number it is that of `ips_value`. -/
theorem C99_same (nan : ℝ) {B : Nat} {ds : List ℝ} (h2 : 2 ≤ B) (hB : B < ds.length) : ∃ g v, addAll nan (new nan B) ds = .ok g ∧ value g = .ok v ∧
    ∀ e, v.ok = some true → v.error = some e → ipsValue (vals ds) ds.length = .ok (v.mean, e) := by
  obtain ⟨g, v, h1, h2, h3, h4⟩ := C99_buffered nan h2 hB
  refine ⟨g, v, h1, h2, ?_⟩
  intro e ho he
  rcases h4 with ⟨_, K, k1, k2⟩ | ⟨a, _⟩
  · obtain ⟨K', l1, l2⟩ := C99_direct (vals ds) (show 0 < ds.length by omega)
    obtain rfl := initial_unique k1 l1
    rw [he] at k2
    rw [l2, h3]
    split at k2
    · simp at k2
    · rename_i hn
      injection k2 with k2
      rw [if_pos (not_lt.mp hn), k2]
  · rw [a] at ho
    simp at ho

/-- **C99** Deviation: with one, two or three samples `geyer_ips_value` writes to a buffer of size 0. -/
theorem C99_few (nan : ℝ) {B : Nat} {ds : List ℝ} (h1 : 1 ≤ ds.length) (h3 : ds.length ≤ 3) (hB : ds.length ≤ B) : ∃ g, addAll nan (new nan B) ds = .ok g ∧
    value g = .error .ub := by
  obtain ⟨g, hg, hi⟩ := run nan (show 0 < B by omega) ds
  have hsa := hi.samples
  have hsz := hi.size
  rcases hi.phase with ⟨p1, p2, p3, p4⟩ | ⟨q, F⟩
  · have hm : mean g.buf ds.length = mean (vals ds) ds.length := by
      unfold mean
      congr 1
      exact sum_congr rfl fun i hi => p3 i (mem_range.mp hi)
    obtain ⟨e, K', e1, e2, e3, e5⟩ := sigmaEst_ok g.buf (show 0 < ds.length by omega)
    refine ⟨g, hg, ?_⟩
    unfold value
    rw [if_neg (by omega)]
    simp only [mean_eq hi]
    rw [if_pos (by omega), hsa, ← hm, e1, ok_bind, if_pos (by rw [e5]; omega)]
    rfl
  · have hqB : g.size ≤ q * g.size := Nat.le_mul_of_pos_left _ F.q1
    have := F.hn
    have := F.u1
    omega

/-- **C99** Deviation: with a buffer of size 1 and more than one sample `geyer_ips_value` reads beyond the end of the covariances. -/
theorem C99_one (nan : ℝ) {ds : List ℝ} (h : 2 ≤ ds.length) : ∃ g, addAll nan (new nan 1) ds = .ok g ∧ value g = .error .ub := by
  obtain ⟨g, hg, hi⟩ := run nan (show 0 < 1 by omega) ds
  obtain ⟨q, F⟩ := full_of hi (by omega)
  have hsa := hi.samples
  have hsz := hi.size
  have k1 := F.hn
  have k2 := F.u1
  have k3 := F.if2
  have k4 := F.if1
  have k5 := F.nl
  have hqB : g.size ≤ q * g.size := Nat.le_mul_of_pos_left _ F.q1
  refine ⟨g, hg, ?_⟩
  have hn1 : g.nldots = 1 := by omega
  unfold value
  rw [if_neg (by omega)]
  simp only [mean_eq hi]
  rw [if_neg (by omega)]
  have hz : ∀ i, i ∈ List.range g.nldots → zeroMeaned g i ((if i < min g.nldots g.used then g.ldot i + laggedDot i g.used g.buf else g.ldot i) + splitDot i g.nldots g.overlap g.used g.buf)
      (mean (vals ds) ds.length) = .ok (gam (vals ds) ds.length i) := by
    intro i hi'
    have hi' := List.mem_range.mp hi'
    rw [if_pos (by omega), F.ldot i hi', ← lag_split (vals ds) g.used hi' (by omega) g.overlap g.buf F.over F.buf, ← k1]
    exact zeroMeaned_ok hi F (by omega)
  rw [mapM_ok _ hz, ok_bind, if_pos (by omega)]
  rfl

/-- **C99** Deviation: if all samples are equal, so that the variance is 0, the error is 0 but `*ok` is false as soon as they do not fit in the buffer. -/
theorem C99_constant (nan c : ℝ) {B n : Nat} (h2 : 2 ≤ B) (hB : B < n) : ∃ g, addAll nan (new nan B) (List.replicate n c) = .ok g ∧
    value g = .ok ⟨c, some 0, some false⟩ := by
  obtain ⟨g, hg, hi⟩ := run nan (show 0 < B by omega) (List.replicate n c)
  obtain ⟨q, F⟩ := full_of hi (by simpa using hB)
  obtain ⟨R, r1, r2, r3, r4, r5⟩ := value_full hi F h2
  have hn' : (n : ℝ) ≠ 0 := by exact_mod_cast (show n ≠ 0 by omega)
  have hv : ∀ i, i < n → vals (List.replicate n c) i = c := by intro i hi; simp [vals, hi]
  rw [List.length_replicate] at r3 r4 r5
  have hm : mean (vals (List.replicate n c)) n = c := by
    unfold mean
    rw [sum_congr rfl (fun i hi => hv i (mem_range.mp hi))]
    simp
    field_simp
  have hg0 : ∀ l, gam (vals (List.replicate n c)) n l = 0 := by
    intro l
    unfold gam
    rw [sum_eq_zero, zero_div]
    intro i hi
    have := mem_range.mp hi
    rw [hm, hv i (by omega), sub_self, zero_mul]
  have hG0 : ∀ k, Gam (vals (List.replicate n c)) n k = 0 := by intro k; unfold Gam; rw [hg0, hg0, add_zero]
  refine ⟨g, hg, ?_⟩
  rw [r5, hm]
  simp [hG0, hg0, sqrtC]

/-- **C99** Deviation: with a buffer of 4 and these 8 samples the estimate of the variance is negative, so the error is NaN, with `*ok` true; `ips_value` returns
a number. -/
theorem C99_nan (nan : ℝ) : ∃ g v e, addAll nan (new nan 4) [3, -2, 1, -2, 3, -2, 1, -2] = .ok g ∧ value g = .ok v ∧ v.ok = some true ∧ v.error = none ∧
    ipsValue (vals [3, -2, 1, -2, 3, -2, 1, -2]) 8 = .ok (0, e) := by
  obtain ⟨g, hg, hi⟩ := run nan (show 0 < 4 by omega) [3, -2, 1, -2, 3, -2, 1, -2]
  obtain ⟨q, F⟩ := full_of hi (by simp)
  obtain ⟨R, r1, r2, r3, r4, r5⟩ := value_full hi F (by omega)
  have hsz := hi.size
  have k3 := F.if2
  have k4 := F.if1
  have k5 := F.nl
  rw [show ([3, -2, 1, -2, 3, -2, 1, -2] : List ℝ).length = 8 from rfl] at r3 r4 r5
  have hm : mean (vals [3, -2, 1, -2, 3, -2, 1, -2]) 8 = 0 := by
    unfold mean
    simp [sum_range_succ, vals]
    norm_num
  have g0 : Gam (vals [3, -2, 1, -2, 3, -2, 1, -2]) 8 0 = 10 / 8 := by
    unfold Gam gam
    rw [hm]
    simp [sum_range_succ, vals]
    norm_num
  have g00 : gam (vals [3, -2, 1, -2, 3, -2, 1, -2]) 8 0 = 36 / 8 := by
    unfold gam
    rw [hm]
    simp [sum_range_succ, vals]
    norm_num
  have g1 : Gam (vals [3, -2, 1, -2, 3, -2, 1, -2]) 8 1 = -1 / 8 := by
    unfold Gam gam
    rw [hm]
    simp [sum_range_succ, vals]
    norm_num
  have hR : R = 2 := by
    have : R ≠ 1 := by
      rintro rfl
      rcases r4 with r4 | r4
      · rw [g0] at r4; norm_num at r4
      · omega
    omega
  subst hR
  obtain ⟨K, _, k2⟩ := C99_direct (vals [3, -2, 1, -2, 3, -2, 1, -2]) (show 0 < 8 by omega)
  rw [hm] at k2
  refine ⟨g, _, _, hg, r5, ?_, ?_, k2⟩
  · simp [g1]
    norm_num
  · simp only [Nat.add_one_sub_one, g1]
    rw [if_pos (by norm_num), sum_range_one, g0, g00]
    unfold sqrtC
    rw [if_pos (by norm_num)]
    rfl

/-- Samples which do not fit in the buffer. -/
example (nan : ℝ) : ∃ g v, addAll nan (new nan 2) [1, 5, 2, 7, 3] = .ok g ∧ value g = .ok v ∧ v.mean = mean (vals [1, 5, 2, 7, 3]) 5 := by
  obtain ⟨g, v, h1, h2, h3, _⟩ := C99_buffered nan (B := 2) (ds := [1, 5, 2, 7, 3]) (by omega) (by simp)
  exact ⟨g, v, h1, h2, h3⟩

end Plc.Geyer
