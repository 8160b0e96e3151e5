import Verif.Proofs.Poca

/-! # C86: the closest points of two edges -/

namespace Plc.Poca

open Plc.Core Plc.FindCrossings Plc.RandomPolygon Plc.Equilateral Plc.Motions Plc.Measure

/-! ## Edges which are parallel or clearly not -/

theorem findPoca_kkt {A0 A1 B0 B1 : V3} (hA : A0 ≠ A1) (hB : B0 ≠ B1) (h : area A0 A1 B0 B1 = 0 ∨ 1e-25 ≤ area A0 A1 B0 B1 ^ 2) :
    ∃ t u, findPoca A0 A1 B0 B1 = some (t, u, gap (A1.sub A0) (B1.sub B0) (B0.sub A0) t u) ∧
      Kkt ((A1.sub A0).dot (A1.sub A0)) ((B1.sub B0).dot (B1.sub B0)) ((A1.sub A0).dot (B1.sub B0)) ((A1.sub A0).dot (B0.sub A0))
        ((B1.sub B0).dot (B0.sub A0)) t u := by
  have h1 := sub_dot_pos hA
  have h2 := sub_dot_pos hB
  unfold area at h
  unfold findPoca
  simp only
  have hde := denom_eq (A1.sub A0) (B1.sub B0)
  rw [hde]
  rcases h with hz | hz
  · rw [hz, if_pos (by norm_num), if_pos (by norm_num)]
    have hc := apart_zero hz
    have hd0 : (A1.sub A0).dot (A1.sub A0) * (B1.sub B0).dot (B1.sub B0) - (A1.sub A0).dot (B1.sub B0) * (A1.sub A0).dot (B1.sub B0) = 0 := by
      rw [hde, hz]; norm_num
    have hn : (A1.sub A0).dot (B0.sub A0) * (B1.sub B0).dot (B1.sub B0) - (B1.sub B0).dot (B0.sub A0) * (A1.sub A0).dot (B1.sub B0) = 0 := by
      obtain ⟨d1, hd1⟩ : ∃ x, x = A1.sub A0 := ⟨_, rfl⟩
      obtain ⟨d2, hd2⟩ : ∃ x, x = B1.sub B0 := ⟨_, rfl⟩
      obtain ⟨d12, hd12⟩ : ∃ x, x = B0.sub A0 := ⟨_, rfl⟩
      rw [← hd1, ← hd2] at hc
      rw [← hd1, ← hd2, ← hd12]
      have c1 : d1.y * d2.z - d1.z * d2.y = 0 := congrArg V3.x hc
      have c2 : d1.z * d2.x - d1.x * d2.z = 0 := congrArg V3.y hc
      have c3 : d1.x * d2.y - d1.y * d2.x = 0 := congrArg V3.z hc
      unfold V3.dot
      linear_combination (d2.z * d12.y - d2.y * d12.z) * c1 + (d2.x * d12.z - d2.z * d12.x) * c2 + (d2.y * d12.x - d2.x * d12.y) * c3
    apply finish_kkt h1 h2 (le_refl _) (by norm_num)
    · intro h; exact absurd rfl h
    · intro _; rw [hn, zero_mul]
  · have hp : 0 < apart (crossOf (A1.sub A0) (B1.sub B0)) ⟨0, 0, 0⟩ ^ 2 := lt_of_lt_of_le (by norm_num) hz
    rw [if_neg (c := apart (crossOf (A1.sub A0) (B1.sub B0)) ⟨0, 0, 0⟩ ^ 2 < 1e-25) (not_lt.mpr hz), ite_self]
    obtain ⟨a, b, _, _⟩ := clamp_spec (((A1.sub A0).dot (B0.sub A0) * (B1.sub B0).dot (B1.sub B0) - (B1.sub B0).dot (B0.sub A0) * (A1.sub A0).dot (B1.sub B0)) /
      apart (crossOf (A1.sub A0) (B1.sub B0)) ⟨0, 0, 0⟩ ^ 2)
    obtain ⟨lo, hi⟩ := clamp_mul (a := (A1.sub A0).dot (B0.sub A0) * (B1.sub B0).dot (B1.sub B0) - (B1.sub B0).dot (B0.sub A0) * (A1.sub A0).dot (B1.sub B0)) hp
    apply finish_kkt h1 h2 a b
    · rw [hde]; exact lo
    · rw [hde]; exact hi

/-- Two edges which are parallel, or whose parallelogram has an area of at least 1e-12.5: the answer is the distance of
the edges and where it is taken. -/
theorem C86_closest {A0 A1 B0 B1 : V3} (hA : A0 ≠ A1) (hB : B0 ≠ B1) (h : area A0 A1 B0 B1 = 0 ∨ 1e-25 ≤ area A0 A1 B0 B1 ^ 2) :
    ∃ t u d, findPoca A0 A1 B0 B1 = some (t, u, d) ∧ ClosestUpTo 0 A0 A1 B0 B1 t u d := by
  obtain ⟨t, u, e, k⟩ := findPoca_kkt hA hB h
  refine ⟨t, u, _, e, k.t0, k.t1, k.u0, k.u1, gap_eq _ _ _ _ _ _, fun s v s0 s1 v0 v1 => ?_⟩
  rw [← gap_eq, add_zero]
  exact kkt_least k s0 s1 v0 v1

/-! ## Edges which are nearly parallel -/

/-- The distance of `-d12` from the point at `c` on the line of the second edge. -/
noncomputable def lineGap (d2 d12 : V3) (c : ℝ) : ℝ := apart (V3.scale c d2) (V3.scale (-1) d12)

theorem lineGap_mono {d2 d12 : V3} (h2 : 0 < d2.dot d2) {a b c0 : ℝ} (hc : c0 * d2.dot d2 = -d2.dot d12)
    (h : (a ≤ b ∧ b ≤ c0) ∨ (c0 ≤ b ∧ b ≤ a)) : lineGap d2 d12 b ≤ lineGap d2 d12 a := by
  unfold lineGap apart
  apply Real.sqrt_le_sqrt
  have e : ∀ x, distSq (V3.scale x d2) (V3.scale (-1) d12) = d12.dot d12 + d2.dot d2 * (x ^ 2 - 2 * c0 * x) := by
    intro x
    have : d2.dot d2 * (x ^ 2 - 2 * c0 * x) = d2.dot d2 * x ^ 2 - 2 * x * (c0 * d2.dot d2) := by ring
    rw [this, hc]
    unfold distSq V3.scale V3.dot
    ring
  rw [e, e]
  have : d2.dot d2 * (b ^ 2 - 2 * c0 * b) ≤ d2.dot d2 * (a ^ 2 - 2 * c0 * a) := by
    apply mul_le_mul_of_nonneg_left _ h2.le
    rcases h with ⟨x, y⟩ | ⟨x, y⟩ <;> nlinarith
  linarith

/-- The component of the first edge across the second. -/
noncomputable def off (d1 d2 : V3) : V3 := d1.sub (V3.scale (d1.dot d2 / d2.dot d2) d2)

theorem off_area {A0 A1 B0 B1 : V3} (hB : B0 ≠ B1) : norm3 (off (A1.sub A0) (B1.sub B0)) = area A0 A1 B0 B1 / apart B0 B1 := by
  have h2 := sub_dot_pos hB
  have hn : apart B0 B1 = Real.sqrt ((B1.sub B0).dot (B1.sub B0)) := by
    unfold apart distSq V3.dot V3.sub; congr 1; ring
  have ha : 0 ≤ area A0 A1 B0 B1 := apart_nonneg _ _
  have hde := denom_eq (A1.sub A0) (B1.sub B0)
  rw [hn]
  unfold area at ha ⊢
  obtain ⟨w, hw⟩ : ∃ x, x = apart (crossOf (A1.sub A0) (B1.sub B0)) ⟨0, 0, 0⟩ := ⟨_, rfl⟩
  rw [← hw] at ha hde ⊢
  obtain ⟨d1, hd1⟩ : ∃ x, x = A1.sub A0 := ⟨_, rfl⟩
  obtain ⟨d2, hd2⟩ : ∃ x, x = B1.sub B0 := ⟨_, rfl⟩
  rw [← hd1, ← hd2] at hde ⊢
  rw [← hd2] at h2
  have : norm3 (off d1 d2) = Real.sqrt (w ^ 2 / d2.dot d2) := by
    rw [norm3_eq]
    unfold apart
    congr 1
    rw [← hde, eq_div_iff h2.ne']
    obtain ⟨q, hq⟩ : ∃ x, x = d1.dot d2 / d2.dot d2 := ⟨_, rfl⟩
    have hqm : q * d2.dot d2 = d1.dot d2 := by rw [hq]; exact div_mul_cancel₀ _ h2.ne'
    have e : distSq (off d1 d2) ⟨0, 0, 0⟩ = d1.dot d1 - 2 * q * d1.dot d2 + q * (q * d2.dot d2) := by
      unfold off
      rw [← hq]
      unfold distSq V3.sub V3.scale V3.dot
      ring
    rw [e, hqm]
    linear_combination (-d1.dot d2) * hqm
  rw [this, Real.sqrt_div (by positivity), Real.sqrt_sq ha]

theorem gap_line {d1 d2 d12 : V3} (t u : ℝ) (t0 : 0 ≤ t) (t1 : t ≤ 1) :
    |gap d1 d2 d12 t u - lineGap d2 d12 (u - t * (d1.dot d2 / d2.dot d2))| ≤ norm3 (off d1 d2) := by
  obtain ⟨q, hq⟩ : ∃ x, x = d1.dot d2 / d2.dot d2 := ⟨_, rfl⟩
  unfold off
  rw [← hq]
  have e1 : gap d1 d2 d12 t u = apart ((V3.scale u d2).sub (V3.scale t d1)) (V3.scale (-1) d12) := by
    unfold gap apart distSq V3.sub V3.scale; congr 1; ring
  have e2 : apart ((V3.scale u d2).sub (V3.scale t d1)) (V3.scale (u - t * q) d2) ≤ norm3 (d1.sub (V3.scale q d2)) := by
    have : apart ((V3.scale u d2).sub (V3.scale t d1)) (V3.scale (u - t * q) d2) = t * norm3 (d1.sub (V3.scale q d2)) := by
      rw [norm3_eq]
      unfold apart
      have : distSq ((V3.scale u d2).sub (V3.scale t d1)) (V3.scale (u - t * q) d2) = t ^ 2 * distSq (d1.sub (V3.scale q d2)) ⟨0, 0, 0⟩ := by
        unfold distSq V3.sub V3.scale; ring
      rw [this, Real.sqrt_mul (by positivity), Real.sqrt_sq t0]
    rw [this]
    have hn : 0 ≤ norm3 (d1.sub (V3.scale q d2)) := by rw [norm3_eq]; exact apart_nonneg _ _
    nlinarith
  rw [e1]
  unfold lineGap
  have a := apart_triangle ((V3.scale u d2).sub (V3.scale t d1)) (V3.scale (u - t * q) d2) (V3.scale (-1) d12)
  have b := apart_triangle (V3.scale (u - t * q) d2) ((V3.scale u d2).sub (V3.scale t d1)) (V3.scale (-1) d12)
  have c := apart_comm ((V3.scale u d2).sub (V3.scale t d1)) (V3.scale (u - t * q) d2)
  rw [abs_le]
  constructor <;> linarith

/-- The best place on the first edge for a given one on the second. -/
theorem edge_least {d1 d2 d12 : V3} (h1 : 0 < d1.dot d1) (u s : ℝ) (s0 : 0 ≤ s) (s1 : s ≤ 1) :
    gap d1 d2 d12 (clamp ((u * d1.dot d2 + d1.dot d12) / d1.dot d1)) u ≤ gap d1 d2 d12 s u := by
  apply abs_le_of_sq_le_sq' _ (gap_nonneg _ _ _ _ _) |>.2
  obtain ⟨c0, c1, _, _⟩ := clamp_spec ((u * d1.dot d2 + d1.dot d12) / d1.dot d1)
  obtain ⟨lo, hi⟩ := clamp_mul (a := u * d1.dot d2 + d1.dot d12) h1
  obtain ⟨t, ht⟩ : ∃ x, x = clamp ((u * d1.dot d2 + d1.dot d12) / d1.dot d1) := ⟨_, rfl⟩
  rw [← ht] at c0 c1 lo hi ⊢
  rw [gap_sq, gap_sq]
  have a := slope (g := d1.dot d1 * t - d1.dot d2 * u - d1.dot d12) s0 s1 c0 c1 (fun h => by have := lo h; linarith) (fun h => by have := hi h; linarith)
  have b := mul_nonneg h1.le (sq_nonneg (s - t))
  nlinarith

theorem finish_zero {d1 d2 d12 : V3} (h1 : 0 < d1.dot d1) (h2 : 0 < d2.dot d2) :
    ∃ t u, finish d1 d2 d12 0 = some (t, u, gap d1 d2 d12 t u) ∧ 0 ≤ t ∧ t ≤ 1 ∧ 0 ≤ u ∧ u ≤ 1 ∧
      ∀ s v, 0 ≤ s → s ≤ 1 → 0 ≤ v → v ≤ 1 → gap d1 d2 d12 t u ≤ gap d1 d2 d12 s v + 2 * norm3 (off d1 d2) := by
  obtain ⟨c0, hc0⟩ : ∃ x, x = (0 * d1.dot d2 - d2.dot d12) / d2.dot d2 := ⟨_, rfl⟩
  have hcm : c0 * d2.dot d2 = -d2.dot d12 := by rw [hc0, div_mul_cancel₀ _ h2.ne']; ring
  have e0 : finish d1 d2 d12 0 = (if 1 < c0 then some (clamp ((1 * d1.dot d2 + d1.dot d12) / d1.dot d1), 1, gap d1 d2 d12 (clamp ((1 * d1.dot d2 + d1.dot d12) / d1.dot d1)) 1)
      else if c0 < 0 then some (clamp ((0 * d1.dot d2 + d1.dot d12) / d1.dot d1), 0, gap d1 d2 d12 (clamp ((0 * d1.dot d2 + d1.dot d12) / d1.dot d1)) 0)
      else some (0, c0, gap d1 d2 d12 0 c0)) := by
    unfold finish ratio
    rw [if_neg h2.ne', if_neg h1.ne', if_neg h1.ne', ← hc0]
    simp only [Option.bind_eq_bind, Option.bind_some]
  obtain ⟨q, hq⟩ : ∃ x, x = d1.dot d2 / d2.dot d2 := ⟨_, rfl⟩
  have hn : 0 ≤ norm3 (off d1 d2) := by rw [norm3_eq]; exact apart_nonneg _ _
  rw [e0]
  split
  · rename_i hc
    obtain ⟨a, b, _, _⟩ := clamp_spec ((1 * d1.dot d2 + d1.dot d12) / d1.dot d1)
    refine ⟨_, _, rfl, a, b, by norm_num, le_refl _, fun s v s0 s1 v0 v1 => ?_⟩
    have hl := gap_line (d1 := d1) (d2 := d2) (d12 := d12) s v s0 s1
    rw [← hq] at hl
    have key : ∃ z, 0 ≤ z ∧ z ≤ 1 ∧ lineGap d2 d12 (1 - z * q) ≤ lineGap d2 d12 (v - s * q) := by
      by_cases h3 : v - s * q ≤ 1
      · exact ⟨0, le_refl _, by norm_num, lineGap_mono h2 hcm (.inl ⟨by linarith, by linarith⟩)⟩
      · have hsq : s * q < 0 := by linarith
        by_cases h4 : 1 - s * q ≤ c0
        · exact ⟨s, s0, s1, lineGap_mono h2 hcm (.inl ⟨by linarith, h4⟩)⟩
        · have hqn : q < 0 := by
            by_contra hx
            have := mul_nonneg s0 (not_lt.mp hx)
            linarith
          refine ⟨(1 - c0) / q, div_nonneg_of_nonpos (by linarith) hqn.le, ?_, ?_⟩
          · rw [div_le_one_of_neg hqn]; nlinarith
          · rw [div_mul_cancel₀ _ hqn.ne, show 1 - (1 - c0) = c0 by ring]
            rcases le_total (v - s * q) c0 with h5 | h5
            · exact lineGap_mono h2 hcm (.inl ⟨h5, le_refl _⟩)
            · exact lineGap_mono h2 hcm (.inr ⟨le_refl _, h5⟩)
    obtain ⟨z, z0, z1, hz⟩ := key
    have e1 := edge_least (d1 := d1) (d2 := d2) (d12 := d12) h1 1 z z0 z1
    have e2 := gap_line (d1 := d1) (d2 := d2) (d12 := d12) z 1 z0 z1
    rw [← hq] at e2
    rw [abs_le] at hl e2
    linarith [hl.1, hl.2, e2.1, e2.2]
  · split
    · rename_i hc1 hc
      obtain ⟨a, b, _, _⟩ := clamp_spec ((0 * d1.dot d2 + d1.dot d12) / d1.dot d1)
      refine ⟨_, _, rfl, a, b, le_refl _, by norm_num, fun s v s0 s1 v0 v1 => ?_⟩
      have hl := gap_line (d1 := d1) (d2 := d2) (d12 := d12) s v s0 s1
      rw [← hq] at hl
      have key : ∃ z, 0 ≤ z ∧ z ≤ 1 ∧ lineGap d2 d12 (0 - z * q) ≤ lineGap d2 d12 (v - s * q) := by
        by_cases h3 : 0 ≤ v - s * q
        · exact ⟨0, le_refl _, by norm_num, lineGap_mono h2 hcm (.inr ⟨by linarith, by linarith⟩)⟩
        · have hsq : 0 < s * q := by linarith
          by_cases h4 : c0 ≤ 0 - s * q
          · exact ⟨s, s0, s1, lineGap_mono h2 hcm (.inr ⟨h4, by linarith⟩)⟩
          · have hqp : 0 < q := by
              by_contra hx
              have := mul_nonneg s0 (neg_nonneg.mpr (not_lt.mp hx))
              linarith
            refine ⟨(-c0) / q, div_nonneg (by linarith) hqp.le, ?_, ?_⟩
            · rw [div_le_one hqp]; nlinarith
            · rw [div_mul_cancel₀ _ hqp.ne', show 0 - -c0 = c0 by ring]
              rcases le_total (v - s * q) c0 with h5 | h5
              · exact lineGap_mono h2 hcm (.inl ⟨h5, le_refl _⟩)
              · exact lineGap_mono h2 hcm (.inr ⟨le_refl _, h5⟩)
      obtain ⟨z, z0, z1, hz⟩ := key
      have e1 := edge_least (d1 := d1) (d2 := d2) (d12 := d12) h1 0 z z0 z1
      have e2 := gap_line (d1 := d1) (d2 := d2) (d12 := d12) z 0 z0 z1
      rw [← hq] at e2
      rw [abs_le] at hl e2
      linarith [hl.1, hl.2, e2.1, e2.2]
    · rename_i hc1 hc
      refine ⟨_, _, rfl, le_refl _, by norm_num, not_lt.mp hc, not_lt.mp hc1, fun s v s0 s1 v0 v1 => ?_⟩
      have hl := gap_line (d1 := d1) (d2 := d2) (d12 := d12) s v s0 s1
      have hz := gap_line (d1 := d1) (d2 := d2) (d12 := d12) 0 c0 (le_refl _) (by norm_num)
      rw [← hq] at hl hz
      rw [show c0 - 0 * q = c0 by ring] at hz
      have hm : lineGap d2 d12 c0 ≤ lineGap d2 d12 (v - s * q) := by
        rcases le_total (v - s * q) c0 with h5 | h5
        · exact lineGap_mono h2 hcm (.inl ⟨h5, le_refl _⟩)
        · exact lineGap_mono h2 hcm (.inr ⟨le_refl _, h5⟩)
      rw [abs_le] at hl hz
      linarith [hl.1, hl.2, hz.1, hz.2]

/-- Any two edges of positive length: the answer is where the two points are and how far they are apart, and no two
points of the edges are closer, but for `2 * sqrt 1e-25` divided by the length of the second edge. -/
theorem C86_almost {A0 A1 B0 B1 : V3} (hA : A0 ≠ A1) (hB : B0 ≠ B1) :
    ∃ t u d, findPoca A0 A1 B0 B1 = some (t, u, d) ∧ ClosestUpTo (2 * Real.sqrt 1e-25 / apart B0 B1) A0 A1 B0 B1 t u d := by
  have hpos : 0 ≤ 2 * Real.sqrt 1e-25 / apart B0 B1 := div_nonneg (by positivity) (apart_nonneg _ _)
  by_cases h : 1e-25 ≤ area A0 A1 B0 B1 ^ 2
  · obtain ⟨t, u, d, e, k⟩ := C86_closest hA hB (.inr h)
    refine ⟨t, u, d, e, k.t0, k.t1, k.u0, k.u1, k.dist, fun s v s0 s1 v0 v1 => ?_⟩
    have := k.least s v s0 s1 v0 v1
    linarith
  · have hlt := not_le.mp h
    obtain ⟨t, u, e, t0, t1, u0, u1, hl⟩ := finish_zero (d12 := B0.sub A0) (sub_dot_pos hA) (sub_dot_pos hB)
    refine ⟨t, u, _, ?_, t0, t1, u0, u1, gap_eq _ _ _ _ _ _, fun s v s0 s1 v0 v1 => ?_⟩
    · unfold findPoca
      simp only
      rw [denom_eq]
      unfold area at hlt
      rw [if_pos (lt_trans hlt (by norm_num)), if_pos hlt]
      exact e
    · rw [← gap_eq]
      refine le_trans (hl s v s0 s1 v0 v1) ?_
      rw [off_area hB]
      have ha : area A0 A1 B0 B1 ≤ Real.sqrt 1e-25 := Real.le_sqrt_of_sq_le hlt.le
      have := div_le_div_of_nonneg_right ha (apart_nonneg B0 B1)
      have e3 : 2 * Real.sqrt 1e-25 / apart B0 B1 = 2 * (Real.sqrt 1e-25 / apart B0 B1) := by ring
      rw [e3]
      linarith

/-- The claim without the error bound is false for short edges: two edges of length 1e-7 which meet in their middles, at
a right angle, are answered to be half an edge apart. -/
theorem C86_short_edges : findPoca ⟨-5e-8, 0, 0⟩ ⟨5e-8, 0, 0⟩ ⟨0, -5e-8, 0⟩ ⟨0, 5e-8, 0⟩ = some (0, 1 / 2, 5e-8) ∧
    along ⟨-5e-8, 0, 0⟩ ⟨5e-8, 0, 0⟩ (1 / 2) = along ⟨0, -5e-8, 0⟩ ⟨0, 5e-8, 0⟩ (1 / 2) := by
  constructor
  · have f1 : (V3.sub ⟨5e-8, 0, 0⟩ ⟨-5e-8, 0, 0⟩) = ⟨1e-7, 0, 0⟩ := by unfold V3.sub; norm_num
    have f2 : (V3.sub ⟨0, 5e-8, 0⟩ ⟨0, -5e-8, 0⟩) = ⟨0, 1e-7, 0⟩ := by unfold V3.sub; norm_num
    have f3 : (V3.sub ⟨0, -5e-8, 0⟩ ⟨-5e-8, 0, 0⟩) = ⟨5e-8, -5e-8, 0⟩ := by unfold V3.sub; norm_num
    have g1 : (V3.dot ⟨1e-7, 0, 0⟩ ⟨1e-7, 0, 0⟩) = 1e-14 := by unfold V3.dot; norm_num
    have g2 : (V3.dot ⟨0, 1e-7, 0⟩ ⟨0, 1e-7, 0⟩) = 1e-14 := by unfold V3.dot; norm_num
    have g3 : (V3.dot ⟨1e-7, 0, 0⟩ ⟨0, 1e-7, 0⟩) = 0 := by unfold V3.dot; norm_num
    have g4 : (V3.dot ⟨0, 1e-7, 0⟩ ⟨5e-8, -5e-8, 0⟩) = -5e-15 := by unfold V3.dot; norm_num
    have e : gap ⟨1e-7, 0, 0⟩ ⟨0, 1e-7, 0⟩ ⟨5e-8, -5e-8, 0⟩ 0 (1 / 2) = 5e-8 := by
      unfold gap
      rw [Real.sqrt_eq_iff_mul_self_eq_of_pos (by norm_num)]
      norm_num
    have hf : finish ⟨1e-7, 0, 0⟩ ⟨0, 1e-7, 0⟩ ⟨5e-8, -5e-8, 0⟩ 0 = some (0, 1 / 2, 5e-8) := by
      unfold finish ratio
      rw [g2, g3, g4]
      have h12 : ((0 : ℝ) * 0 - -5e-15) / 1e-14 = 1 / 2 := by norm_num
      have hne : ¬ (1e-14 : ℝ) = 0 := by norm_num
      have hx1 : ¬ (1 : ℝ) < 1 / 2 := by norm_num
      have hx2 : ¬ (1 / 2 : ℝ) < 0 := by norm_num
      simp only [hne, if_false, h12, Option.bind_eq_bind, Option.bind_some, hx1, hx2, e]
    unfold findPoca
    simp only
    rw [f1, f2, f3, g1, g2, g3, hf]
    have hy1 : (1e-14 * 1e-14 - 0 * 0 : ℝ) < 1e-10 := by norm_num
    have hy2 : (1e-14 * 1e-14 - 0 * 0 : ℝ) < 1e-25 := by norm_num
    rw [if_pos hy1, if_pos hy2]
  · simp only [along]
    norm_num

/-- An edge of length zero in the second place: the answer is not a number. -/
theorem C86_no_edge (A0 A1 B : V3) : findPoca A0 A1 B B = none := by
  have h0 : (B.sub B).dot (B.sub B) = 0 := by unfold V3.sub V3.dot; ring
  have hf : ∀ T, finish (A1.sub A0) (B.sub B) (B.sub A0) T = none := by
    intro T
    unfold finish
    simp only [ratio, h0, if_true, Option.bind_eq_bind, Option.bind_none]
  unfold findPoca
  simp only [hf, ite_self]

/-- The hypotheses of `C86_closest` hold for two skew edges, two apart, at their middles. -/
example : ∃ t u d, findPoca ⟨-1, 0, 0⟩ ⟨1, 0, 0⟩ ⟨0, -1, 2⟩ ⟨0, 1, 2⟩ = some (t, u, d) ∧ ClosestUpTo 0 ⟨-1, 0, 0⟩ ⟨1, 0, 0⟩ ⟨0, -1, 2⟩ ⟨0, 1, 2⟩ t u d := by
  apply C86_closest
  · intro h; have := congrArg V3.x h; norm_num at this
  · intro h; have := congrArg V3.y h; norm_num at this
  · right
    unfold area
    rw [← denom_eq]
    norm_num [V3.sub, V3.dot]

end Plc.Poca
