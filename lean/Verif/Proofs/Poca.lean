import Verif.Model.Poca
import Verif.Spec.Poca
import Verif.Proofs.Minrad

/-! # The closest points of two edges: lemmas -/

namespace Plc.Poca

open Plc.Core Plc.FindCrossings Plc.RandomPolygon Plc.Equilateral Plc.Motions Plc.Measure

/-! ## Clamping -/

theorem clamp_spec (x : ℝ) : 0 ≤ clamp x ∧ clamp x ≤ 1 ∧ (clamp x ≠ 0 → clamp x ≤ x) ∧ (clamp x ≠ 1 → x ≤ clamp x) := by
  unfold clamp
  split
  · rename_i h; exact ⟨by norm_num, le_refl _, fun _ => h.le, fun h => absurd rfl h⟩
  · split
    · rename_i h; exact ⟨le_refl _, by norm_num, fun h => absurd rfl h, fun _ => h.le⟩
    · rename_i h1 h2; exact ⟨not_lt.mp h2, not_lt.mp h1, fun _ => le_refl _, fun _ => le_refl _⟩

theorem clamp_mul {a b : ℝ} (hb : 0 < b) : (clamp (a / b) ≠ 0 → clamp (a / b) * b ≤ a) ∧ (clamp (a / b) ≠ 1 → a ≤ clamp (a / b) * b) := by
  obtain ⟨_, _, h0, h1⟩ := clamp_spec (a / b)
  exact ⟨fun h => (le_div_iff₀ hb).mp (h0 h), fun h => (div_le_iff₀ hb).mp (h1 h)⟩

/-! ## The first order conditions -/

/-- The first order conditions for the least value of a quadratic function on the square. -/
structure Kkt (D1 D2 R S1 S2 t u : ℝ) : Prop where
  t0 : 0 ≤ t
  t1 : t ≤ 1
  u0 : 0 ≤ u
  u1 : u ≤ 1
  tlo : t ≠ 0 → D1 * t - R * u - S1 ≤ 0
  thi : t ≠ 1 → 0 ≤ D1 * t - R * u - S1
  ulo : u ≠ 0 → D2 * u - R * t + S2 ≤ 0
  uhi : u ≠ 1 → 0 ≤ D2 * u - R * t + S2

theorem slope {t s g : ℝ} (s0 : 0 ≤ s) (s1 : s ≤ 1) (t0 : 0 ≤ t) (t1 : t ≤ 1) (lo : t ≠ 0 → g ≤ 0) (hi : t ≠ 1 → 0 ≤ g) : 0 ≤ g * (s - t) := by
  by_cases h0 : t = 0
  · subst h0
    have := hi (by norm_num)
    exact mul_nonneg this (by linarith)
  · by_cases h1 : t = 1
    · subst h1
      have := lo (by norm_num)
      exact mul_nonneg_of_nonpos_of_nonpos this (by linarith)
    · have : g = 0 := le_antisymm (lo h0) (hi h1)
      rw [this, zero_mul]

theorem kkt_inside {D1 D2 R S1 S2 T U : ℝ} (h2 : 0 < D2) (T0 : 0 ≤ T) (T1 : T ≤ 1)
    (lo : T ≠ 0 → T * (D1 * D2 - R * R) ≤ S1 * D2 - S2 * R) (hi : T ≠ 1 → S1 * D2 - S2 * R ≤ T * (D1 * D2 - R * R))
    (hU : U * D2 = T * R - S2) (U0 : 0 ≤ U) (U1 : U ≤ 1) : Kkt D1 D2 R S1 S2 T U := by
  have e : D2 * (D1 * T - R * U - S1) = T * (D1 * D2 - R * R) - (S1 * D2 - S2 * R) := by
    linear_combination -R * hU
  have e2 : D2 * U - R * T + S2 = 0 := by linear_combination hU
  refine ⟨T0, T1, U0, U1, fun h => ?_, fun h => ?_, fun _ => e2.le, fun _ => e2.ge⟩
  · have := lo h
    by_contra hc
    have : 0 < D2 * (D1 * T - R * U - S1) := mul_pos h2 (not_le.mp hc)
    linarith
  · have := hi h
    by_contra hc
    have : D2 * (D1 * T - R * U - S1) < 0 := mul_neg_of_pos_of_neg h2 (not_le.mp hc)
    linarith

theorem kkt_over {D1 D2 R S1 S2 T : ℝ} (h1 : 0 < D1) (h2 : 0 < D2) (hd : 0 ≤ D1 * D2 - R * R) (T0 : 0 ≤ T) (T1 : T ≤ 1)
    (lo : T ≠ 0 → T * (D1 * D2 - R * R) ≤ S1 * D2 - S2 * R) (hi : T ≠ 1 → S1 * D2 - S2 * R ≤ T * (D1 * D2 - R * R))
    (hU : D2 < T * R - S2) : Kkt D1 D2 R S1 S2 (clamp ((R + S1) / D1)) 1 := by
  obtain ⟨c0, c1, _, _⟩ := clamp_spec ((R + S1) / D1)
  obtain ⟨cl, ch⟩ := clamp_mul (a := R + S1) h1
  obtain ⟨T', hT'⟩ : ∃ x, x = clamp ((R + S1) / D1) := ⟨_, rfl⟩
  rw [← hT'] at c0 c1 cl ch ⊢
  refine ⟨c0, c1, by norm_num, le_refl _, fun h => by have := cl h; linarith, fun h => by have := ch h; linarith, fun _ => ?_, fun h => absurd rfl h⟩
  by_contra hc
  have hlt : R * T' < D2 + S2 := by linarith
  have hR : R * T' < R * T := by nlinarith
  rcases lt_trichotomy R 0 with hn | hz | hp
  · have ht : T < T' := by
      by_contra hx
      nlinarith
    have a1 := hi (by intro h; linarith)
    have a2 := cl (by intro h; linarith)
    have b1 : D2 * (D1 * T' - R) ≤ D2 * S1 := mul_le_mul_of_nonneg_left (by linarith) h2.le
    have b2 : 0 < -R * (D2 + S2 - R * T') := mul_pos (by linarith) (by linarith)
    have b3 : 0 ≤ (D1 * D2 - R * R) * (T' - T) := mul_nonneg hd (by linarith)
    nlinarith
  · subst hz; linarith
  · have ht : T' < T := by
      by_contra hx
      nlinarith
    have a1 := lo (by intro h; linarith)
    have a2 := ch (by intro h; linarith)
    have b1 : D2 * S1 ≤ D2 * (D1 * T' - R) := mul_le_mul_of_nonneg_left (by linarith) h2.le
    have b2 : 0 < R * (D2 + S2 - R * T') := mul_pos hp (by linarith)
    have b3 : 0 ≤ (D1 * D2 - R * R) * (T - T') := mul_nonneg hd (by linarith)
    nlinarith

theorem kkt_under {D1 D2 R S1 S2 T : ℝ} (h1 : 0 < D1) (h2 : 0 < D2) (hd : 0 ≤ D1 * D2 - R * R) (T0 : 0 ≤ T) (T1 : T ≤ 1)
    (lo : T ≠ 0 → T * (D1 * D2 - R * R) ≤ S1 * D2 - S2 * R) (hi : T ≠ 1 → S1 * D2 - S2 * R ≤ T * (D1 * D2 - R * R))
    (hU : T * R - S2 < 0) : Kkt D1 D2 R S1 S2 (clamp (S1 / D1)) 0 := by
  obtain ⟨c0, c1, _, _⟩ := clamp_spec (S1 / D1)
  obtain ⟨cl, ch⟩ := clamp_mul (a := S1) h1
  obtain ⟨T', hT'⟩ : ∃ x, x = clamp (S1 / D1) := ⟨_, rfl⟩
  rw [← hT'] at c0 c1 cl ch ⊢
  refine ⟨c0, c1, le_refl _, by norm_num, fun h => by have := cl h; linarith, fun h => by have := ch h; linarith, fun h => absurd rfl h, fun _ => ?_⟩
  by_contra hc
  have hlt : S2 < R * T' := by linarith
  have hR : R * T < R * T' := by nlinarith
  rcases lt_trichotomy R 0 with hn | hz | hp
  · have ht : T' < T := by
      by_contra hx
      nlinarith
    have a1 := lo (by intro h; linarith)
    have a2 := ch (by intro h; linarith)
    have b1 : D2 * S1 ≤ D2 * (D1 * T') := mul_le_mul_of_nonneg_left (by linarith) h2.le
    have b2 : 0 < -R * (R * T' - S2) := mul_pos (by linarith) (by linarith)
    have b3 : 0 ≤ (D1 * D2 - R * R) * (T - T') := mul_nonneg hd (by linarith)
    nlinarith
  · subst hz; linarith
  · have ht : T < T' := by
      by_contra hx
      nlinarith
    have a1 := hi (by intro h; linarith)
    have a2 := cl (by intro h; linarith)
    have b1 : D2 * (D1 * T') ≤ D2 * S1 := mul_le_mul_of_nonneg_left (by linarith) h2.le
    have b2 : 0 < R * (R * T' - S2) := mul_pos hp (by linarith)
    have b3 : 0 ≤ (D1 * D2 - R * R) * (T' - T) := mul_nonneg hd (by linarith)
    nlinarith

/-! ## Vectors -/

theorem gap_eq (A0 A1 B0 B1 : V3) (t u : ℝ) : gap (A1.sub A0) (B1.sub B0) (B0.sub A0) t u = apart (along A0 A1 t) (along B0 B1 u) := by
  unfold gap apart distSq along V3.sub
  congr 1
  ring

theorem gap_nonneg (d1 d2 d12 : V3) (t u : ℝ) : 0 ≤ gap d1 d2 d12 t u := Real.sqrt_nonneg _

theorem gap_sq (d1 d2 d12 : V3) (t u : ℝ) : gap d1 d2 d12 t u ^ 2 =
    d1.dot d1 * t ^ 2 - 2 * d1.dot d2 * t * u + d2.dot d2 * u ^ 2 - 2 * d1.dot d12 * t + 2 * d2.dot d12 * u + d12.dot d12 := by
  unfold gap
  rw [Real.sq_sqrt (add_nonneg (add_nonneg (mul_self_nonneg _) (mul_self_nonneg _)) (mul_self_nonneg _))]
  unfold V3.dot
  ring

theorem quad_nonneg (d1 d2 : V3) (a b : ℝ) : 0 ≤ d1.dot d1 * a ^ 2 - 2 * d1.dot d2 * a * b + d2.dot d2 * b ^ 2 := by
  have : d1.dot d1 * a ^ 2 - 2 * d1.dot d2 * a * b + d2.dot d2 * b ^ 2 = (a * d1.x - b * d2.x) ^ 2 + (a * d1.y - b * d2.y) ^ 2 + (a * d1.z - b * d2.z) ^ 2 := by
    unfold V3.dot; ring
  rw [this]; positivity

theorem denom_eq (d1 d2 : V3) : d1.dot d1 * d2.dot d2 - d1.dot d2 * d1.dot d2 = apart (crossOf d1 d2) ⟨0, 0, 0⟩ ^ 2 := by
  unfold apart
  rw [Real.sq_sqrt (by unfold distSq; positivity)]
  unfold V3.dot distSq crossOf
  ring

theorem kkt_least {d1 d2 d12 : V3} {t u : ℝ} (h : Kkt (d1.dot d1) (d2.dot d2) (d1.dot d2) (d1.dot d12) (d2.dot d12) t u)
    {s v : ℝ} (s0 : 0 ≤ s) (s1 : s ≤ 1) (v0 : 0 ≤ v) (v1 : v ≤ 1) : gap d1 d2 d12 t u ≤ gap d1 d2 d12 s v := by
  apply le_of_sq_le_sq₀ _ (gap_nonneg _ _ _ _ _)
  rw [gap_sq, gap_sq]
  have a := slope s0 s1 h.t0 h.t1 h.tlo h.thi
  have b := slope v0 v1 h.u0 h.u1 h.ulo h.uhi
  have c := quad_nonneg d1 d2 (s - t) (v - u)
  nlinarith
where
  le_of_sq_le_sq₀ {a b : ℝ} (h : a ^ 2 ≤ b ^ 2) (hb : 0 ≤ b) : a ≤ b := by
    apply abs_le_of_sq_le_sq' h hb |>.2

theorem sub_dot_pos {a b : V3} (h : a ≠ b) : 0 < (b.sub a).dot (b.sub a) := by
  have h0 : (b.sub a).dot (b.sub a) = distSq b a := by unfold V3.dot V3.sub distSq; ring
  rw [h0]
  rcases (show 0 ≤ distSq b a by unfold distSq; positivity).lt_or_eq with hp | hz
  · exact hp
  · exfalso
    apply h
    have : apart b a = 0 := by unfold apart; rw [← hz, Real.sqrt_zero]
    exact (apart_zero this).symm

theorem finish_kkt {d1 d2 d12 : V3} {T : ℝ} (h1 : 0 < d1.dot d1) (h2 : 0 < d2.dot d2) (T0 : 0 ≤ T) (T1 : T ≤ 1)
    (lo : T ≠ 0 → T * (d1.dot d1 * d2.dot d2 - d1.dot d2 * d1.dot d2) ≤ d1.dot d12 * d2.dot d2 - d2.dot d12 * d1.dot d2)
    (hi : T ≠ 1 → d1.dot d12 * d2.dot d2 - d2.dot d12 * d1.dot d2 ≤ T * (d1.dot d1 * d2.dot d2 - d1.dot d2 * d1.dot d2)) :
    ∃ t u, finish d1 d2 d12 T = some (t, u, gap d1 d2 d12 t u) ∧ Kkt (d1.dot d1) (d2.dot d2) (d1.dot d2) (d1.dot d12) (d2.dot d12) t u := by
  have hd : 0 ≤ d1.dot d1 * d2.dot d2 - d1.dot d2 * d1.dot d2 := by rw [denom_eq]; positivity
  obtain ⟨U, hU⟩ : ∃ x, x = (T * d1.dot d2 - d2.dot d12) / d2.dot d2 := ⟨_, rfl⟩
  have hUm : U * d2.dot d2 = T * d1.dot d2 - d2.dot d12 := by rw [hU]; exact div_mul_cancel₀ _ h2.ne'
  have e0 : finish d1 d2 d12 T = (if 1 < U then some (clamp ((d1.dot d2 + d1.dot d12) / d1.dot d1), 1, gap d1 d2 d12 (clamp ((d1.dot d2 + d1.dot d12) / d1.dot d1)) 1)
      else if U < 0 then some (clamp (d1.dot d12 / d1.dot d1), 0, gap d1 d2 d12 (clamp (d1.dot d12 / d1.dot d1)) 0)
      else some (T, U, gap d1 d2 d12 T U)) := by
    unfold finish ratio
    rw [if_neg h2.ne', if_neg h1.ne', if_neg h1.ne', ← hU]
    simp only [Option.bind_eq_bind, Option.bind_some, one_mul, zero_mul, zero_add]
  rw [e0]
  split
  · rename_i h
    refine ⟨_, _, rfl, kkt_over h1 h2 hd T0 T1 lo hi ?_⟩
    rw [← hUm]; nlinarith
  · split
    · rename_i h
      refine ⟨_, _, rfl, kkt_under h1 h2 hd T0 T1 lo hi ?_⟩
      rw [← hUm]; nlinarith
    · rename_i h3 h4
      exact ⟨_, _, rfl, kkt_inside h2 T0 T1 lo hi hUm (not_lt.mp h4) (not_lt.mp h3)⟩

end Plc.Poca
