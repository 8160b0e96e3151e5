import Verif.Spec.FindCrossings
import Mathlib.Tactic.FieldSimp
import Mathlib.Tactic.Ring
import Mathlib.Tactic.Linarith
import Mathlib.Tactic.LinearCombination

/-! The law of sines in `locate_crossing`. -/

namespace Plc.FindCrossings

/-- Planar cross product. -/
def cr (a b c d : ℝ) : ℝ := a * d - b * c

theorem angle_flat {a b : V3} (ha : a.z = 0) (hb : b.z = 0) :
    (angle a b).1 = Complex.arg ⟨a.x * b.x + a.y * b.y, |a.x * b.y - a.y * b.x|⟩ := by
  unfold angle atan2 V3.dot
  simp only [ha, hb]
  congr 1
  congr 1
  · ring
  · rw [← Real.sqrt_sq_eq_abs]
    congr 1
    ring

theorem norm_mk (x y : ℝ) : ‖(⟨x, y⟩ : ℂ)‖ = Real.sqrt (x ^ 2 + y ^ 2) := by
  rw [Complex.norm_def, Complex.normSq_mk]
  congr 1
  ring

theorem norm_angle (a b c d : ℝ) : ‖(⟨a * c + b * d, |a * d - b * c|⟩ : ℂ)‖ = Real.sqrt (a ^ 2 + b ^ 2) * Real.sqrt (c ^ 2 + d ^ 2) := by
  rw [norm_mk, sq_abs, ← Real.sqrt_mul (by positivity)]
  congr 1
  ring

theorem dist3_flat {a b : V3} (ha : a.z = 0) (hb : b.z = 0) : dist3 a b = Real.sqrt ((a.x - b.x) ^ 2 + (a.y - b.y) ^ 2) := by
  unfold dist3 V3.sub V3.dot
  simp only [ha, hb]
  congr 1
  ring

/-- The law of sines for the two fractions. -/
theorem locate_eq {A0 A1 B0 B1 : V3} (a0 : A0.z = 0) (a1 : A1.z = 0) (b0 : B0.z = 0) (b1 : B1.z = 0) {sA sB : ℝ}
    (h : locate A0 A1 B0 B1 = some (sA, sB))
    (hs : 0 < ((A0.x - B1.x) * (B0.y - B1.y) - (A0.y - B1.y) * (B0.x - B1.x)) * ((A0.x - B1.x) * (A1.y - A0.y) - (A0.y - B1.y) * (A1.x - A0.x)))
    (hd : (B0.x - B1.x) * (A1.y - A0.y) - (B0.y - B1.y) * (A1.x - A0.x) ≠ 0) :
    sA * ((B0.x - B1.x) * (A1.y - A0.y) - (B0.y - B1.y) * (A1.x - A0.x)) = (A0.x - B1.x) * (B0.y - B1.y) - (A0.y - B1.y) * (B0.x - B1.x) ∧
    (1 - sB) * ((B0.x - B1.x) * (A1.y - A0.y) - (B0.y - B1.y) * (A1.x - A0.x)) = (A0.x - B1.x) * (A1.y - A0.y) - (A0.y - B1.y) * (A1.x - A0.x) := by
  have f1 := angle_flat (a := A0.sub B1) (b := B0.sub B1) (by simp [V3.sub, a0, b1]) (by simp [V3.sub, b0, b1])
  have f3 := angle_flat (a := B1.sub A0) (b := A1.sub A0) (by simp [V3.sub, a0, b1]) (by simp [V3.sub, a0, a1])
  unfold locate at h
  simp only at h
  rw [f1, f3, dist3_flat a0 b1, dist3_flat a0 a1, dist3_flat b0 b1] at h
  split at h
  · simp at h
  split at h
  · simp at h
  split at h
  · simp at h
  simp only [Option.some.injEq, Prod.mk.injEq, V3.sub] at h
  obtain ⟨h1, h2⟩ := h
  -- names
  obtain ⟨ux, hux⟩ : ∃ ux, ux = A0.x - B1.x := ⟨_, rfl⟩
  obtain ⟨uy, huy⟩ : ∃ uy, uy = A0.y - B1.y := ⟨_, rfl⟩
  obtain ⟨vx, hvx⟩ : ∃ vx, vx = B0.x - B1.x := ⟨_, rfl⟩
  obtain ⟨vy, hvy⟩ : ∃ vy, vy = B0.y - B1.y := ⟨_, rfl⟩
  obtain ⟨wx, hwx⟩ : ∃ wx, wx = A1.x - A0.x := ⟨_, rfl⟩
  obtain ⟨wy, hwy⟩ : ∃ wy, wy = A1.y - A0.y := ⟨_, rfl⟩
  have e1 : B1.x - A0.x = -ux := by rw [hux]; ring
  have e2 : B1.y - A0.y = -uy := by rw [huy]; ring
  have e3 : A0.x - A1.x = -wx := by rw [hwx]; ring
  have e4 : A0.y - A1.y = -wy := by rw [hwy]; ring
  rw [e1, e2, e3, e4, ← hux, ← huy, ← hvx, ← hvy, ← hwx, ← hwy] at h1
  rw [e1, e2, ← hux, ← huy, ← hvx, ← hvy, ← hwx, ← hwy] at h2
  rw [← hux, ← huy, ← hvx, ← hvy, ← hwx, ← hwy] at hs ⊢
  rw [← hvx, ← hvy, ← hwx, ← hwy] at hd
  clear hux huy hvx hvy hwx hwy e1 e2 e3 e4 f1 f3
  have p1 : ux * vy - uy * vx ≠ 0 := fun e => by rw [e] at hs; simp at hs
  have p3 : ux * wy - uy * wx ≠ 0 := fun e => by rw [e] at hs; simp at hs
  have U0 : 0 < ux ^ 2 + uy ^ 2 := by
    by_contra hc
    have g1 : ux = 0 := by nlinarith [sq_nonneg ux, sq_nonneg uy]
    have g2 : uy = 0 := by nlinarith [sq_nonneg ux, sq_nonneg uy]
    exact p1 (by rw [g1, g2]; ring)
  have V0 : 0 < vx ^ 2 + vy ^ 2 := by
    by_contra hc
    have g1 : vx = 0 := by nlinarith [sq_nonneg vx, sq_nonneg vy]
    have g2 : vy = 0 := by nlinarith [sq_nonneg vx, sq_nonneg vy]
    exact p1 (by rw [g1, g2]; ring)
  have W0 : 0 < wx ^ 2 + wy ^ 2 := by
    by_contra hc
    have g1 : wx = 0 := by nlinarith [sq_nonneg wx, sq_nonneg wy]
    have g2 : wy = 0 := by nlinarith [sq_nonneg wx, sq_nonneg wy]
    exact p3 (by rw [g1, g2]; ring)
  have n1 := norm_angle ux uy vx vy
  have n3 := norm_angle (-ux) (-uy) wx wy
  rw [neg_sq, neg_sq] at n3
  rw [neg_sq, neg_sq] at h1
  obtain ⟨U, hU⟩ : ∃ U, U = Real.sqrt (ux ^ 2 + uy ^ 2) := ⟨_, rfl⟩
  obtain ⟨V, hV⟩ : ∃ V, V = Real.sqrt (vx ^ 2 + vy ^ 2) := ⟨_, rfl⟩
  obtain ⟨W, hW⟩ : ∃ W, W = Real.sqrt (wx ^ 2 + wy ^ 2) := ⟨_, rfl⟩
  have U1 : 0 < U := by rw [hU]; exact Real.sqrt_pos.mpr U0
  have V1 : 0 < V := by rw [hV]; exact Real.sqrt_pos.mpr V0
  have W1 : 0 < W := by rw [hW]; exact Real.sqrt_pos.mpr W0
  have U2 : U ^ 2 = ux ^ 2 + uy ^ 2 := by rw [hU]; exact Real.sq_sqrt U0.le
  rw [← hU, ← hV] at n1
  rw [← hU, ← hW] at n3
  rw [← hU, ← hW] at h1
  rw [← hU, ← hV] at h2
  obtain ⟨z1, hz1⟩ : ∃ z : ℂ, z = ⟨ux * vx + uy * vy, |ux * vy - uy * vx|⟩ := ⟨_, rfl⟩
  obtain ⟨z3, hz3⟩ : ∃ z : ℂ, z = ⟨-ux * wx + -uy * wy, |-ux * wy - -uy * wx|⟩ := ⟨_, rfl⟩
  rw [← hz1] at n1 h1 h2
  rw [← hz3] at n3 h1 h2
  have z1n : z1 ≠ 0 := fun e => by rw [e, norm_zero] at n1; exact absurd n1.symm (mul_pos U1 V1).ne'
  have z3n : z3 ≠ 0 := fun e => by rw [e, norm_zero] at n3; exact absurd n3.symm (mul_pos U1 W1).ne'
  have s1 : Real.sin z1.arg = |ux * vy - uy * vx| / (U * V) := by rw [Complex.sin_arg, n1, hz1]
  have c1 : Real.cos z1.arg = (ux * vx + uy * vy) / (U * V) := by rw [Complex.cos_arg z1n, n1, hz1]
  have s3 : Real.sin z3.arg = |ux * wy - uy * wx| / (U * W) := by
    rw [Complex.sin_arg, n3, hz3]
    simp only
    rw [← abs_neg (ux * wy - uy * wx)]
    congr 2
    ring
  have c3 : Real.cos z3.arg = -(ux * wx + uy * wy) / (U * W) := by
    rw [Complex.cos_arg z3n, n3, hz3]
    simp only
    congr 1
    ring
  have hsin : Real.sin (Real.pi - z1.arg - z3.arg) = Real.sin (z1.arg + z3.arg) := by
    rw [show Real.pi - z1.arg - z3.arg = Real.pi - (z1.arg + z3.arg) by ring, Real.sin_pi_sub]
  rw [hsin, Real.sin_add, s1, c1, s3, c3] at h1 h2
  -- the sign
  have key : ∃ σ : ℝ, (σ = 1 ∨ σ = -1) ∧ |ux * vy - uy * vx| = σ * (ux * vy - uy * vx) ∧ |ux * wy - uy * wx| = σ * (ux * wy - uy * wx) := by
    rcases lt_or_gt_of_ne p1 with hlt | hgt
    · have : ux * wy - uy * wx < 0 := by
        by_contra hc
        nlinarith
      exact ⟨-1, .inr rfl, by rw [abs_of_neg hlt]; ring, by rw [abs_of_neg this]; ring⟩
    · have : 0 < ux * wy - uy * wx := by
        by_contra hc
        nlinarith
      exact ⟨1, .inl rfl, by rw [abs_of_pos hgt]; ring, by rw [abs_of_pos this]; ring⟩
  obtain ⟨σ, hσ, k1, k2⟩ := key
  rw [k1, k2] at h1 h2
  have hσ0 : σ ≠ 0 := by rcases hσ with rfl | rfl <;> norm_num
  have hden : σ * (ux * vy - uy * vx) / (U * V) * (-(ux * wx + uy * wy) / (U * W)) + (ux * vx + uy * vy) / (U * V) * (σ * (ux * wy - uy * wx) / (U * W)) =
      σ * (vx * wy - vy * wx) / (V * W) := by
    field_simp
    rw [U2]
    ring
  rw [hden] at h1 h2
  constructor
  · rw [← h1]
    field_simp
  · rw [← h2, sub_sub_cancel]
    field_simp
    exact div_self (fun e => hd (by linarith))

end Plc.FindCrossings
