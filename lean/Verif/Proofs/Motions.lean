import Verif.Model.Motions
import Verif.Spec.Motions
import Verif.Proofs.Equilateral
import Mathlib.Analysis.InnerProductSpace.PiL2

/-! # Lemmas about moving curves -/

namespace Plc.Motions

open Plc.Core Plc.FindCrossings Plc.RandomPolygon Plc.Equilateral Plc.Cst

/-- The vector as a point of Euclidean space. -/
noncomputable def toE (a : V3) : EuclideanSpace ℝ (Fin 3) := !₂[a.x, a.y, a.z]

theorem apart_eq (a b : V3) : apart a b = dist (toE a) (toE b) := by
  rw [EuclideanSpace.dist_eq]
  simp [toE, apart, distSq, Fin.sum_univ_three, Real.dist_eq]

theorem apart_comm (a b : V3) : apart a b = apart b a := by rw [apart_eq, apart_eq, dist_comm]

theorem apart_triangle (a b c : V3) : apart a c ≤ apart a b + apart b c := by
  rw [apart_eq, apart_eq, apart_eq]; exact dist_triangle _ _ _

theorem apart_self (a : V3) : apart a a = 0 := by rw [apart_eq, dist_self]

theorem apart_nonneg (a b : V3) : 0 ≤ apart a b := Real.sqrt_nonneg _

theorem apart_zero {a b : V3} (h : apart a b = 0) : a = b := by
  have h0 : distSq a b = 0 := (Real.sqrt_eq_zero (by unfold distSq; positivity)).mp h
  unfold distSq at h0
  refine V3.ext' ?_ ?_ ?_ <;> nlinarith [sq_nonneg (a.x - b.x), sq_nonneg (a.y - b.y), sq_nonneg (a.z - b.z)]

theorem apart_congr {a b c d : V3} (h : distSq a b = distSq c d) : apart a b = apart c d := by unfold apart; rw [h]

/-- Moving both ends by little changes the distance by little. -/
theorem apart_near {a b a' b' : V3} {e : ℝ} (ha : apart a a' ≤ e) (hb : apart b b' ≤ e) : |apart a b - apart a' b'| ≤ 2 * e := by
  have h1 := apart_triangle a a' b
  have h2 := apart_triangle a' b' b
  have h3 := apart_triangle a' a b'
  have h4 := apart_triangle a b b'
  rw [apart_comm b' b] at h2
  rw [apart_comm a' a] at h3
  rw [abs_le]
  constructor <;> linarith

theorem norm3_eq (a : V3) : norm3 a = apart a ⟨0, 0, 0⟩ := by
  unfold norm3 apart distSq
  congr 1; ring

/-- The ideal rotation. -/
noncomputable def rod (u : V3) (t : ℝ) (p : V3) : V3 :=
  let P := p.sub (V3.scale (p.dot u) u)
  add (lincomb (Real.cos t) P (Real.sin t) (u.crossProd P)) (V3.scale (p.dot u) u)

theorem perp_eq (u p : V3) : perp u p = p.sub (V3.scale (p.dot u) u) := rfl

theorem perp_dot (u p : V3) (hu : dotOf u u = 1) : dotOf (perp u p) u = 0 := by
  simp only [dotOf, perp] at *
  linear_combination (-(p.x * u.x + p.y * u.y + p.z * u.z)) * hu

theorem cross_sq (u P : V3) (hu : dotOf u u = 1) (hP : dotOf P u = 0) : dotOf (u.crossProd P) (u.crossProd P) = dotOf P P := by
  simp only [dotOf, V3.crossProd] at *
  linear_combination (P.x * P.x + P.y * P.y + P.z * P.z) * hu - (P.x * u.x + P.y * u.y + P.z * u.z) * hP

theorem norm3_cross (u P : V3) (hu : dotOf u u = 1) (hP : dotOf P u = 0) : norm3 (u.crossProd P) = norm3 P := by
  have := cross_sq u P hu hP
  unfold norm3
  exact congrArg Real.sqrt this

theorem eps_pos : 0 < eps := by unfold eps; positivity

theorem turn_eq (u : V3) (t : ℝ) (p : V3) (hu : dotOf u u = 1) : turn u t p = if offAxis u p < eps then p else rod u t p := by
  have hn : norm3 (u.crossProd (p.sub (V3.scale (p.dot u) u))) = offAxis u p := by
    rw [← perp_eq, norm3_cross u _ hu (perp_dot u p hu), norm3_eq, offAxis]
  have hn' : norm3 (p.sub (V3.scale (p.dot u) u)) = offAxis u p := by rw [← perp_eq, norm3_eq, offAxis]
  have h0 : 0 ≤ offAxis u p := apart_nonneg _ _
  unfold turn
  simp only [hn, hn']
  by_cases h : offAxis u p < eps
  · rw [if_pos ⟨h, by linarith [eps_pos]⟩, if_pos h]
  · rw [if_neg (fun q => h q.1), if_neg h]
    have hne : offAxis u p ≠ 0 := fun e => h (by rw [e]; exact eps_pos)
    unfold rod
    simp only
    congr 2
    simp only [V3.scale]
    refine V3.ext' ?_ ?_ ?_ <;> field_simp

theorem comb_sq (u P : V3) (c s k : ℝ) (hu : dotOf u u = 1) (hP : dotOf P u = 0) (h : c ^ 2 + s ^ 2 = 1) :
    dotOf (add (lincomb c P s (u.crossProd P)) (V3.scale k u)) (add (lincomb c P s (u.crossProd P)) (V3.scale k u)) = dotOf P P + k ^ 2 := by
  simp only [dotOf, add, lincomb, V3.scale, V3.crossProd] at *
  linear_combination (P.x * P.x + P.y * P.y + P.z * P.z) * h + (s ^ 2 * (P.x * P.x + P.y * P.y + P.z * P.z) + k ^ 2) * hu +
    (2 * c * k - s ^ 2 * (P.x * u.x + P.y * u.y + P.z * u.z)) * hP

theorem perp_sq (u p : V3) (hu : dotOf u u = 1) : dotOf (perp u p) (perp u p) + (p.dot u) ^ 2 = dotOf p p := by
  simp only [dotOf, perp, V3.dot] at *
  linear_combination ((p.x * u.x + p.y * u.y + p.z * u.z) ^ 2) * hu

theorem rod_sq (u : V3) (t : ℝ) (p : V3) (hu : dotOf u u = 1) : dotOf (rod u t p) (rod u t p) = dotOf p p := by
  have := comb_sq u (perp u p) (Real.cos t) (Real.sin t) (p.dot u) hu (perp_dot u p hu) (Real.cos_sq_add_sin_sq t)
  rw [perp_sq u p hu] at this
  exact this

theorem rod_sub (u : V3) (t : ℝ) (p q : V3) : (rod u t p).sub (rod u t q) = rod u t (p.sub q) := by
  simp only [rod, V3.sub, add, lincomb, V3.scale, V3.crossProd, V3.dot]
  refine V3.ext' ?_ ?_ ?_ <;> ring

theorem distSq_sub (p q : V3) : distSq p q = dotOf (p.sub q) (p.sub q) := by
  simp only [distSq, dotOf, V3.sub]; ring

theorem apart_rod (u : V3) (t : ℝ) (p q : V3) (hu : dotOf u u = 1) : apart (rod u t p) (rod u t q) = apart p q := by
  refine apart_congr ?_
  rw [distSq_sub, rod_sub, rod_sq u t _ hu, ← distSq_sub]

theorem rod_turned (u : V3) (t : ℝ) (p : V3) (hu : dotOf u u = 1) : Turned u t p (rod u t p) := by
  obtain ⟨P, hP⟩ : ∃ P, P = perp u p := ⟨_, rfl⟩
  have hd : dotOf P u = 0 := by rw [hP]; exact perp_dot u p hu
  have hrod : rod u t p = add (lincomb (Real.cos t) P (Real.sin t) (u.crossProd P)) (V3.scale (p.dot u) u) := by rw [hP]; rfl
  have hal : dotOf (rod u t p) u = dotOf p u := by
    rw [hrod]
    simp only [dotOf, add, lincomb, V3.scale, V3.crossProd, V3.dot] at *
    linear_combination Real.cos t * hd + (p.x * u.x + p.y * u.y + p.z * u.z) * hu
  have hperp : perp u (rod u t p) = lincomb (Real.cos t) P (Real.sin t) (u.crossProd P) := by
    unfold perp
    rw [hal, hrod]
    simp only [dotOf, add, lincomb, V3.scale, V3.crossProd, V3.dot]
    refine V3.ext' ?_ ?_ ?_ <;> ring
  have hcs := Real.cos_sq_add_sin_sq t
  refine ⟨hal, ?_, ?_, ?_⟩
  · rw [hperp, ← hP]
    simp only [dotOf, add, lincomb, V3.scale, V3.crossProd] at *
    linear_combination (P.x * P.x + P.y * P.y + P.z * P.z) * hcs + (Real.sin t ^ 2 * (P.x * P.x + P.y * P.y + P.z * P.z)) * hu +
      (- Real.sin t ^ 2 * (P.x * u.x + P.y * u.y + P.z * u.z)) * hd
  · rw [hperp, ← hP]
    simp only [dotOf, add, lincomb, V3.scale, V3.crossProd]
    ring
  · rw [hperp, ← hP]
    simp only [dotOf, add, lincomb, V3.scale, V3.crossProd, crossOf] at *
    linear_combination (Real.sin t * (P.x * P.x + P.y * P.y + P.z * P.z)) * hu - Real.sin t * (P.x * u.x + P.y * u.y + P.z * u.z) * hd

theorem rod_near (u : V3) (t : ℝ) (p : V3) (hu : dotOf u u = 1) : apart p (rod u t p) ≤ 2 * offAxis u p := by
  obtain ⟨P, hP⟩ : ∃ P, P = perp u p := ⟨_, rfl⟩
  have hd : dotOf P u = 0 := by rw [hP]; exact perp_dot u p hu
  have h0 : 0 ≤ dotOf P P := by simp only [dotOf]; nlinarith [sq_nonneg P.x, sq_nonneg P.y, sq_nonneg P.z]
  have hcs := Real.cos_sq_add_sin_sq t
  have h1 : distSq p (rod u t p) = (2 - 2 * Real.cos t) * dotOf P P := by
    have hp : p = add P (V3.scale (p.dot u) u) := by
      rw [hP]; simp only [perp, add, V3.scale, dotOf, V3.dot]; refine V3.ext' ?_ ?_ ?_ <;> ring
    have hrod : rod u t p = add (lincomb (Real.cos t) P (Real.sin t) (u.crossProd P)) (V3.scale (p.dot u) u) := by rw [hP]; rfl
    rw [hrod]
    generalize p.dot u = k at hp ⊢
    rw [hp]
    simp only [distSq, dotOf, add, lincomb, V3.scale, V3.crossProd] at *
    linear_combination (P.x * P.x + P.y * P.y + P.z * P.z) * hcs + (Real.sin t ^ 2 * (P.x * P.x + P.y * P.y + P.z * P.z)) * hu -
      Real.sin t ^ 2 * (P.x * u.x + P.y * u.y + P.z * u.z) * hd
  have h2 : offAxis u p = Real.sqrt (dotOf P P) := by
    unfold offAxis apart; rw [← hP]; congr 1; simp only [distSq, dotOf]; ring
  have hc := Real.neg_one_le_cos t
  rw [h2, apart, h1, show (2 : ℝ) * Real.sqrt (dotOf P P) = Real.sqrt (4 * dotOf P P) by
    rw [Real.sqrt_mul (by norm_num), show (4 : ℝ) = 2 ^ 2 by norm_num, Real.sqrt_sq (by norm_num)]]
  exact Real.sqrt_le_sqrt (by nlinarith)

theorem offAxis_nonneg (u p : V3) : 0 ≤ offAxis u p := apart_nonneg _ _

/-- On the axis nothing moves. -/
theorem rod_axis (u : V3) (t : ℝ) (p : V3) (hu : dotOf u u = 1) (h : offAxis u p = 0) : rod u t p = p := by
  have := rod_near u t p hu
  rw [h] at this
  exact (apart_zero (le_antisymm (by linarith) (apart_nonneg _ _))).symm

theorem turn_rod (u : V3) (t : ℝ) (p : V3) (hu : dotOf u u = 1) : apart (turn u t p) (rod u t p) ≤ 2 * eps := by
  rw [turn_eq u t p hu]
  split
  · rename_i h
    exact (rod_near u t p hu).trans (by linarith)
  · rw [apart_self]; linarith [eps_pos]

theorem turn_exact (u : V3) (t : ℝ) (p : V3) (hu : dotOf u u = 1) (h : offAxis u p = 0 ∨ eps ≤ offAxis u p) : turn u t p = rod u t p := by
  rw [turn_eq u t p hu]
  split
  · rename_i hl
    rcases h with h | h
    · exact (rod_axis u t p hu h).symm
    · linarith
  · rfl

theorem unit_scale (v : V3) (h : norm3 v ≠ 0) : dotOf (V3.scale (1 / norm3 v) v) (V3.scale (1 / norm3 v) v) = 1 := by
  have hs : norm3 v ^ 2 = v.x * v.x + v.y * v.y + v.z * v.z := by
    unfold norm3; exact Real.sq_sqrt (by nlinarith [sq_nonneg v.x, sq_nonneg v.y, sq_nonneg v.z])
  simp only [dotOf, V3.scale]
  field_simp
  linarith

theorem vertexOf_map (g : V3 → V3) (L : Curve) (i j : Nat) (cst : List (Cst (V3 × V3))) :
    vertexOf ⟨mapVerts g L.cp, cst⟩ i j = (vertexOf L i j).map g := by
  unfold vertexOf mapVerts
  rw [List.getElem?_map]
  cases L.cp[i]? with
  | none => rfl
  | some c => simp [fixWrap]

end Plc.Motions
