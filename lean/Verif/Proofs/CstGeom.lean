import Verif.Proofs.Motions
import Verif.Spec.Constraint

/-! # Lemmas about checking and repairing constraints -/

namespace Plc.Motions

open Plc.Core Plc.FindCrossings Plc.RandomPolygon Plc.Equilateral Plc.Cst

theorem apart_le_of {p r s : V3} (h : distSq p r ≤ distSq p s) : apart p r ≤ apart p s := Real.sqrt_le_sqrt h

theorem closestLine_ok (c : Cst (V3 × V3)) (hk : c.kind = .line) (p : V3) (hd : dotOf c.vect.1 c.vect.1 > 1 / 2 ^ 52) :
    ∃ r, closest c p = .ok r ∧ Allowed c r ∧ ∀ s, Allowed c s → apart p r ≤ apart p s := by
  obtain ⟨t, q, ht, hq⟩ : ∃ t q, t = c.vect.1 ∧ q = c.vect.2 := ⟨_, _, rfl, rfl⟩
  unfold closest Allowed
  simp only [hk]
  rw [← ht] at hd
  rw [← ht, ← hq]
  unfold closestLine
  have hd' : t.x * t.x + t.y * t.y + t.z * t.z > eps := hd
  have hne : t.x * t.x + t.y * t.y + t.z * t.z ≠ 0 := by have := eps_pos; intro e; rw [e] at hd'; linarith
  rw [assertC_ok (decide_eq_true hd'), ok_bind]
  obtain ⟨s, hs⟩ : ∃ s, s = (t.x * (p.x - q.x) + t.y * (p.y - q.y) + t.z * (p.z - q.z)) / (t.x * t.x + t.y * t.y + t.z * t.z) := ⟨_, rfl⟩
  rw [← hs]
  have hse : s * (t.x * t.x + t.y * t.y + t.z * t.z) = t.x * (p.x - q.x) + t.y * (p.y - q.y) + t.z * (p.z - q.z) := by
    rw [hs, div_mul_cancel₀ _ hne]
  refine ⟨_, rfl, ⟨s, by ring, by ring, by ring⟩, ?_⟩
  rintro ⟨x, y, z⟩ ⟨r, h1, h2, h3⟩
  simp only at h1 h2 h3
  subst h1 h2 h3
  refine apart_le_of ?_
  simp only [distSq]
  have : 0 ≤ (r - s) ^ 2 * (t.x * t.x + t.y * t.y + t.z * t.z) := by
    have := eps_pos
    exact mul_nonneg (sq_nonneg _) (by linarith)
  have e : (p.x - (q.x + r * t.x)) ^ 2 + (p.y - (q.y + r * t.y)) ^ 2 + (p.z - (q.z + r * t.z)) ^ 2 =
      ((p.x - (t.x * s + q.x)) ^ 2 + (p.y - (t.y * s + q.y)) ^ 2 + (p.z - (t.z * s + q.z)) ^ 2) +
        (r - s) ^ 2 * (t.x * t.x + t.y * t.y + t.z * t.z) := by
    linear_combination 2 * (r - s) * hse
  linarith

theorem closestIn_ok (a b c d p0 p1 p2 : ℝ) (hc : c ≠ 0) :
    ∃ f, closestIn a b c d p0 p1 p2 = .ok ⟨p0 - a * f, p1 - b * f, p2 - c * f⟩ ∧ f * (a * a + b * b + c * c) = a * p0 + b * p1 + c * p2 - d := by
  have hpos : a * a + b * b + c * c ≠ 0 := by
    have : 0 < c * c := mul_self_pos.mpr hc
    nlinarith [sq_nonneg a, sq_nonneg b]
  refine ⟨(a * p0 + b * p1 + c * p2 - d) / (a * a + b * b + c * c), ?_, by field_simp⟩
  unfold closestIn divC
  rw [if_neg hpos, ok_bind]
  simp only
  rw [if_neg hc, ok_bind]
  congr 2
  rw [div_eq_iff hc]
  field_simp
  ring

theorem nearest_plane (n p : V3) (d f : ℝ) (hf : f * (n.x * n.x + n.y * n.y + n.z * n.z) = n.x * p.x + n.y * p.y + n.z * p.z - d) :
    dotOf n ⟨p.x - n.x * f, p.y - n.y * f, p.z - n.z * f⟩ = d ∧
      ∀ s : V3, dotOf n s = d → apart p ⟨p.x - n.x * f, p.y - n.y * f, p.z - n.z * f⟩ ≤ apart p s := by
  refine ⟨by simp only [dotOf]; linarith, fun s hs => apart_le_of ?_⟩
  simp only [dotOf, distSq] at *
  have h1 := sq_nonneg (p.x - n.x * f - s.x)
  have h2 := sq_nonneg (p.y - n.y * f - s.y)
  have h3 := sq_nonneg (p.z - n.z * f - s.z)
  have e : (p.x - s.x) ^ 2 + (p.y - s.y) ^ 2 + (p.z - s.z) ^ 2 =
      ((p.x - (p.x - n.x * f)) ^ 2 + (p.y - (p.y - n.y * f)) ^ 2 + (p.z - (p.z - n.z * f)) ^ 2) +
      ((p.x - n.x * f - s.x) ^ 2 + (p.y - n.y * f - s.y) ^ 2 + (p.z - n.z * f - s.z) ^ 2) := by
    linear_combination (-2 * f) * hf - (2 * f) * hs
  linarith

theorem closestPlane_ok (c : Cst (V3 × V3)) (hk : c.kind = .plane) (p : V3) (hd : dotOf c.vect.1 c.vect.1 > 1 / 2 ^ 52) :
    ∃ r, closest c p = .ok r ∧ Allowed c r ∧ ∀ s, Allowed c s → apart p r ≤ apart p s := by
  obtain ⟨n, q, hn, hq⟩ : ∃ n q, n = c.vect.1 ∧ q = c.vect.2 := ⟨_, _, rfl, rfl⟩
  unfold closest Allowed
  simp only [hk]
  rw [← hn] at hd
  rw [← hn, ← hq]
  unfold closestPlane
  have hd' : n.x * n.x + n.y * n.y + n.z * n.z > eps := hd
  rw [assertC_ok (decide_eq_true hd'), ok_bind]
  have he : (eps : ℝ) > 2.2e-16 := by unfold eps; norm_num
  by_cases hz : n.z ≤ 1e-12 ∧ n.z ≥ -1e-12
  · rw [if_pos hz]
    have hz2 : n.z * n.z ≤ 1e-24 := by nlinarith [hz.1, hz.2]
    by_cases hy : n.y ≤ 1e-12 ∧ n.y ≥ -1e-12
    · rw [if_pos hy]
      have hy2 : n.y * n.y ≤ 1e-24 := by nlinarith [hy.1, hy.2]
      have hx : n.x ≠ 0 := by
        intro e
        rw [e] at hd'
        norm_num at hd' he hz2 hy2
        linarith
      obtain ⟨f, hf, hfe⟩ := closestIn_ok n.z n.y n.x q.x p.z p.y p.x hx
      rw [hf, ok_bind]
      have := nearest_plane n p q.x f (by linarith)
      exact ⟨_, rfl, this⟩
    · rw [if_neg hy]
      have hy0 : n.y ≠ 0 := by
        intro e
        apply hy
        rw [e]
        norm_num
      obtain ⟨f, hf, hfe⟩ := closestIn_ok n.x n.z n.y q.x p.x p.z p.y hy0
      rw [hf, ok_bind]
      have := nearest_plane n p q.x f (by linarith)
      exact ⟨_, rfl, this⟩
  · rw [if_neg hz]
    have hz0 : n.z ≠ 0 := by
      intro e
      apply hz
      rw [e]
      norm_num
    obtain ⟨f, hf, hfe⟩ := closestIn_ok n.x n.y n.z q.x p.x p.y p.z hz0
    rw [hf]
    have := nearest_plane n p q.x f (by linarith)
    exact ⟨_, rfl, this⟩

/-- The nearest point allowed. -/
theorem closest_ok (c : Cst (V3 × V3)) (p : V3) (hk : c.kind ≠ .unconstrained)
    (hd : c.kind = .line ∨ c.kind = .plane → dotOf c.vect.1 c.vect.1 > 1 / 2 ^ 52) :
    ∃ r, closest c p = .ok r ∧ Allowed c r ∧ ∀ s, Allowed c s → apart p r ≤ apart p s := by
  cases h : c.kind with
  | unconstrained => exact absurd h hk
  | fixed =>
    refine ⟨c.vect.1, by unfold closest; rw [h], by unfold Allowed; rw [h], ?_⟩
    intro s hs
    unfold Allowed at hs
    rw [h] at hs
    rw [hs]
  | line => exact closestLine_ok c h p (hd (Or.inl h))
  | plane => exact closestPlane_ok c h p (hd (Or.inr h))

theorem getVert_ok (L : Curve) (i j : Nat) (p : V3) (h : vertexOf L i j = some p) : getVert L.cp i (j : Int) = .ok p := by
  unfold vertexOf at h
  split at h
  · rename_i c hc
    have hlt : j < c.vt.length := (List.getElem?_eq_some_iff.mp h).1
    have hg : rd L.cp i = .ok c := by unfold rd; rw [hc]
    unfold getVert
    rw [hg, ok_bind]
    unfold vtAt
    rw [if_neg (by omega), if_neg (by omega), if_neg (by omega)]
    unfold rd
    rw [Int.toNat_natCast, h]
  · simp at h

end Plc.Motions
