import Verif.Model.Equilateral
import Verif.Spec.Equilateral
import Verif.Proofs.RandomPolygon
import Verif.Proofs.Basic

/-! # Lemmas about equilateral polygons -/

namespace Plc.Equilateral

open Plc.Core Plc.FindCrossings Plc.RandomPolygon

theorem V3.ext' {a b : V3} (h1 : a.x = b.x) (h2 : a.y = b.y) (h3 : a.z = b.z) : a = b := by
  cases a; cases b; simp_all

theorem norm3_of_dot {v : V3} {a : ℝ} (ha : 0 ≤ a) (h : v.dot v = a ^ 2) : norm3 v = a := by
  unfold norm3
  rw [show v.x * v.x + v.y * v.y + v.z * v.z = a ^ 2 from h, Real.sqrt_sq ha]

theorem normalize_of {v : V3} {a : ℝ} (ha : 0 < a) (h : v.dot v = a ^ 2) : normalize v = .ok (V3.scale (1 / a) v) := by
  unfold normalize divC
  rw [norm3_of_dot ha.le h, if_neg ha.ne', ok_bind]

theorem normalizeA_of {v : V3} {a : ℝ} (ha : 1e-12 ≤ a) (h : v.dot v = a ^ 2) : normalizeA v = .ok (V3.scale (1 / a) v) := by
  have h0 : (1 : ℝ) / 2 ^ 52 < 1e-12 := by norm_num
  have hp : 0 < a := lt_of_lt_of_le (by norm_num) ha
  unfold normalizeA
  rw [if_neg, normalize_of hp h]
  rw [norm3_of_dot hp.le h]
  exact fun q => absurd q.1 (not_lt.mpr (by linarith))

theorem scale_one (v : V3) : V3.scale (1 / 1) v = v := by
  cases v; simp [V3.scale]

/-- An orthonormal frame: `f1`, `f2 = N × f1`, `N`. -/
structure Frame (N f1 f2 : V3) : Prop where
  nn : N.dot N = 1
  aa : f1.dot f1 = 1
  na : N.dot f1 = 0
  f2 : f2 = N.crossProd f1

namespace Frame
variable {N f1 f2 : V3} (F : Frame N f1 f2)
include F

theorem bb : f2.dot f2 = 1 := by
  rw [F.f2]
  have h1 := F.nn; have h2 := F.aa; have h3 := F.na
  simp only [V3.dot, V3.crossProd] at h1 h2 h3 ⊢
  linear_combination (f1.x * f1.x + f1.y * f1.y + f1.z * f1.z) * h1 + h2 - (N.x * f1.x + N.y * f1.y + N.z * f1.z) * h3

theorem ab : f1.dot f2 = 0 := by
  rw [F.f2]
  simp only [V3.dot, V3.crossProd]
  ring

theorem nb : N.dot f2 = 0 := by
  rw [F.f2]
  simp only [V3.dot, V3.crossProd]
  ring

/-- `f1 × f2 = N`. -/
theorem cross : f1.crossProd f2 = N := by
  have h2 := F.aa; have h3 := F.na
  rw [F.f2]
  simp only [V3.dot, V3.crossProd] at h2 h3 ⊢
  refine V3.ext' ?_ ?_ ?_
  · simp only; linear_combination N.x * h2 - f1.x * h3
  · simp only; linear_combination N.y * h2 - f1.y * h3
  · simp only; linear_combination N.z * h2 - f1.z * h3

/-- `N × f2 = -f1`. -/
theorem cross' : N.crossProd f2 = V3.scale (-1) f1 := by
  have h1 := F.nn; have h3 := F.na
  rw [F.f2]
  simp only [V3.dot, V3.crossProd, V3.scale] at h1 h3 ⊢
  refine V3.ext' ?_ ?_ ?_
  · simp only; linear_combination N.x * h3 - f1.x * h1
  · simp only; linear_combination N.y * h3 - f1.y * h1
  · simp only; linear_combination N.z * h3 - f1.z * h1

end Frame

theorem dot_lincomb (a b c e : ℝ) (A B : V3) :
    (lincomb a A b B).dot (lincomb c A e B) = a * c * A.dot A + (a * e + b * c) * A.dot B + b * e * B.dot B := by
  simp only [V3.dot, lincomb, add, V3.scale]; ring

theorem dot_lincomb_right (N : V3) (a b : ℝ) (A B : V3) : N.dot (lincomb a A b B) = a * N.dot A + b * N.dot B := by
  simp only [V3.dot, lincomb, add, V3.scale]; ring

theorem cos_bounds {a b : ℝ} (ha : 0 < a) (hb : 0 < b) (h1 : |a - b| ≤ 1) (h2 : 1 ≤ a + b) :
    0 ≤ 1 - ((a * a + b * b - 1) / (2 * a * b)) * ((a * a + b * b - 1) / (2 * a * b)) := by
  obtain ⟨l, r⟩ := abs_le.mp h1
  have hp : 0 < 2 * a * b := by positivity
  obtain ⟨c, hc⟩ : ∃ c, c = (a * a + b * b - 1) / (2 * a * b) := ⟨_, rfl⟩
  rw [← hc]
  have u : c ≤ 1 := by rw [hc, div_le_one hp]; nlinarith
  have w : -1 ≤ c := by rw [hc, le_div_iff₀ hp]; nlinarith
  nlinarith

/-- What one round makes: the next vertex, and its relation to the one before. -/
structure Step (N v v' : V3) (a b s : ℝ) : Prop where
  len : v'.dot v' = b ^ 2
  edge : distSq v v' = 1
  flat : N.dot v' = 0
  tri : v.crossProd v' = V3.scale (a * b * s) N

theorem step_of {N v : V3} {a b : ℝ} (ha : 0 < a) (hb : 0 < b) (hN : N.dot N = 1) (hv : v.dot v = a ^ 2) (hNv : N.dot v = 0)
    (c s : ℝ) (hc : c = (a * a + b * b - 1) / (2 * a * b)) (hs : s * s = 1 - c * c) :
    Step N v (lincomb (b * c) (V3.scale (1 / a) v) (b * s) (N.crossProd (V3.scale (1 / a) v))) a b s := by
  obtain ⟨f1, hf1⟩ : ∃ f1, f1 = V3.scale (1 / a) v := ⟨_, rfl⟩
  rw [← hf1]
  have F : Frame N f1 (N.crossProd f1) := by
    refine ⟨hN, ?_, ?_, rfl⟩
    · rw [hf1]
      have : (V3.scale (1 / a) v).dot (V3.scale (1 / a) v) = (1 / a) ^ 2 * v.dot v := by simp only [V3.dot, V3.scale]; ring
      rw [this, hv]; field_simp
    · rw [hf1]
      have : N.dot (V3.scale (1 / a) v) = (1 / a) * N.dot v := by simp only [V3.dot, V3.scale]; ring
      rw [this, hNv, mul_zero]
  have hvf : v = V3.scale a f1 := by
    rw [hf1]
    cases v
    simp only [V3.scale, V3.mk.injEq]
    refine ⟨?_, ?_, ?_⟩ <;> field_simp
  obtain ⟨f2, hf2⟩ : ∃ f2, f2 = N.crossProd f1 := ⟨_, rfl⟩
  rw [← hf2] at F ⊢
  have hcab : 2 * a * b * c = a * a + b * b - 1 := by rw [hc]; field_simp
  have h1 := F.aa; have h2 := F.bb; have h3 := F.ab; have hx := F.cross
  have hl : (lincomb (b * c) f1 (b * s) f2).dot (lincomb (b * c) f1 (b * s) f2) = b ^ 2 := by
    rw [dot_lincomb, h1, h2, h3]
    linear_combination b ^ 2 * hs
  refine ⟨hl, ?_, ?_, ?_⟩
  · have e : distSq v (lincomb (b * c) f1 (b * s) f2) = v.dot v - 2 * v.dot (lincomb (b * c) f1 (b * s) f2) +
        (lincomb (b * c) f1 (b * s) f2).dot (lincomb (b * c) f1 (b * s) f2) := by
      simp only [distSq, V3.dot]; ring
    have e2 : v.dot (lincomb (b * c) f1 (b * s) f2) = a * (b * c) := by
      rw [dot_lincomb_right, hvf]
      have q1 : (V3.scale a f1).dot f1 = a * f1.dot f1 := by simp only [V3.dot, V3.scale]; ring
      have q2 : (V3.scale a f1).dot f2 = a * f1.dot f2 := by simp only [V3.dot, V3.scale]; ring
      rw [q1, q2, h1, h3]; ring
    rw [e, e2, hl, hv]
    linear_combination -hcab
  · rw [dot_lincomb_right, F.na, F.nb]; ring
  · rw [hvf, ← hx]
    refine V3.ext' ?_ ?_ ?_ <;> simp only [V3.crossProd, V3.scale, lincomb, add] <;> ring

/-- The rotated normal. -/
theorem rotated {N w f3 : V3} (F : Frame N w f3) (t : ℝ) :
    (lincomb (Real.cos t) N (Real.sin t) f3).dot (lincomb (Real.cos t) N (Real.sin t) f3) = 1 ∧
    w.dot (lincomb (Real.cos t) N (Real.sin t) f3) = 0 ∧
    N.dot (lincomb (Real.cos t) N (Real.sin t) f3) = Real.cos t ∧
    N.crossProd (lincomb (Real.cos t) N (Real.sin t) f3) = V3.scale (-Real.sin t) w := by
  refine ⟨?_, ?_, ?_, ?_⟩
  · rw [dot_lincomb, F.nn, F.nb, F.bb]
    have := Real.sin_sq_add_cos_sq t
    linear_combination this
  · rw [dot_lincomb_right, F.ab]
    have : w.dot N = 0 := by rw [← F.na]; simp only [V3.dot]; ring
    rw [this]; ring
  · rw [dot_lincomb_right, F.nn, F.nb]; ring
  · have h := F.cross'
    have hx := congrArg V3.x h
    have hy := congrArg V3.y h
    have hz := congrArg V3.z h
    simp only [V3.crossProd, V3.scale] at hx hy hz
    refine V3.ext' ?_ ?_ ?_ <;> simp only [V3.crossProd, V3.scale, lincomb, add]
    · linear_combination Real.sin t * hx
    · linear_combination Real.sin t * hy
    · linear_combination Real.sin t * hz

/-- What the loop makes: `a` is the length of `v`. -/
structure Made (theta d : List ℝ) (i : Nat) (N v : V3) (l : List V3) : Prop where
  lens : ∀ (j : Nat) (q : V3), l[j]? = some q → ∃ b, d[i + j]? = some b ∧ q.dot q = b ^ 2
  edges : ∀ (j : Nat) (p q : V3), (v :: l)[j]? = some p → l[j]? = some q → distSq p q = 1
  first : ∀ q : V3, l[0]? = some q → ∃ c : ℝ, 0 ≤ c ∧ v.crossProd q = V3.scale c N
  angles : ∀ (j : Nat) (p q r : V3) (t : ℝ), (v :: l)[j]? = some p → l[j]? = some q → l[j + 1]? = some r → theta[i - 1 + j]? = some t →
    DihedralAngle p q r t

theorem apart_zero (m : V3) : apart m ⟨0, 0, 0⟩ = Real.sqrt (m.dot m) := by
  unfold apart distSq V3.dot
  congr 1; ring

theorem apart_scale {N : V3} (hN : N.dot N = 1) {c : ℝ} (hc : 0 ≤ c) : apart (V3.scale c N) ⟨0, 0, 0⟩ = c := by
  rw [apart_zero]
  have : (V3.scale c N).dot (V3.scale c N) = c ^ 2 * N.dot N := by simp only [V3.dot, V3.scale]; ring
  rw [this, hN, mul_one, Real.sqrt_sq hc]

theorem dihedral_of {N N' p q r w : V3} {c c' b t : ℝ} (hc : 0 ≤ c) (hc' : 0 ≤ c') (hb : 0 < b) (hN : N.dot N = 1) (hN' : N'.dot N' = 1)
    (h1 : p.crossProd q = V3.scale c N) (h2 : q.crossProd r = V3.scale c' N') (hq : q.dot q = b ^ 2) (hw : w = V3.scale (1 / b) q)
    (hd : N.dot N' = Real.cos t) (hx : N.crossProd N' = V3.scale (-Real.sin t) w) : DihedralAngle p q r t := by
  have e1 : crossOf p q = V3.scale c N := h1
  have e2 : crossOf q r = V3.scale c' N' := h2
  unfold DihedralAngle
  simp only
  rw [e1, e2, apart_scale hN hc, apart_scale hN' hc', apart_zero q, hq, Real.sqrt_sq hb.le]
  constructor
  · rw [← hd]
    simp only [V3.dot, V3.scale]; ring
  · refine ⟨-(c * c' * Real.sin t) / b, by field_simp, ?_⟩
    rw [hw] at hx
    have hx1 := congrArg V3.x hx
    have hx2 := congrArg V3.y hx
    have hx3 := congrArg V3.z hx
    simp only [V3.crossProd, V3.scale] at hx1 hx2 hx3
    refine V3.ext' ?_ ?_ ?_ <;> simp only [crossOf, V3.scale]
    · linear_combination c * c' * hx1
    · linear_combination c * c' * hx2
    · linear_combination c * c' * hx3

theorem rd_of {α : Type} {l : List α} {i : Nat} {a : α} (h : l[i]? = some a) : rd l i = .ok a := by
  unfold rd; rw [h]

theorem fanLoop_ok (n : Nat) (theta d : List ℝ) (hd : Diagonals d) (hdl : d.length = n - 1) (htl : theta.length = n - 3) :
    ∀ (k i : Nat) (v N : V3) (a : ℝ), 1 ≤ i → i + k = n - 1 → d[i - 1]? = some a → v.dot v = a ^ 2 → N.dot N = 1 → N.dot v = 0 →
      ∃ l, fanLoop n theta d k i v N = .ok l ∧ l.length = k ∧ Made theta d i N v l
  | 0, i, v, N, a, _, _, _, _, _, _ =>
    ⟨[], rfl, rfl, ⟨fun j q h => by simp at h, fun j p q _ h => by simp at h, fun q h => by simp at h, fun j p q r t _ h => by simp at h⟩⟩
  | k + 1, i, v, N, a, hi, hk, ha, hv, hN, hNv => by
    obtain ⟨hmin, htri⟩ := hd
    have hb : ∃ b, d[i]? = some b := ⟨d[i], List.getElem?_eq_getElem (by omega)⟩
    obtain ⟨b, hb⟩ := hb
    have ha1 := hmin a (List.mem_of_getElem? ha)
    have hb1 := hmin b (List.mem_of_getElem? hb)
    have ha0 : 0 < a := lt_of_lt_of_le (by norm_num) ha1
    have hb0 : 0 < b := lt_of_lt_of_le (by norm_num) hb1
    obtain ⟨t1, t2⟩ := htri (i - 1) a b ha (by rw [show i - 1 + 1 = i by omega]; exact hb)
    have hcb := cos_bounds ha0 hb0 t1 t2
    obtain ⟨c, hc⟩ : ∃ c, c = (a * a + b * b - 1) / (2 * a * b) := ⟨_, rfl⟩
    rw [← hc] at hcb
    obtain ⟨s, hs⟩ : ∃ s, s = Real.sqrt (1 - c * c) := ⟨_, rfl⟩
    have hs0 : 0 ≤ s := by rw [hs]; exact Real.sqrt_nonneg _
    have hss : s * s = 1 - c * c := by rw [hs]; exact Real.mul_self_sqrt hcb
    have S := step_of ha0 hb0 hN hv hNv c s hc hss
    have hF : Frame N (V3.scale (1 / a) v) (N.crossProd (V3.scale (1 / a) v)) := by
      refine ⟨hN, ?_, ?_, rfl⟩
      · have : (V3.scale (1 / a) v).dot (V3.scale (1 / a) v) = (1 / a) ^ 2 * v.dot v := by simp only [V3.dot, V3.scale]; ring
        rw [this, hv]; field_simp
      · have : N.dot (V3.scale (1 / a) v) = (1 / a) * N.dot v := by simp only [V3.dot, V3.scale]; ring
        rw [this, hNv, mul_zero]
    obtain ⟨v', hv'⟩ : ∃ v', v' = lincomb (b * c) (V3.scale (1 / a) v) (b * s) (N.crossProd (V3.scale (1 / a) v)) := ⟨_, rfl⟩
    rw [← hv'] at S
    have one : (N.crossProd (V3.scale (1 / a) v)).dot (N.crossProd (V3.scale (1 / a) v)) = 1 ^ 2 := by rw [hF.bb]; norm_num
    have hfirst : ∃ c : ℝ, 0 ≤ c ∧ v.crossProd v' = V3.scale c N := ⟨a * b * s, by positivity, S.tri⟩
    have hrun : fanLoop n theta d (k + 1) i v N = (if i < n - 2 then do
        let w ← normalizeA v'
        let f3 ← normalize (N.crossProd w)
        let t ← rd theta (i - 1)
        let normal' ← normalize (lincomb (Real.cos t) N (Real.sin t) f3)
        let l ← fanLoop n theta d k (i + 1) v' normal'
        .ok (v' :: l)
      else do
        let l ← fanLoop n theta d k (i + 1) v' N
        .ok (v' :: l)) := by
      rw [fanLoop, rd_of ha, ok_bind, rd_of hb, ok_bind, divC, if_neg (by positivity), ok_bind, ← hc, sqrtC, if_neg (not_lt.mpr hcb), ok_bind,
        normalizeA_of ha1 hv, ok_bind, normalizeA_of (a := 1) (by norm_num) one, ok_bind, scale_one, ← hs, ← hv']
    rw [hrun]
    by_cases hlast : i < n - 2
    · rw [if_pos hlast]
      obtain ⟨t, ht⟩ : ∃ t, theta[i - 1]? = some t := ⟨theta[i - 1], List.getElem?_eq_getElem (by omega)⟩
      obtain ⟨w, hw⟩ : ∃ w, w = V3.scale (1 / b) v' := ⟨_, rfl⟩
      have G : Frame N w (N.crossProd w) := by
        refine ⟨hN, ?_, ?_, rfl⟩
        · rw [hw]
          have : (V3.scale (1 / b) v').dot (V3.scale (1 / b) v') = (1 / b) ^ 2 * v'.dot v' := by simp only [V3.dot, V3.scale]; ring
          rw [this, S.len]; field_simp
        · rw [hw]
          have : N.dot (V3.scale (1 / b) v') = (1 / b) * N.dot v' := by simp only [V3.dot, V3.scale]; ring
          rw [this, S.flat, mul_zero]
      obtain ⟨r1, r2, r3, r4⟩ := rotated G t
      obtain ⟨N', hN'⟩ : ∃ N', N' = lincomb (Real.cos t) N (Real.sin t) (N.crossProd w) := ⟨_, rfl⟩
      rw [← hN'] at r1 r2 r3 r4
      have r2' : N'.dot v' = 0 := by
        have : w.dot N' = (1 / b) * N'.dot v' := by rw [hw]; simp only [V3.dot, V3.scale]; ring
        rw [this] at r2
        rcases mul_eq_zero.mp r2 with h | h
        · exact absurd h (by positivity)
        · exact h
      obtain ⟨l, hl, hlen, M⟩ := fanLoop_ok n theta d ⟨hmin, htri⟩ hdl htl k (i + 1) v' N' b (by omega) (by omega)
        (by rw [show i + 1 - 1 = i by omega]; exact hb) S.len r1 r2'
      refine ⟨v' :: l, ?_, by simp [hlen], ?_⟩
      · rw [normalizeA_of hb1 S.len, ok_bind, ← hw, normalize_of (a := 1) one_pos (by rw [G.bb]; norm_num), ok_bind, scale_one, rd_of ht, ok_bind,
          ← hN', normalize_of (a := 1) one_pos (by rw [r1]; norm_num), ok_bind, scale_one, hl, ok_bind]
      · refine ⟨?_, ?_, ?_, ?_⟩
        · intro j q h
          cases j with
          | zero =>
            simp only [List.getElem?_cons_zero, Option.some.injEq] at h
            subst h
            exact ⟨b, hb, S.len⟩
          | succ j =>
            rw [List.getElem?_cons_succ] at h
            obtain ⟨b', e1, e2⟩ := M.lens j q h
            exact ⟨b', by rw [← e1]; congr 1; omega, e2⟩
        · intro j p q hp hq
          cases j with
          | zero =>
            simp only [List.getElem?_cons_zero, Option.some.injEq] at hp hq
            subst hp hq
            exact S.edge
          | succ j =>
            rw [List.getElem?_cons_succ] at hp hq
            exact M.edges j p q hp hq
        · intro q h
          simp only [List.getElem?_cons_zero, Option.some.injEq] at h
          subst h
          exact hfirst
        · intro j p q r t' hp hq hr ht'
          cases j with
          | zero =>
            simp only [List.getElem?_cons_zero, Option.some.injEq] at hp hq
            subst hp hq
            rw [add_zero, ht, Option.some.injEq] at ht'
            subst ht'
            rw [List.getElem?_cons_succ] at hr
            obtain ⟨c0, g0, g1⟩ := hfirst
            obtain ⟨c1, g2, g3⟩ := M.first r hr
            exact dihedral_of g0 g2 hb0 hN r1 g1 g3 S.len hw r3 r4
          | succ j =>
            rw [List.getElem?_cons_succ] at hp hq hr
            exact M.angles j p q r t' hp hq hr (by rw [← ht']; congr 1; omega)
    · rw [if_neg hlast]
      have hk0 : k = 0 := by omega
      subst hk0
      refine ⟨[v'], rfl, rfl, ?_, ?_, ?_, ?_⟩
      · intro j q h
        cases j with
        | zero =>
          simp only [List.getElem?_cons_zero, Option.some.injEq] at h
          subst h
          exact ⟨b, hb, S.len⟩
        | succ j => simp at h
      · intro j p q hp hq
        cases j with
        | zero =>
          simp only [List.getElem?_cons_zero, Option.some.injEq] at hp hq
          subst hp hq
          exact S.edge
        | succ j => simp at hq
      · intro q h
        simp only [List.getElem?_cons_zero, Option.some.injEq] at h
        subst h
        exact hfirst
      · intro j p q r t _ _ hr _
        simp at hr

end Plc.Equilateral
