import Verif.Model.Spline
import Verif.Proofs.Basic
import Mathlib.Tactic.Ring
import Mathlib.Tactic.Linarith
import Mathlib.Tactic.FieldSimp
import Mathlib.Tactic.LinearCombination
import Mathlib.Analysis.Calculus.Deriv.Mul
import Mathlib.Analysis.Calculus.Deriv.Add

/-! # Lemmas on splines -/

namespace Plc.Spline

/-- The piece of the curve between vertices i and i + 1, with second derivatives `m` at the vertices. -/
noncomputable def seg (s : Nat → ℝ) (vt m : Nat → V) (i : Nat) (x : ℝ) : V := fun c =>
  let h := s (i + 1) - s i
  let a := (s (i + 1) - x) / h
  let b := (x - s i) / h
  a * vt i c + b * vt (i + 1) c + ((a * a * a - a) * (h * h) / 6 * m i c + (b * b * b - b) * (h * h) / 6 * m (i + 1) c)

noncomputable def dseg (s : Nat → ℝ) (vt m : Nat → V) (i : Nat) (x : ℝ) : V := fun c =>
  let h := s (i + 1) - s i
  let a := (s (i + 1) - x) / h
  let b := (x - s i) / h
  let da := -1 / h
  let db := 1 / h
  da * vt i c + db * vt (i + 1) c + ((3 * a * a * da - da) * (h * h) / 6 * m i c + (3 * b * b * db - db) * (h * h) / 6 * m (i + 1) c)

noncomputable def ddseg (s : Nat → ℝ) (m : Nat → V) (i : Nat) (x : ℝ) : V := fun c =>
  (s (i + 1) - x) / (s (i + 1) - s i) * m i c + (x - s i) / (s (i + 1) - s i) * m (i + 1) c

theorem seg_deriv (s : Nat → ℝ) (vt m : Nat → V) (i : Nat) (x : ℝ) (c : Fin 3) : HasDerivAt (fun x => seg s vt m i x c) (dseg s vt m i x c) x := by
  have ha : HasDerivAt (fun x => (s (i + 1) - x) / (s (i + 1) - s i)) (-1 / (s (i + 1) - s i)) x := ((hasDerivAt_id x).const_sub (s (i + 1))).div_const _
  have hb : HasDerivAt (fun x => (x - s i) / (s (i + 1) - s i)) (1 / (s (i + 1) - s i)) x := ((hasDerivAt_id x).sub_const (s i)).div_const _
  have h1 := ((ha.mul_const (vt i c)).add (hb.mul_const (vt (i + 1) c))).add
    ((((((ha.mul ha).mul ha).sub ha).mul_const ((s (i + 1) - s i) * (s (i + 1) - s i))).div_const 6 |>.mul_const (m i c)).add
     (((((hb.mul hb).mul hb).sub hb).mul_const ((s (i + 1) - s i) * (s (i + 1) - s i))).div_const 6 |>.mul_const (m (i + 1) c)))
  refine h1.congr_deriv ?_
  unfold dseg
  simp only [Pi.mul_apply]
  ring

theorem dseg_deriv {s : Nat → ℝ} (vt m : Nat → V) {i : Nat} (h : s i < s (i + 1)) (x : ℝ) (c : Fin 3) : HasDerivAt (fun x => dseg s vt m i x c) (ddseg s m i x c) x := by
  have ha : HasDerivAt (fun x => (s (i + 1) - x) / (s (i + 1) - s i)) (-1 / (s (i + 1) - s i)) x := ((hasDerivAt_id x).const_sub (s (i + 1))).div_const _
  have hb : HasDerivAt (fun x => (x - s i) / (s (i + 1) - s i)) (1 / (s (i + 1) - s i)) x := ((hasDerivAt_id x).sub_const (s i)).div_const _
  have h1 := (((((((ha.const_mul 3).mul ha).mul_const (-1 / (s (i + 1) - s i))).sub_const (-1 / (s (i + 1) - s i))).mul_const ((s (i + 1) - s i) * (s (i + 1) - s i))).div_const 6 |>.mul_const (m i c)).add
     ((((((hb.const_mul 3).mul hb).mul_const (1 / (s (i + 1) - s i))).sub_const (1 / (s (i + 1) - s i))).mul_const ((s (i + 1) - s i) * (s (i + 1) - s i))).div_const 6 |>.mul_const (m (i + 1) c))).const_add
     (-1 / (s (i + 1) - s i) * vt i c + 1 / (s (i + 1) - s i) * vt (i + 1) c)
  refine h1.congr_deriv ?_
  unfold ddseg
  have hne : s (i + 1) - s i ≠ 0 := by linarith
  field_simp
  ring

theorem seg_left {s : Nat → ℝ} (vt m : Nat → V) {i : Nat} (h : s i < s (i + 1)) : seg s vt m i (s i) = vt i := by
  funext c
  have hne : s (i + 1) - s i ≠ 0 := by linarith
  unfold seg
  simp [div_self hne]

theorem seg_right {s : Nat → ℝ} (vt m : Nat → V) {i : Nat} (h : s i < s (i + 1)) : seg s vt m i (s (i + 1)) = vt (i + 1) := by
  funext c
  have hne : s (i + 1) - s i ≠ 0 := by linarith
  unfold seg
  simp [div_self hne]

theorem dseg_left {s : Nat → ℝ} (vt m : Nat → V) {i : Nat} (h : s i < s (i + 1)) (c : Fin 3) :
    dseg s vt m i (s i) c = (vt (i + 1) c - vt i c) / (s (i + 1) - s i) - (s (i + 1) - s i) / 3 * m i c - (s (i + 1) - s i) / 6 * m (i + 1) c := by
  have hne : s (i + 1) - s i ≠ 0 := by linarith
  unfold dseg
  simp only [div_self hne, sub_self, zero_div]
  field_simp
  ring

theorem dseg_right {s : Nat → ℝ} (vt m : Nat → V) {i : Nat} (h : s i < s (i + 1)) (c : Fin 3) :
    dseg s vt m i (s (i + 1)) c = (vt (i + 1) c - vt i c) / (s (i + 1) - s i) + (s (i + 1) - s i) / 6 * m i c + (s (i + 1) - s i) / 3 * m (i + 1) c := by
  have hne : s (i + 1) - s i ≠ 0 := by linarith
  unfold dseg
  simp only [div_self hne, sub_self, zero_div]
  field_simp
  ring

theorem sig_bounds {s : Nat → ℝ} {i : Nat} (h1 : s i < s (i + 1)) (h2 : s (i + 1) < s (i + 1 + 1)) : 0 < sig s (i + 1) ∧ sig s (i + 1) < 1 := by
  unfold sig
  rw [Nat.add_sub_cancel]
  constructor
  · exact div_pos (by linarith) (by linarith)
  · rw [div_lt_one (by linarith)]; linarith

/-- The factors are between -1 and 0, so the divisors are larger than 1. -/
theorem forward_bounds {s : Nat → ℝ} (vt : Nat → V) (yp1 : V) {top : Nat} (hs : ∀ i, i < top → s i < s (i + 1)) (c : Fin 3) : ∀ j, j < top →
    -1 < (forward s vt yp1 j).1 c ∧ (forward s vt yp1 j).1 c < 0
  | 0, _ => by simp [forward]; norm_num
  | j + 1, hj => by
    obtain ⟨b1, b2⟩ := forward_bounds vt yp1 hs c j (by omega)
    obtain ⟨g1, g2⟩ := sig_bounds (hs j (by omega)) (hs (j + 1) hj)
    have hp : 1 < pOf s (j + 1) (forward s vt yp1 j).1 c := by
      unfold pOf
      nlinarith
    show -1 < (sig s (j + 1) - 1) / pOf s (j + 1) (forward s vt yp1 j).1 c ∧ (sig s (j + 1) - 1) / pOf s (j + 1) (forward s vt yp1 j).1 c < 0
    constructor
    · rw [lt_div_iff₀ (by linarith)]; linarith
    · exact div_neg_of_neg_of_pos (by linarith) (by linarith)

theorem p_bound {s : Nat → ℝ} (vt : Nat → V) (yp1 : V) {top : Nat} (hs : ∀ i, i < top → s i < s (i + 1)) (c : Fin 3) {j : Nat} (hj : j + 1 < top) :
    1 < pOf s (j + 1) (forward s vt yp1 j).1 c := by
  obtain ⟨b1, b2⟩ := forward_bounds vt yp1 hs c j (by omega)
  obtain ⟨g1, g2⟩ := sig_bounds (hs j (by omega)) (hs (j + 1) hj)
  unfold pOf
  nlinarith

/-- The second derivatives. -/
noncomputable def sec (s : Nat → ℝ) (vt : Nat → V) (yp1 ypn : V) (top k : Nat) : V := backward s vt yp1 ypn top (top - k)

theorem sec_step (s : Nat → ℝ) (vt : Nat → V) (yp1 ypn : V) {top k : Nat} (h : k < top) (c : Fin 3) :
    sec s vt yp1 ypn top k c = (forward s vt yp1 k).1 c * sec s vt yp1 ypn top (k + 1) c + (forward s vt yp1 k).2 c := by
  unfold sec
  obtain ⟨j, hj⟩ : ∃ j, top - k = j + 1 := ⟨top - k - 1, by omega⟩
  rw [hj, show top - (k + 1) = j from by omega]
  show (forward s vt yp1 (top - (j + 1))).1 c * backward s vt yp1 ypn top j c + (forward s vt yp1 (top - (j + 1))).2 c = _
  rw [show top - (j + 1) = k from by omega]

/-- The first derivatives agree at the inner vertices. -/
theorem smooth {s : Nat → ℝ} (vt : Nat → V) (yp1 ypn : V) {top i : Nat} (hs : ∀ i, i < top → s i < s (i + 1)) (hi : i + 1 < top) (c : Fin 3) :
    dseg s vt (sec s vt yp1 ypn top) i (s (i + 1)) c = dseg s vt (sec s vt yp1 ypn top) (i + 1) (s (i + 1)) c := by
  have h1 := hs i (by omega)
  have h2 := hs (i + 1) hi
  rw [dseg_right vt _ h1, dseg_left vt _ h2]
  have e1 := sec_step s vt yp1 ypn (k := i) (by omega : i < top) c
  have e2 := sec_step s vt yp1 ypn (k := i + 1) hi c
  have hp := p_bound vt yp1 hs c hi
  have f1 : (forward s vt yp1 (i + 1)).1 c * pOf s (i + 1) (forward s vt yp1 i).1 c = sig s (i + 1) - 1 := by
    show (sig s (i + 1) - 1) / pOf s (i + 1) (forward s vt yp1 i).1 c * _ = _
    exact div_mul_cancel₀ _ (by linarith)
  have f2 : (forward s vt yp1 (i + 1)).2 c * pOf s (i + 1) (forward s vt yp1 i).1 c =
      6 / (s (i + 1 + 1) - s i) * (1 / (s (i + 1 + 1) - s (i + 1)) * (vt (i + 1 + 1) c - vt (i + 1) c) + -1 / (s (i + 1) - s i) * (vt (i + 1) c - vt i c)) - sig s (i + 1) * (forward s vt yp1 i).2 c := by
    show (6 / (s (i + 1 + 1) - s i) * (1 / (s (i + 1 + 1) - s (i + 1)) * (vt (i + 1 + 1) c - vt (i + 1) c) + -1 / (s (i + 1) - s i) * (vt (i + 1) c - vt i c)) - sig s (i + 1) * (forward s vt yp1 i).2 c) /
      pOf s (i + 1) (forward s vt yp1 i).1 c * _ = _
    exact div_mul_cancel₀ _ (by linarith)
  have hsig : sig s (i + 1) * (s (i + 1 + 1) - s i) = s (i + 1) - s i := by
    unfold sig
    rw [Nat.add_sub_cancel]
    exact div_mul_cancel₀ _ (by linarith)
  unfold pOf at f1 f2
  generalize sec s vt yp1 ypn top i c = M0 at *
  generalize sec s vt yp1 ypn top (i + 1) c = M1 at *
  generalize sec s vt yp1 ypn top (i + 1 + 1) c = M2 at *
  generalize (forward s vt yp1 i).1 c = z0 at *
  generalize (forward s vt yp1 i).2 c = u0 at *
  generalize (forward s vt yp1 (i + 1)).1 c = z1 at *
  generalize (forward s vt yp1 (i + 1)).2 c = u1 at *
  generalize sig s (i + 1) = g at *
  generalize vt (i + 1 + 1) c = y2 at *
  generalize vt (i + 1) c = y1 at *
  generalize vt i c = y0 at *
  obtain ⟨h, hh⟩ : ∃ h, s (i + 1) - s i = h := ⟨_, rfl⟩
  obtain ⟨k, hk⟩ : ∃ k, s (i + 1 + 1) - s (i + 1) = k := ⟨_, rfl⟩
  have hhk : s (i + 1 + 1) - s i = h + k := by linarith
  rw [hh, hhk] at hsig
  rw [hh, hk, hhk] at f2
  rw [hh, hk]
  have ph : 0 < h := by linarith
  have pk : 0 < k := by linarith
  -- g M0 + 2 M1 + (1 - g) M2 = 6/(h+k) ((y2-y1)/k - (y1-y0)/h)
  have tri : g * M0 + 2 * M1 + (1 - g) * M2 = 6 / (h + k) * (1 / k * (y2 - y1) + -1 / h * (y1 - y0)) := by
    linear_combination g * e1 + (g * z0 + 2) * e2 + M2 * f1 + f2
  have tri2 : h * M0 + 2 * (h + k) * M1 + k * M2 = 6 * ((y2 - y1) / k - (y1 - y0) / h) := by
    have t := congrArg (fun x => x * (h + k)) tri
    have r : 6 / (h + k) * (1 / k * (y2 - y1) + -1 / h * (y1 - y0)) * (h + k) = 6 * ((y2 - y1) / k - (y1 - y0) / h) := by
      have : h + k ≠ 0 := by linarith
      field_simp
      ring
    rw [r] at t
    linear_combination t + (M2 - M0) * hsig
  linear_combination tri2 / 6

/-- The first derivative at the start. -/
theorem smooth_first {s : Nat → ℝ} (vt : Nat → V) (yp1 ypn : V) {top : Nat} (hs : ∀ i, i < top → s i < s (i + 1)) (h : 0 < top) :
    dseg s vt (sec s vt yp1 ypn top) 0 (s 0) = yp1 := by
  funext c
  have h1 := hs 0 h
  rw [dseg_left vt _ h1, sec_step s vt yp1 ypn h c]
  have hne : s (0 + 1) - s 0 ≠ 0 := by linarith
  simp only [forward]
  rw [Nat.zero_add] at hne ⊢
  field_simp
  ring

/-- The first derivative at the end. -/
theorem smooth_last {s : Nat → ℝ} (vt : Nat → V) (yp1 ypn : V) {top : Nat} (hs : ∀ i, i < top + 1 → s i < s (i + 1)) :
    dseg s vt (sec s vt yp1 ypn (top + 1)) top (s (top + 1)) = ypn := by
  funext c
  have h1 := hs top (by omega)
  have e1 := sec_step s vt yp1 ypn (show top < top + 1 by omega) c
  obtain ⟨b1, b2⟩ := forward_bounds vt yp1 hs c top (by omega)
  have e2 : sec s vt yp1 ypn (top + 1) (top + 1) c * (0.5 * (forward s vt yp1 top).1 c + 1 * 1) =
      1 * (3 / (s (top + 1) - s top) * ypn c + -3 / ((s (top + 1) - s top) * (s (top + 1) - s top)) * (vt (top + 1) c - vt top c)) + -0.5 * (forward s vt yp1 top).2 c := by
    unfold sec
    rw [Nat.sub_self]
    show (1 * (3 / (s (top + 1) - s top) * ypn c + -3 / ((s (top + 1) - s top) * (s (top + 1) - s top)) * (vt (top + 1) c - vt top c)) + -0.5 * (forward s vt yp1 top).2 c) /
      (0.5 * (forward s vt yp1 top).1 c + 1 * 1) * _ = _
    exact div_mul_cancel₀ _ (by norm_num; linarith)
  rw [dseg_right vt _ h1, e1]
  generalize sec s vt yp1 ypn (top + 1) (top + 1) c = M at *
  generalize (forward s vt yp1 top).1 c = z at *
  generalize (forward s vt yp1 top).2 c = u at *
  obtain ⟨h, hh⟩ : ∃ h, s (top + 1) - s top = h := ⟨_, rfl⟩
  rw [hh] at e2 ⊢
  have ph : h ≠ 0 := by linarith
  have e3 : h / 3 * (1 * (3 / h * ypn c + -3 / (h * h) * (vt (top + 1) c - vt top c)) + -0.5 * u) = ypn c - (vt (top + 1) c - vt top c) / h - h / 6 * u := by
    field_simp
    ring
  linear_combination h / 3 * e2 + e3

theorem ddseg_left {s : Nat → ℝ} (m : Nat → V) {i : Nat} (h : s i < s (i + 1)) : ddseg s m i (s i) = m i := by
  funext c
  have hne : s (i + 1) - s i ≠ 0 := by linarith
  unfold ddseg
  simp [div_self hne]

theorem ddseg_right {s : Nat → ℝ} (m : Nat → V) {i : Nat} (h : s i < s (i + 1)) : ddseg s m i (s (i + 1)) = m (i + 1) := by
  funext c
  have hne : s (i + 1) - s i ≠ 0 := by linarith
  unfold ddseg
  simp [div_self hne]

/-! ## Searching -/

theorem mono_of {s : Nat → ℝ} {top : Nat} (hs : ∀ i, i < top → s i < s (i + 1)) : ∀ {i j : Nat}, i ≤ j → j ≤ top → s i ≤ s j := by
  intro i j hij hj
  induction j with
  | zero => rw [show i = 0 from by omega]
  | succ j ih =>
    by_cases e : i = j + 1
    · rw [e]
    · exact le_trans (ih (by omega) (by omega)) (le_of_lt (hs j (by omega)))

theorem search_ok (sp : Spl) (x : ℝ) : ∀ (f klo khi : Nat), khi ≤ f + klo + 1 → klo < khi → sp.svals klo ≤ x → x ≤ sp.svals khi → (klo = 0 ∨ sp.svals klo < x) →
    ∃ k, search sp x f klo khi = (k, k + 1) ∧ (k = 0 ∨ sp.svals k < x) ∧ sp.svals k ≤ x ∧ x ≤ sp.svals (k + 1) ∧ klo ≤ k ∧ k + 1 ≤ khi
  | 0, klo, khi, h1, h2, h3, h4, h5 => by
    obtain rfl : khi = klo + 1 := by omega
    exact ⟨klo, rfl, h5, h3, h4, le_refl _, le_refl _⟩
  | f + 1, klo, khi, h1, h2, h3, h4, h5 => by
    unfold search
    by_cases hc : khi - klo > 1
    · rw [if_pos hc]
      simp only []
      by_cases hk : sp.svals ((khi + klo) / 2) ≥ x
      · rw [if_pos hk]
        obtain ⟨k, a, a', b, c, d, e⟩ := search_ok sp x f klo ((khi + klo) / 2) (by omega) (by omega) h3 hk h5
        exact ⟨k, a, a', b, c, d, by omega⟩
      · rw [if_neg hk]
        obtain ⟨k, a, a', b, c, d, e⟩ := search_ok sp x f ((khi + klo) / 2) khi (by omega) (by omega) (le_of_lt (not_le.mp hk)) h4 (Or.inr (not_le.mp hk))
        exact ⟨k, a, a', b, c, by omega, e⟩
    · rw [if_neg hc]
      obtain rfl : khi = klo + 1 := by omega
      exact ⟨klo, rfl, h5, h3, h4, le_refl _, le_refl _⟩

theorem bracket_ok (sp : Spl) (x : ℝ) {top : Nat} (ht : (if sp.isOpen then sp.ns - 1 else sp.ns) = top) (hx : x ≤ sp.svals top) : ∀ (f shi : Nat), top ≤ f + shi → 1 ≤ shi → shi ≤ top → sp.svals (shi - 1) ≤ x →
    ∃ k, bracket sp x f shi = k + 1 ∧ k + 1 ≤ top ∧ shi ≤ k + 1 ∧ sp.svals k ≤ x ∧ x ≤ sp.svals (k + 1) ∧ (x < sp.svals (k + 1) ∨ k + 1 = top)
  | 0, shi, h1, h2, h3, h4 => by
    obtain rfl : shi = top := by omega
    exact ⟨shi - 1, by simp [bracket]; omega, by omega, by omega, h4, by rwa [show shi - 1 + 1 = shi from by omega], Or.inr (by omega)⟩
  | f + 1, shi, h1, h2, h3, h4 => by
    unfold bracket
    rw [ht]
    by_cases hc : sp.svals shi ≤ x ∧ shi < top
    · rw [if_pos hc]
      obtain ⟨k, a, b, c, d, e, g⟩ := bracket_ok sp x ht hx f (shi + 1) (by omega) (by omega) (by omega) (by rw [Nat.add_sub_cancel]; exact hc.1)
      exact ⟨k, a, b, by omega, d, e, g⟩
    · rw [if_neg hc]
      refine ⟨shi - 1, by omega, by omega, by omega, h4, ?_, ?_⟩
      · rw [show shi - 1 + 1 = shi from by omega]
        by_cases e : shi = top
        · rw [e]; exact hx
        · by_contra hh; exact hc ⟨le_of_lt (not_le.mp hh), by omega⟩
      · by_cases e : shi = top
        · right; omega
        · left
          rw [show shi - 1 + 1 = shi from by omega]
          by_contra hh
          exact hc ⟨not_lt.mp hh, by omega⟩

/-! ## New vertices -/

/-- The arclength of the new vertex j. -/
noncomputable def pos (sp : Spl) (nv j : Nat) : ℝ := sMax sp nv * j / nv

/-- The interpolated color. -/
noncomputable def color (sp : Spl) (k : Nat) (x : ℝ) : Option ℝ :=
  if sp.clr.length > 1 then
    some ((sp.svals (k + 1) - x) / (sp.svals (k + 1) - sp.svals k) * sp.clr.getD k 0 + (x - sp.svals k) / (sp.svals (k + 1) - sp.svals k) * sp.clr.getD (k + 1) 0)
  else none

theorem pos_mono {sp : Spl} {nv : Nat} (h : 0 ≤ sMax sp nv) (j : Nat) : pos sp nv j ≤ pos sp nv (j + 1) := by
  unfold pos
  refine div_le_div_of_nonneg_right ?_ (Nat.cast_nonneg nv)
  exact mul_le_mul_of_nonneg_left (by push_cast; linarith) h

theorem vertices_ok {sp : Spl} {nv top : Nat} {f : Nat → ℝ → V} (ht : (if sp.isOpen then sp.ns - 1 else sp.ns) = top) (h0 : 0 ≤ sMax sp nv)
    (heval : ∀ i, i < top → ∀ x, evalPoly sp (i + 1) i x = .ok (f i x)) (hle : ∀ j, j < nv → pos sp nv j ≤ sp.svals top) (hcol : sp.clr.length ≤ 1 ∨ top < sp.clr.length) :
    ∀ (r i shi : Nat), i + r ≤ nv → 1 ≤ shi → shi ≤ top → sp.svals (shi - 1) ≤ pos sp nv i →
      ∃ vs, vertices sp nv r i shi = .ok vs ∧ vs.length = r ∧ ∀ j, j < r → ∃ k, k < top ∧ sp.svals k ≤ pos sp nv (i + j) ∧ pos sp nv (i + j) ≤ sp.svals (k + 1) ∧
        vs[j]? = some (f k (pos sp nv (i + j)), color sp k (pos sp nv (i + j)))
  | 0, i, shi, _, _, _, _ => ⟨[], rfl, rfl, by omega⟩
  | r + 1, i, shi, h1, h2, h3, h4 => by
    obtain ⟨k, b1, b2, b3, b4, b5, b6⟩ := bracket_ok sp (pos sp nv i) ht (hle i (by omega)) (sp.ns + 1) shi (by split at ht <;> omega) h2 h3 h4
    obtain ⟨vs, v1, v2, v3⟩ := vertices_ok ht h0 heval hle hcol r (i + 1) (k + 1) (by omega) (by omega) b2 (le_trans b4 (pos_mono h0 i))
    refine ⟨(f k (pos sp nv i), color sp k (pos sp nv i)) :: vs, ?_, by simp [v2], ?_⟩
    · unfold vertices
      have hpos : sMax sp nv * (i : ℝ) / nv = pos sp nv i := rfl
      simp only [hpos, b1, Nat.add_sub_cancel]
      rw [assertC_ok (by simpa using b5), ok_bind, assertC_ok (by simpa using b4), ok_bind, heval k (by omega), ok_bind]
      by_cases hc : sp.clr.length > 1
      · have hl : top < sp.clr.length := by omega
        rw [if_pos hc, rd_lt (show k < sp.clr.length by omega), ok_bind, rd_lt (show k + 1 < sp.clr.length by omega), ok_bind]
        show (do
          let rest ← vertices sp nv r (i + 1) (k + 1)
          pure ((f k (pos sp nv i), some _) :: rest)) = _
        rw [v1, ok_bind]
        unfold color
        have hk0 : k < sp.clr.length := by omega
        have hk1 : k + 1 < sp.clr.length := by omega
        have g0 : sp.clr.getD k 0 = sp.clr[k] := by simp [hk0]
        have g1 : sp.clr.getD (k + 1) 0 = sp.clr[k + 1] := by simp [hk1]
        rw [if_pos hc, g0, g1]
        rfl
      · rw [if_neg hc]
        show (do
          let rest ← vertices sp nv r (i + 1) (k + 1)
          pure ((f k (pos sp nv i), none) :: rest)) = _
        rw [v1, ok_bind]
        unfold color
        rw [if_neg hc]
        rfl
    · intro j hj
      cases j with
      | zero => exact ⟨k, by omega, b4, b5, rfl⟩
      | succ j =>
        obtain ⟨k', c1, c2, c3, c4⟩ := v3 j (by omega)
        rw [show i + 1 + j = i + (j + 1) from by omega] at c2 c3 c4
        exact ⟨k', c1, c2, c3, by rw [List.getElem?_cons_succ]; exact c4⟩

/-- As many colors as segments, more than one: the color after the last is read. -/
theorem vertices_ub {sp : Spl} {nv top : Nat} {f : Nat → ℝ → V} (ht : (if sp.isOpen then sp.ns - 1 else sp.ns) = top) (h0 : 0 ≤ sMax sp nv) (hmono : ∀ i j, i ≤ j → j ≤ top → sp.svals i ≤ sp.svals j)
    (heval : ∀ i, i < top → ∀ x, evalPoly sp (i + 1) i x = .ok (f i x)) (hle : ∀ j, j < nv → pos sp nv j ≤ sp.svals top) (hcol : 1 < sp.clr.length) (hc2 : sp.clr.length = top) :
    ∀ (r i shi : Nat), i + r ≤ nv → 1 ≤ shi → shi ≤ top → sp.svals (shi - 1) ≤ pos sp nv i → (∃ j, i ≤ j ∧ j < i + r ∧ sp.svals (top - 1) ≤ pos sp nv j) →
      vertices sp nv r i shi = .error .ub
  | 0, i, shi, _, _, _, _, ⟨j, a, b, _⟩ => by omega
  | r + 1, i, shi, h1, h2, h3, h4, ⟨j, a, b, d⟩ => by
    obtain ⟨k, b1, b2, b3, b4, b5, b6⟩ := bracket_ok sp (pos sp nv i) ht (hle i (by omega)) (sp.ns + 1) shi (by split at ht <;> omega) h2 h3 h4
    unfold vertices
    have hpos : sMax sp nv * (i : ℝ) / nv = pos sp nv i := rfl
    simp only [hpos, b1, Nat.add_sub_cancel]
    rw [assertC_ok (by simpa using b5), ok_bind, assertC_ok (by simpa using b4), ok_bind, heval k (by omega), ok_bind, if_pos hcol, rd_lt (show k < sp.clr.length by omega), ok_bind]
    by_cases e : k + 1 = top
    · have : rd sp.clr (k + 1) = .error .ub := by
        unfold rd
        rw [List.getElem?_eq_none (by omega)]
      rw [this]
      rfl
    · rw [rd_lt (show k + 1 < sp.clr.length by omega), ok_bind]
      have hji : j ≠ i := by
        rintro rfl
        rcases b6 with b6 | b6
        · exact absurd (lt_of_le_of_lt d b6) (not_lt.mpr (hmono _ _ (by omega) (by omega)))
        · exact e b6
      show (do
          let rest ← vertices sp nv r (i + 1) (k + 1)
          pure ((f k (pos sp nv i), some _) :: rest)) = _
      rw [vertices_ub ht h0 hmono heval hle hcol hc2 r (i + 1) (k + 1) (by omega) (by omega) b2 (le_trans b4 (pos_mono h0 i)) ⟨j, by omega, by omega, d⟩]
      rfl

end Plc.Spline
