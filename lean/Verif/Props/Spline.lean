import Verif.Proofs.Spline
import Verif.Spec.Spline
import Mathlib.Algebra.Order.Floor.Ring
import Mathlib.Tactic.NormNum
import Mathlib.Tactic.Positivity

/-! # Splines -/

namespace Plc.Spline

open Spec

theorem eps_pos : 0 < eps := by unfold eps; positivity

/-- Adjacent vertices are not (nearly) equal. -/
structure Regular (L : Strand) : Prop where
  top : 0 < L.top
  edge : ∀ i, i < L.top → eps < dist (L.vt i) (L.vt (i + 1))

theorem svals_lt {L : Strand} (h : Regular L) : ∀ i, i < L.top → svals L.vt i < svals L.vt (i + 1) := by
  intro i hi
  have := h.edge i hi
  have := eps_pos
  show svals L.vt i < svals L.vt i + dist (L.vt i) (L.vt (i + 1))
  linarith

/-- The spline of a component. -/
noncomputable def splOf (L : Strand) (yp1 ypn : V) : Spl :=
  ⟨L.isOpen, L.nv, svals L.vt, L.vt, fun k => if k ≤ L.top then some (sec (svals L.vt) L.vt yp1 (if L.isOpen then ypn else yp1) L.top k) else none, L.clr⟩

theorem toSpline_eq {L : Strand} (h : Regular L) (yp1 ypn : V) : toSpline L yp1 ypn = .ok (splOf L yp1 ypn) := by
  unfold toSpline
  rw [if_neg (by have := h.top; omega)]
  rfl

/-- The pieces. -/
noncomputable def piece (L : Strand) (yp1 ypn : V) : Nat → ℝ → V := seg (svals L.vt) L.vt (sec (svals L.vt) L.vt yp1 (if L.isOpen then ypn else yp1) L.top)

noncomputable def piece' (L : Strand) (yp1 ypn : V) : Nat → ℝ → V := dseg (svals L.vt) L.vt (sec (svals L.vt) L.vt yp1 (if L.isOpen then ypn else yp1) L.top)

noncomputable def piece'' (L : Strand) (yp1 ypn : V) : Nat → ℝ → V := ddseg (svals L.vt) (sec (svals L.vt) L.vt yp1 (if L.isOpen then ypn else yp1) L.top)

theorem eval_ok {L : Strand} (h : Regular L) (yp1 ypn : V) : ∀ i, i < L.top → ∀ x, evalPoly (splOf L yp1 ypn) (i + 1) i x = .ok (piece L yp1 ypn i x) := by
  intro i hi x
  have he := h.edge i hi
  have hd : (splOf L yp1 ypn).svals (i + 1) - (splOf L yp1 ypn).svals i > eps := by
    show svals L.vt i + dist (L.vt i) (L.vt (i + 1)) - svals L.vt i > eps
    linarith
  have s1 : second (splOf L yp1 ypn) i = .ok (sec (svals L.vt) L.vt yp1 (if L.isOpen then ypn else yp1) L.top i) := by
    simp only [second, splOf]; rw [if_pos (by omega)]
  have s2 : second (splOf L yp1 ypn) (i + 1) = .ok (sec (svals L.vt) L.vt yp1 (if L.isOpen then ypn else yp1) L.top (i + 1)) := by
    simp only [second, splOf]; rw [if_pos (by omega)]
  unfold evalPoly
  simp only []
  rw [assertC_ok (by simpa using hd), ok_bind, s1, ok_bind, s2, ok_bind]
  rfl

theorem evalDeriv_ok {L : Strand} (h : Regular L) (yp1 ypn : V) : ∀ i, i < L.top → ∀ x, evalDeriv (splOf L yp1 ypn) (i + 1) i x = .ok (piece' L yp1 ypn i x) := by
  intro i hi x
  have he := h.edge i hi
  have hd : (splOf L yp1 ypn).svals (i + 1) - (splOf L yp1 ypn).svals i > eps := by
    show svals L.vt i + dist (L.vt i) (L.vt (i + 1)) - svals L.vt i > eps
    linarith
  have s1 : second (splOf L yp1 ypn) i = .ok (sec (svals L.vt) L.vt yp1 (if L.isOpen then ypn else yp1) L.top i) := by
    simp only [second, splOf]; rw [if_pos (by omega)]
  have s2 : second (splOf L yp1 ypn) (i + 1) = .ok (sec (svals L.vt) L.vt yp1 (if L.isOpen then ypn else yp1) L.top (i + 1)) := by
    simp only [second, splOf]; rw [if_pos (by omega)]
  unfold evalDeriv
  simp only []
  rw [assertC_ok (by simpa using hd), ok_bind, s1, ok_bind, s2, ok_bind]
  rfl

theorem piece_spline {L : Strand} (h : Regular L) (yp1 ypn : V) :
    IsSpline (svals L.vt) L.vt L.top yp1 (if L.isOpen then ypn else yp1) (piece L yp1 ypn) (piece' L yp1 ypn) (piece'' L yp1 ypn) := by
  have hs := svals_lt h
  refine ⟨fun i _ x c => seg_deriv _ _ _ _ _ _, fun i hi x c => dseg_deriv _ _ (hs i hi) _ _, ?_, fun i hi => seg_left _ _ (hs i hi), fun i hi => seg_right _ _ (hs i hi),
    fun i hi => funext fun c => smooth _ _ _ hs hi c, ?_, smooth_first _ _ _ hs h.top, ?_⟩
  · intro i hi c
    have hne : svals L.vt (i + 1) - svals L.vt i ≠ 0 := by have := hs i hi; linarith
    obtain ⟨m, hm⟩ : ∃ m, m = sec (svals L.vt) L.vt yp1 (if L.isOpen then ypn else yp1) L.top := ⟨_, rfl⟩
    refine ⟨(svals L.vt (i + 1) * m i c - svals L.vt i * m (i + 1) c) / (svals L.vt (i + 1) - svals L.vt i), (m (i + 1) c - m i c) / (svals L.vt (i + 1) - svals L.vt i), ?_⟩
    intro x
    unfold piece'' ddseg
    rw [← hm]
    field_simp
    ring
  · intro i hi
    show ddseg _ _ i _ = ddseg _ _ (i + 1) _
    rw [ddseg_right _ (hs i (by omega)), ddseg_left _ (hs (i + 1) hi)]
  · obtain ⟨t, ht⟩ : ∃ t, L.top = t + 1 := ⟨L.top - 1, by have := h.top; omega⟩
    unfold piece'
    rw [ht] at hs ⊢
    exact smooth_last _ _ _ hs

/-- **C100** For every component whose adjacent vertices differ, `plc_convert_to_spline` gives a cubic spline: the polynomials evaluated on the segments (and their
derivatives) fit together to a curve through all vertices at their arclengths, with continuous first and second derivatives and with the given tangents at the ends; for closed components the
tangents at both ends are the same. -/
theorem C100_spline {L : Strand} (h : Regular L) (yp1 ypn : V) : ∃ sp f f' f'', toSpline L yp1 ypn = .ok sp ∧ sp.svals = svals L.vt ∧
    IsSpline (svals L.vt) L.vt L.top yp1 (if L.isOpen then ypn else yp1) f f' f'' ∧
    ∀ i, i < L.top → ∀ x, evalPoly sp (i + 1) i x = .ok (f i x) ∧ evalDeriv sp (i + 1) i x = .ok (f' i x) :=
  ⟨_, _, _, _, toSpline_eq h yp1 ypn, rfl, piece_spline h yp1 ypn, fun i hi x => ⟨eval_ok h yp1 ypn i hi x, evalDeriv_ok h yp1 ypn i hi x⟩⟩

/-- **C100** None of the divisions by `plc_component_div` is by (nearly) 0. -/
theorem C100_divisors {L : Strand} (h : Regular L) (yp1 : V) (c : Fin 3) : (∀ i, 1 ≤ i → i < L.top → eps < |pOf (svals L.vt) i (forward (svals L.vt) L.vt yp1 (i - 1)).1 c|) ∧
    eps < |0.5 * (forward (svals L.vt) L.vt yp1 (L.top - 1)).1 c + 1 * 1| := by
  have he : eps < 1 / 2 := by unfold eps; norm_num
  constructor
  · intro i h1 hi
    have := p_bound L.vt yp1 (svals_lt h) c (j := i - 1) (by omega)
    rw [show i - 1 + 1 = i from by omega] at this
    rw [abs_of_pos (by linarith)]
    linarith
  · obtain ⟨b1, b2⟩ := forward_bounds L.vt yp1 (svals_lt h) c (L.top - 1) (by have := h.top; omega)
    have : (1 : ℝ) / 2 < 0.5 * (forward (svals L.vt) L.vt yp1 (L.top - 1)).1 c + 1 * 1 := by
      norm_num
      linarith
    rw [abs_of_pos (by linarith)]
    linarith

theorem svals_top_pos {L : Strand} (h : Regular L) : 0 < svals L.vt L.top :=
  lt_of_lt_of_le (svals_lt h 0 h.top) (mono_of (svals_lt h) h.top (le_refl _))

theorem wrap_range {len : ℝ} (h : 0 < len) (x : ℝ) : 0 ≤ wrap len x ∧ wrap len x < len := by
  unfold wrap
  have h1 := Int.floor_le (x / len)
  have h2 := Int.lt_floor_add_one (x / len)
  rw [le_div_iff₀ h] at h1
  rw [div_lt_iff₀ h] at h2
  constructor <;> linarith

theorem wrap_self {len x : ℝ} (h0 : 0 ≤ x) (h : x < len) : wrap len x = x := by
  unfold wrap
  rw [Int.floor_eq_zero_iff.mpr ⟨div_nonneg h0 (by linarith), (div_lt_one (by linarith)).mpr h⟩]
  simp

/-- **C100** Sampling a closed component at any parameter, by `plc_sample_spline` or `plc_spline_tangent`, gives the point (or derivative) of the spline there,
reduced to the length of the component. -/
theorem C100_sample_closed {L : Strand} (h : Regular L) (hc : L.isOpen = false) (yp1 ypn : V) : ∃ sp f f' f'', toSpline L yp1 ypn = .ok sp ∧
    IsSpline (svals L.vt) L.vt L.top yp1 yp1 f f' f'' ∧
    ∀ x, ∃ (k : ℤ) (i : Nat), i < L.top ∧ svals L.vt i ≤ x - svals L.vt L.top * k ∧ x - svals L.vt L.top * k ≤ svals L.vt (i + 1) ∧
      sample sp x = .ok (f i (x - svals L.vt L.top * k)) ∧ tangent sp x = .ok (f' i (x - svals L.vt L.top * k)) := by
  have hsp := piece_spline h yp1 ypn
  rw [hc] at hsp
  refine ⟨_, _, _, _, toSpline_eq h yp1 ypn, hsp, ?_⟩
  intro x
  have ht : L.top = L.nv := by unfold Strand.top; rw [hc]; rfl
  have hlen := svals_top_pos h
  obtain ⟨w1, w2⟩ := wrap_range hlen x
  obtain ⟨k, k1, _, k2, k3, _, k5⟩ := search_ok (splOf L yp1 ypn) (wrap (svals L.vt L.top) x) L.nv 0 L.nv (by omega) (by have := h.top; omega) w1 (by rw [← ht]; exact le_of_lt w2) (Or.inl rfl)
  refine ⟨⌊x / svals L.vt L.top⌋, k, by omega, k2, k3, ?_, ?_⟩
  · unfold sample
    rw [show (splOf L yp1 ypn).svals (splOf L yp1 ypn).ns = svals L.vt L.top from by rw [ht]; rfl, show (splOf L yp1 ypn).ns = L.nv from rfl]
    simp only [k1]
    exact eval_ok h yp1 ypn k (by omega) _
  · unfold tangent
    rw [show (splOf L yp1 ypn).svals (splOf L yp1 ypn).ns = svals L.vt L.top from by rw [ht]; rfl, show (splOf L yp1 ypn).ns = L.nv from rfl]
    simp only [k1]
    exact evalDeriv_ok h yp1 ypn k (by omega) _

/-- **C100** Sampling an open component at a parameter from 0 to its length gives the point (or derivative) of the spline there. -/
theorem C100_sample_open {L : Strand} (h : Regular L) (hc : L.isOpen = true) (hw : L.vt L.nv = L.vt (L.nv - 2)) (yp1 ypn : V) : ∃ sp f f' f'', toSpline L yp1 ypn = .ok sp ∧
    IsSpline (svals L.vt) L.vt L.top yp1 ypn f f' f'' ∧
    ∀ x, 0 ≤ x → x ≤ svals L.vt L.top → ∃ i, i < L.top ∧ svals L.vt i ≤ x ∧ x ≤ svals L.vt (i + 1) ∧ sample sp x = .ok (f i x) ∧ tangent sp x = .ok (f' i x) := by
  have hsp := piece_spline h yp1 ypn
  rw [hc] at hsp
  refine ⟨_, _, _, _, toSpline_eq h yp1 ypn, hsp, ?_⟩
  intro x hx0 hx1
  have ht : L.top = L.nv - 1 := by unfold Strand.top; rw [hc]; rfl
  have hpos := h.top
  have hn : L.nv = L.top + 1 := by omega
  have hlast : svals L.vt L.nv = svals L.vt L.top + dist (L.vt (L.top - 1 + 1)) (L.vt (L.top - 1)) := by
    rw [hn]
    show svals L.vt L.top + dist (L.vt L.top) (L.vt (L.top + 1)) = _
    rw [← hn, hw, show L.nv - 2 = L.top - 1 from by omega, show L.top - 1 + 1 = L.top from by omega]
  have hsym : dist (L.vt (L.top - 1 + 1)) (L.vt (L.top - 1)) = dist (L.vt (L.top - 1)) (L.vt (L.top - 1 + 1)) := by
    unfold dist
    congr 1
    ring
  have hedge := h.edge (L.top - 1) (by omega)
  have he := eps_pos
  have hlt : x < svals L.vt L.nv := by rw [hlast, hsym]; linarith
  obtain ⟨k, k1, k6, k2, k3, _, k5⟩ := search_ok (splOf L yp1 ypn) x L.nv 0 L.nv (by omega) (by omega) hx0 (le_of_lt hlt) (Or.inl rfl)
  have hk : k < L.top := by
    rcases k6 with k6 | k6
    · omega
    · by_contra hh
      have : k = L.top := by omega
      rw [this] at k6
      exact absurd (lt_of_lt_of_le k6 hx1) (lt_irrefl _)
  refine ⟨k, hk, k2, k3, ?_, ?_⟩
  · unfold sample
    rw [show (splOf L yp1 ypn).svals (splOf L yp1 ypn).ns = svals L.vt L.nv from rfl, show (splOf L yp1 ypn).ns = L.nv from rfl]
    simp only [wrap_self hx0 hlt, k1]
    exact eval_ok h yp1 ypn k hk _
  · unfold tangent
    rw [show (splOf L yp1 ypn).svals (splOf L yp1 ypn).ns = svals L.vt L.nv from rfl, show (splOf L yp1 ypn).ns = L.nv from rfl]
    simp only [wrap_self hx0 hlt, k1]
    exact evalDeriv_ok h yp1 ypn k hk _

/-- **C100** Deviation: for an open component the length used for wraparound includes the edge to the extra vertex of `plc_fix_wrap`. Sampling between the length of
the component and this reads a second derivative which was never set. -/
theorem C100_open {L : Strand} (h : Regular L) (hc : L.isOpen = true) (hw : L.vt L.nv = L.vt (L.nv - 2)) (yp1 ypn : V) : ∃ sp, toSpline L yp1 ypn = .ok sp ∧
    svals L.vt L.top < svals L.vt L.nv ∧ ∀ x, svals L.vt L.top < x → x < svals L.vt L.nv → sample sp x = .error .ub ∧ tangent sp x = .error .ub := by
  have ht : L.top = L.nv - 1 := by unfold Strand.top; rw [hc]; rfl
  have hpos := h.top
  have hn : L.nv = L.top + 1 := by omega
  have hlast : svals L.vt L.nv = svals L.vt L.top + dist (L.vt (L.top - 1 + 1)) (L.vt (L.top - 1)) := by
    rw [hn]
    show svals L.vt L.top + dist (L.vt L.top) (L.vt (L.top + 1)) = _
    rw [← hn, hw, show L.nv - 2 = L.top - 1 from by omega, show L.top - 1 + 1 = L.top from by omega]
  have hsym : dist (L.vt (L.top - 1 + 1)) (L.vt (L.top - 1)) = dist (L.vt (L.top - 1)) (L.vt (L.top - 1 + 1)) := by
    unfold dist
    congr 1
    ring
  have hedge := h.edge (L.top - 1) (by omega)
  have he := eps_pos
  refine ⟨_, toSpline_eq h yp1 ypn, by rw [hlast, hsym]; linarith, ?_⟩
  intro x hx0 hx1
  have hp := svals_top_pos h
  obtain ⟨k, k1, k6, k2, k3, _, k5⟩ := search_ok (splOf L yp1 ypn) x L.nv 0 L.nv (by omega) (by omega) (by show (0 : ℝ) ≤ x; linarith) (le_of_lt hx1) (Or.inl rfl)
  have hk : k = L.top := by
    by_contra hh
    have : svals L.vt (k + 1) ≤ svals L.vt L.top := mono_of (svals_lt h) (by omega) (le_refl _)
    have k3 : x ≤ svals L.vt (k + 1) := k3
    linarith
  subst hk
  have hd : (splOf L yp1 ypn).svals (L.top + 1) - (splOf L yp1 ypn).svals L.top > eps := by
    rw [← hn]
    show svals L.vt L.nv - svals L.vt L.top > eps
    rw [hlast, hsym]
    linarith
  have s1 : second (splOf L yp1 ypn) L.top = .ok (sec (svals L.vt) L.vt yp1 (if L.isOpen then ypn else yp1) L.top L.top) := by
    simp only [second, splOf]; rw [if_pos (by omega)]
  have s2 : second (splOf L yp1 ypn) (L.top + 1) = .error .ub := by
    simp only [second, splOf]; rw [if_neg (by omega)]
  constructor
  · unfold sample
    rw [show (splOf L yp1 ypn).svals (splOf L yp1 ypn).ns = svals L.vt L.nv from rfl, show (splOf L yp1 ypn).ns = L.nv from rfl]
    simp only [wrap_self (show 0 ≤ x by linarith) hx1, k1]
    unfold evalPoly
    simp only []
    rw [assertC_ok (by simpa using hd), ok_bind, s1, ok_bind, s2]
    rfl
  · unfold tangent
    rw [show (splOf L yp1 ypn).svals (splOf L yp1 ypn).ns = svals L.vt L.nv from rfl, show (splOf L yp1 ypn).ns = L.nv from rfl]
    simp only [wrap_self (show 0 ≤ x by linarith) hx1, k1]
    unfold evalDeriv
    simp only []
    rw [assertC_ok (by simpa using hd), ok_bind, s1, ok_bind, s2]
    rfl

theorem top_eq (L : Strand) (yp1 ypn : V) : (if (splOf L yp1 ypn).isOpen then (splOf L yp1 ypn).ns - 1 else (splOf L yp1 ypn).ns) = L.top := rfl

/-- The arclength of new vertex j of nv. -/
noncomputable def newPos (L : Strand) (nv j : Nat) : ℝ := svals L.vt L.top * j / (if L.isOpen then (nv : ℝ) - 1 else nv)

theorem sMax_open {L : Strand} (hc : L.isOpen = true) (yp1 ypn : V) (nv : Nat) : sMax (splOf L yp1 ypn) nv = svals L.vt (L.nv - 1) * ((nv : ℝ) / ((nv : ℝ) - 1)) := by
  unfold sMax
  rw [if_pos (show (splOf L yp1 ypn).isOpen = true from hc)]
  rfl

theorem sMax_closed {L : Strand} (hc : ¬ L.isOpen = true) (yp1 ypn : V) (nv : Nat) : sMax (splOf L yp1 ypn) nv = svals L.vt L.nv := by
  unfold sMax
  rw [if_neg (show ¬ (splOf L yp1 ypn).isOpen = true from hc)]
  rfl

theorem pos_eq {L : Strand} (yp1 ypn : V) {nv : Nat} (hnv : if L.isOpen then 2 ≤ nv else 1 ≤ nv) (j : Nat) : pos (splOf L yp1 ypn) nv j = newPos L nv j := by
  unfold pos newPos Strand.top
  by_cases hc : L.isOpen = true
  · rw [sMax_open hc]
    simp only [if_pos hc] at hnv ⊢
    have h1 : (2 : ℝ) ≤ nv := by exact_mod_cast hnv
    have h2 : (nv : ℝ) - 1 ≠ 0 := by linarith
    have h3 : (nv : ℝ) ≠ 0 := by linarith
    field_simp
  · rw [sMax_closed hc]
    simp only [if_neg hc]

theorem newPos_le {L : Strand} (h : Regular L) {nv : Nat} (hnv : if L.isOpen then 2 ≤ nv else 1 ≤ nv) {j : Nat} (hj : j < nv) : newPos L nv j ≤ svals L.vt L.top := by
  have hp := svals_top_pos h
  have hj' : (j : ℝ) + 1 ≤ nv := by exact_mod_cast hj
  unfold newPos
  cases hc : L.isOpen
  · rw [if_neg (by simp), div_le_iff₀ (by have : (0 : ℝ) ≤ j := Nat.cast_nonneg j; linarith)]
    exact mul_le_mul_of_nonneg_left (by linarith) (le_of_lt hp)
  · rw [hc] at hnv
    simp only [if_true] at hnv
    have h1 : (2 : ℝ) ≤ nv := by exact_mod_cast hnv
    rw [if_pos rfl, div_le_iff₀ (by linarith)]
    exact mul_le_mul_of_nonneg_left (by linarith) (le_of_lt hp)

theorem sMax_nonneg {L : Strand} (h : Regular L) (yp1 ypn : V) {nv : Nat} (hnv : if L.isOpen then 2 ≤ nv else 1 ≤ nv) : 0 ≤ sMax (splOf L yp1 ypn) nv := by
  have hp := svals_top_pos h
  unfold Strand.top at hp
  by_cases hc : L.isOpen = true
  · rw [sMax_open hc]
    simp only [if_pos hc] at hnv hp
    have h1 : (2 : ℝ) ≤ nv := by exact_mod_cast hnv
    exact mul_nonneg (le_of_lt hp) (div_nonneg (by linarith) (by linarith))
  · rw [sMax_closed hc]
    simp only [if_neg hc] at hp
    exact le_of_lt hp

/-- **C100** Converting to a spline and back with nv vertices (at least two for open components) gives the nv points of the spline which divide its parameter interval into equal parts:
from end to end for open components, once around for closed ones. Colors are interpolated. It is assumed that there is at most one color, or that there are more colors than segments. -/
theorem C100_resample {L : Strand} (h : Regular L) (yp1 ypn : V) {nv : Nat} (hnv : if L.isOpen then 2 ≤ nv else 1 ≤ nv) (hcol : L.clr.length ≤ 1 ∨ L.top < L.clr.length) :
    ∃ sp f f' f'' vs, toSpline L yp1 ypn = .ok sp ∧ IsSpline (svals L.vt) L.vt L.top yp1 (if L.isOpen then ypn else yp1) f f' f'' ∧ fromSpline sp nv = .ok vs ∧ vs.length = nv ∧
      ∀ j, j < nv → ∃ i, i < L.top ∧ svals L.vt i ≤ newPos L nv j ∧ newPos L nv j ≤ svals L.vt (i + 1) ∧
        vs[j]? = some (f i (newPos L nv j), if L.clr.length > 1 then
          some ((svals L.vt (i + 1) - newPos L nv j) / (svals L.vt (i + 1) - svals L.vt i) * L.clr.getD i 0 + (newPos L nv j - svals L.vt i) / (svals L.vt (i + 1) - svals L.vt i) * L.clr.getD (i + 1) 0)
        else none) := by
  have hle : ∀ j, j < nv → pos (splOf L yp1 ypn) nv j ≤ (splOf L yp1 ypn).svals L.top := by
    intro j hj
    rw [pos_eq yp1 ypn hnv]
    exact newPos_le h hnv hj
  obtain ⟨vs, v1, v2, v3⟩ := vertices_ok (top_eq L yp1 ypn) (sMax_nonneg h yp1 ypn hnv) (eval_ok h yp1 ypn) hle hcol nv 0 1 (by omega) (le_refl _) h.top
    (by rw [pos_eq yp1 ypn hnv]; show (0 : ℝ) ≤ _; unfold newPos; simp)
  refine ⟨_, _, _, _, vs, toSpline_eq h yp1 ypn, piece_spline h yp1 ypn, v1, v2, ?_⟩
  intro j hj
  obtain ⟨k, c1, c2, c3, c4⟩ := v3 j hj
  rw [Nat.zero_add, pos_eq yp1 ypn hnv] at c2 c3 c4
  exact ⟨k, c1, c2, c3, c4⟩

/-- **C100** Deviation: a closed component with one color for each vertex (and more than one) makes `plc_convert_from_spline` read beyond the last color, if one of the
new vertices is on the last edge. -/
theorem C100_color {L : Strand} (h : Regular L) (hc : L.isOpen = false) (yp1 ypn : V) {nv : Nat} (h1 : 1 < L.clr.length) (h2 : L.clr.length = L.nv)
    {j : Nat} (hj : j < nv) (hlast : svals L.vt (L.top - 1) ≤ newPos L nv j) : ∃ sp, toSpline L yp1 ypn = .ok sp ∧ fromSpline sp nv = .error .ub := by
  have hnv : if L.isOpen then 2 ≤ nv else 1 ≤ nv := by rw [hc]; simp; omega
  have hle : ∀ j, j < nv → pos (splOf L yp1 ypn) nv j ≤ (splOf L yp1 ypn).svals L.top := by
    intro j hj
    rw [pos_eq yp1 ypn hnv]
    exact newPos_le h hnv hj
  have ht : L.top = L.nv := by unfold Strand.top; rw [hc]; rfl
  refine ⟨_, toSpline_eq h yp1 ypn, ?_⟩
  exact vertices_ub (top_eq L yp1 ypn) (sMax_nonneg h yp1 ypn hnv) (fun i j hij hj => mono_of (svals_lt h) hij hj) (eval_ok h yp1 ypn) hle h1 (by show L.clr.length = L.top; omega) nv 0 1 (by omega) (le_refl _) h.top
    (by rw [pos_eq yp1 ypn hnv]; show (0 : ℝ) ≤ _; unfold newPos; simp) ⟨j, by omega, by omega, by rw [pos_eq yp1 ypn hnv]; exact hlast⟩

/-- **C100** Deviation: an open component with one vertex makes `plc_convert_to_spline` read before the start of a buffer. -/
theorem C100_single {L : Strand} (hc : L.isOpen = true) (h1 : L.nv = 1) (yp1 ypn : V) : toSpline L yp1 ypn = .error .ub := by
  unfold toSpline Strand.top
  rw [hc, h1]
  rfl

/-- A triangle. -/
noncomputable def triangle (clr : List ℝ) : Strand := ⟨false, 3, fun i => if i % 3 = 0 then ![0, 0, 0] else if i % 3 = 1 then ![3, 0, 0] else ![0, 4, 0], clr⟩

theorem triangle_regular (clr : List ℝ) : Regular (triangle clr) := by
  refine ⟨by simp [triangle, Strand.top], ?_⟩
  intro i hi
  have hi : i < 3 := by simpa [triangle, Strand.top] using hi
  have h0 : eps < 1 := by unfold eps; norm_num
  have hcase : i = 0 ∨ i = 1 ∨ i = 2 := by omega
  have hs : eps < 1 ∧ (1 : ℝ) ≤ dist ((triangle clr).vt i) ((triangle clr).vt (i + 1)) := by
    refine ⟨h0, ?_⟩
    unfold dist
    rw [Real.one_le_sqrt]
    rcases hcase with rfl | rfl | rfl <;> simp [triangle] <;> norm_num
  linarith [hs.1, hs.2]

/-- Three colors, three vertices: the color after the last is read. -/
example : ∃ sp, toSpline (triangle [0, 0.5, 1]) 0 0 = .ok sp ∧ fromSpline sp 12 = .error .ub := by
  refine C100_color (j := 11) (triangle_regular _) rfl 0 0 (by simp [triangle]) (by simp [triangle]) (by omega) ?_
  have d0 : dist ((triangle [0, 0.5, 1]).vt 0) ((triangle [0, 0.5, 1]).vt 1) = 3 := by
    unfold dist
    rw [Real.sqrt_eq_iff_mul_self_eq_of_pos] <;> simp [triangle] <;> norm_num
  have d1 : dist ((triangle [0, 0.5, 1]).vt 1) ((triangle [0, 0.5, 1]).vt 2) = 5 := by
    unfold dist
    rw [Real.sqrt_eq_iff_mul_self_eq_of_pos] <;> simp [triangle] <;> norm_num
  have d2 : dist ((triangle [0, 0.5, 1]).vt 2) ((triangle [0, 0.5, 1]).vt 3) = 4 := by
    unfold dist
    rw [Real.sqrt_eq_iff_mul_self_eq_of_pos] <;> simp [triangle] <;> norm_num
  have e2 : svals (triangle [0, 0.5, 1]).vt 2 = 8 := by
    simp only [svals, d0, d1]; norm_num
  have e3 : svals (triangle [0, 0.5, 1]).vt 3 = 12 := by
    simp only [svals, d0, d1, d2]; norm_num
  show svals (triangle [0, 0.5, 1]).vt 2 ≤ svals (triangle [0, 0.5, 1]).vt 3 * ((11 : ℕ) : ℝ) / (if (triangle [0, 0.5, 1]).isOpen then ((12 : ℕ) : ℝ) - 1 else ((12 : ℕ) : ℝ))
  rw [e2, e3]
  simp [triangle]
  norm_num

end Plc.Spline
