import Verif.Proofs.SymBuild
import Verif.Props.Motions
import Mathlib.Data.ZMod.Basic

/-! # Lemmas about symmetries of curves: the groups -/

namespace Plc.Symmetry

open Plc.Core Plc.FindCrossings Plc.RandomPolygon Plc.Equilateral Plc.Motions Plc.Measure Plc.Nearest

theorem rod_add (u : V3) (s t : ℝ) (p : V3) (hu : dotOf u u = 1) : rod u s (rod u t p) = rod u (s + t) p := by
  obtain ⟨P, hP⟩ : ∃ P, P = perp u p := ⟨_, rfl⟩
  have hd : dotOf P u = 0 := by rw [hP]; exact perp_dot u p hu
  have hal := (rod_turned u t p hu).along
  have hrod : ∀ t, rod u t p = add (lincomb (Real.cos t) P (Real.sin t) (u.crossProd P)) (V3.scale (dotOf p u) u) := by
    intro t; rw [hP]; rfl
  have hperp : perp u (rod u t p) = lincomb (Real.cos t) P (Real.sin t) (u.crossProd P) := by
    unfold perp
    rw [hal, hrod]
    simp only [dotOf, add, lincomb, V3.scale, V3.crossProd]
    refine V3.ext' ?_ ?_ ?_ <;> ring
  have h2 : rod u s (rod u t p) = add (lincomb (Real.cos s) (perp u (rod u t p)) (Real.sin s) (u.crossProd (perp u (rod u t p))))
      (V3.scale (dotOf (rod u t p) u) u) := rfl
  rw [h2, hal, hperp, hrod (s + t), Real.cos_add, Real.sin_add]
  generalize dotOf p u = k
  simp only [dotOf, add, lincomb, V3.scale, V3.crossProd] at *
  refine V3.ext' ?_ ?_ ?_
  · linear_combination (-(Real.sin s * Real.sin t * P.x)) * hu + Real.sin s * Real.sin t * u.x * hd
  · linear_combination (-(Real.sin s * Real.sin t * P.y)) * hu + Real.sin s * Real.sin t * u.y * hd
  · linear_combination (-(Real.sin s * Real.sin t * P.z)) * hu + Real.sin s * Real.sin t * u.z * hd

theorem rod_zero (u : V3) (p : V3) : rod u 0 p = p := by
  simp only [rod, Real.cos_zero, Real.sin_zero, V3.sub, add, lincomb, V3.scale, V3.crossProd, V3.dot]
  refine V3.ext' ?_ ?_ ?_ <;> ring

theorem rod_period (u : V3) (t : ℝ) (k : Nat) (p : V3) : rod u (t + k * (2 * Real.pi)) p = rod u t p := by
  simp only [rod, Real.cos_add_nat_mul_two_pi, Real.sin_add_nat_mul_two_pi]

theorem norm3_scale_unit (u : V3) (r : ℝ) (hu : dotOf u u = 1) (hr : 0 ≤ r) : norm3 (V3.scale r u) = r := by
  unfold norm3
  have : (V3.scale r u).x * (V3.scale r u).x + (V3.scale r u).y * (V3.scale r u).y + (V3.scale r u).z * (V3.scale r u).z = r ^ 2 := by
    simp only [V3.scale, dotOf] at *
    linear_combination r ^ 2 * hu
  rw [this, Real.sqrt_sq hr]

theorem scale_back (u : V3) (r : ℝ) (hr : 0 < r) : V3.scale (1 / r) (V3.scale r u) = u := by
  simp only [V3.scale]
  refine V3.ext' ?_ ?_ ?_ <;> simp only <;> field_simp

theorem rotation_rod (u : V3) (r t : ℝ) (hu : dotOf u u = 1) (hr : 1 / 2 ^ 52 ≤ r) :
    ∃ A, rotationMatrix (V3.scale r u) t = .ok A ∧ ∀ p, image A p = rod u t p := by
  obtain ⟨A, h1, h2⟩ := matrix_rod u t hu
  have hr0 : 0 < r := lt_of_lt_of_le (by positivity) hr
  refine ⟨A, ?_, h2⟩
  rw [← h1]
  have hn : norm3 u = 1 := by
    have := norm3_scale_unit u 1 hu (by norm_num)
    rwa [show V3.scale 1 u = u from by simp [V3.scale]] at this
  have e : V3.scale (1 / 1) u = u := by simp [V3.scale]
  unfold rotationMatrix
  rw [norm3_scale_unit u r hu hr0.le, hn, if_neg (by intro h; have := h.1; unfold eps at this; linarith),
    if_neg (by intro h; have := h.1; unfold eps at this; norm_num at this)]
  simp only [scale_back u r hr0, e]

/-- The mirror image. -/
noncomputable def mirror (u p : V3) : V3 := p.sub (V3.scale (2 * dotOf p u) u)

theorem reflection_mirror (u : V3) (r : ℝ) (hu : dotOf u u = 1) (hr : 1 / 2 ^ 52 ≤ r) :
    ∃ A, reflectionMatrix (V3.scale r u) = .ok A ∧ ∀ p, image A p = mirror u p := by
  have hr0 : 0 < r := lt_of_lt_of_le (by positivity) hr
  unfold reflectionMatrix
  rw [norm3_scale_unit u r hu hr0.le, if_neg (by intro h; have := h.1; unfold eps at this; linarith)]
  simp only [scale_back u r hr0]
  refine ⟨_, rfl, fun p => ?_⟩
  simp only [image, mirror, V3.sub, V3.scale, dotOf]
  refine V3.ext' ?_ ?_ ?_ <;> ring

theorem mirror_mirror (u p : V3) (hu : dotOf u u = 1) : mirror u (mirror u p) = p := by
  simp only [mirror, V3.sub, V3.scale, dotOf] at *
  refine V3.ext' ?_ ?_ ?_
  · simp only; linear_combination 4 * (p.x * u.x + p.y * u.y + p.z * u.z) * u.x * hu
  · simp only; linear_combination 4 * (p.x * u.x + p.y * u.y + p.z * u.z) * u.y * hu
  · simp only; linear_combination 4 * (p.x * u.x + p.y * u.y + p.z * u.z) * u.z * hu

theorem apart_mirror (u p q : V3) (hu : dotOf u u = 1) : apart (mirror u p) (mirror u q) = apart p q := by
  apply apart_congr
  simp only [mirror, V3.sub, V3.scale, dotOf, distSq] at *
  linear_combination 4 * ((p.x - q.x) * u.x + (p.y - q.y) * u.y + (p.z - q.z) * u.z) ^ 2 * hu

theorem image_identity (p : V3) : image identityMatrix p = p := by
  simp only [image, identityMatrix]
  refine V3.ext' ?_ ?_ ?_ <;> ring

/-- The numbers of the symmetries as a cyclic group. -/
def cyc (n : Nat) [NeZero n] : Fin n ≃ Multiplicative (ZMod n) := (ZMod.finEquiv n).toEquiv.trans Multiplicative.ofAdd

/-- The number of an element. -/
def nat {n : Nat} (a : Multiplicative (ZMod n)) : Nat := (Multiplicative.toAdd a).val

theorem nat_cyc {n : Nat} [NeZero n] (i : Fin n) : nat (cyc n i) = i := by
  unfold nat cyc
  obtain _ | m := n
  · exact i.elim0
  · rfl

theorem nat_lt {n : Nat} [NeZero n] (a : Multiplicative (ZMod n)) : nat a < n := ZMod.val_lt _

theorem nat_mul {n : Nat} [NeZero n] (a b : Multiplicative (ZMod n)) : nat (a * b) = (nat a + nat b) % n := ZMod.val_add _ _

theorem nat_one {n : Nat} : nat (1 : Multiplicative (ZMod n)) = 0 := ZMod.val_zero

theorem nat_inv {n : Nat} [NeZero n] (a : Multiplicative (ZMod n)) : nat a⁻¹ = if nat a = 0 then 0 else n - nat a := by
  unfold nat
  rw [toAdd_inv, ZMod.neg_val]
  simp only [ZMod.val_eq_zero]

theorem symm_cyc {n : Nat} [NeZero n] (a : Multiplicative (ZMod n)) : (((cyc n).symm a : Fin n) : Nat) = nat a := by
  rw [← nat_cyc, Equiv.apply_symm_apply]

theorem ready_of {big d : ℝ} {A : Mat} {L : SCurve} (h : SearchableCurve L) (hb : d ^ 2 < big) (τ : Loc → Loc)
    (hτ : ∀ l, HasVert L l → HasVert L (τ l) ∧ apart (image A (vertAt L l)) (vertAt L (τ l)) ≤ d) : Ready big A L := by
  refine ⟨h.comps, h.full, h.fits, ?_⟩
  intro l hl
  obtain ⟨h1, h2⟩ := hτ l hl
  refine ⟨τ l, h1, lt_of_le_of_lt ?_ hb⟩
  unfold apart at h2
  exact (Real.sqrt_le_left (le_trans (Real.sqrt_nonneg _) h2)).mp h2

/-- The matrices of a cyclic group almost carry vertices to vertices. -/
structure Almost (L : SCurve) (n : Nat) (Ms : Nat → Mat) (τ : Nat → Loc → Loc) (d : ℝ) : Prop where
  zero : ∀ p, image (Ms 0) p = p
  add : ∀ a b p, a < n → b < n → image (Ms ((a + b) % n)) p = image (Ms a) (image (Ms b) p)
  rigid : ∀ k, Rigid (Ms k)
  near : ∀ k l, k < n → HasVert L l → HasVert L (τ k l) ∧ apart (image (Ms k) (vertAt L l)) (vertAt L (τ k l)) ≤ d
  far : ∀ l m, HasVert L l → HasVert L m → l ≠ m → 3 * d < apart (vertAt L l) (vertAt L m)

theorem Almost.build {L : SCurve} {n : Nat} {Ms : Nat → Mat} {τ : Nat → Loc → Loc} {d big : ℝ} (h : Almost L n Ms τ d) (hL : SearchableCurve L)
    (hb : d ^ 2 < big) (qs : QSort) (k : Nat) (hk : k < n) :
    ∃ s, buildSymmetry qs big (Ms k) L = .ok (some s) ∧ s.transform = Ms k ∧ ∀ l, HasVert L l → Plc.sent s l = some (τ k l) := by
  refine build_exact qs big L (Ms k) (ready_of hL hb (τ k) (fun l hl => h.near k l hk hl)) (h.rigid k) d (τ k) (fun l hl => h.near k l hk hl) ?_
  intro l m hl hm hne
  have h1 := h.far l m hl hm hne
  have h2 := le_trans (apart_nonneg _ _) (h.near k l hk hl).2
  linarith

theorem Almost.acts {L : SCurve} {n : Nat} [NeZero n] {Ms : Nat → Mat} {τ : Nat → Loc → Loc} {d : ℝ} (h : Almost L n Ms τ d) (G : SymGroup)
    (hn : G.sym.length = n)
    (hG : ∀ k, k < n → ∃ s, G.sym[k]? = some (some s) ∧ s.transform = Ms k ∧ ∀ l, HasVert L l → Plc.sent s l = some (τ k l))
    (hi : ∀ k, k < n → G.inverse[k]? = some (if k = 0 then 0 else n - k)) :
    Acts (HasVert L) G (cyc n) (fun a => Ms (nat a)) (fun a => τ (nat a)) := by
  constructor
  · exact hn
  · intro i
    rw [nat_cyc]
    exact hG i i.2
  · intro i
    rw [symm_cyc, nat_inv, nat_cyc]
    exact hi i i.2
  · intro a l hl
    exact (h.near _ l (nat_lt a) hl).1
  · intro l hl
    rw [nat_one]
    by_contra hne
    have h0 := h.near 0 l (Nat.pos_of_ne_zero (NeZero.ne n)) hl
    have h1 := h.far (τ 0 l) l h0.1 hl hne
    have h2 := h0.2
    rw [h.zero, apart_comm] at h2
    have := apart_nonneg (vertAt L (τ 0 l)) (vertAt L l)
    linarith
  · intro a b l hl
    by_contra hne
    have hb := h.near _ l (nat_lt b) hl
    have ha := h.near _ _ (nat_lt a) hb.1
    have hab := h.near _ l (nat_lt (a * b)) hl
    have h1 := h.far _ _ hab.1 ha.1 hne
    have h2 := hab.2
    have hm : image (Ms (nat (a * b))) (vertAt L l) = image (Ms (nat a)) (image (Ms (nat b)) (vertAt L l)) := by
      rw [nat_mul]; exact h.add _ _ _ (nat_lt a) (nat_lt b)
    rw [hm, apart_comm] at h2
    have h3 := hb.2
    rw [← h.rigid (nat a)] at h3
    have h4 := ha.2
    have t1 := apart_triangle (vertAt L (τ (nat (a * b)) l)) (image (Ms (nat a)) (image (Ms (nat b)) (vertAt L l))) (vertAt L (τ (nat a) (τ (nat b) l)))
    have t2 := apart_triangle (image (Ms (nat a)) (image (Ms (nat b)) (vertAt L l))) (image (Ms (nat a)) (vertAt L (τ (nat b) l)))
      (vertAt L (τ (nat a) (τ (nat b) l)))
    linarith
  · intro p
    rw [nat_one]; exact h.zero p
  · intro a b p
    rw [nat_mul]
    exact h.add _ _ _ (nat_lt a) (nat_lt b)

theorem scan_all {G : SymGroup} (h : ∀ k, k < G.sym.length → ∃ s, G.sym[k]? = some (some s)) (n : Nat) : scan n G = some G := by
  unfold scan
  rw [if_neg]
  rw [List.any_eq_true]
  rintro ⟨x, hx, hx'⟩
  obtain ⟨k, hk, hkx⟩ := List.getElem_of_mem (List.mem_of_mem_take hx)
  obtain ⟨s, hs⟩ := h k hk
  rw [List.getElem?_eq_getElem hk, hkx] at hs
  simp only [Option.some.injEq] at hs
  rw [hs] at hx'
  simp at hx'

theorem rotationSyms_ok (qs : QSort) (big : ℝ) (L : SCurve) (axis : V3) (n : Nat) (Ms : Nat → Mat) (S : Nat → Sym)
    (hM : ∀ k, 0 < k → k < n → rotationMatrix axis ((k : ℝ) * (2 * Real.pi / (n : ℝ))) = .ok (Ms k))
    (hS : ∀ k, 0 < k → k < n → buildSymmetry qs big (Ms k) L = .ok (some (S k))) :
    ∀ k i, 0 < i → i + k = n → rotationSyms qs big L axis n k i = .ok ((List.range k).map fun j => some (S (i + j))) := by
  intro k
  induction k with
  | zero => intro i _ _; rfl
  | succ k ih =>
    intro i hi hik
    unfold rotationSyms
    rw [hM i hi (by omega), ok_bind, hS i hi (by omega), ok_bind, ih (i + 1) (by omega) (by omega), ok_bind, List.range_succ_eq_map]
    simp only [List.map_cons, List.map_map, Nat.add_zero]
    congr 2
    apply List.map_congr_left
    intro j _
    simp only [Function.comp_apply]
    congr 2
    omega

end Plc.Symmetry
