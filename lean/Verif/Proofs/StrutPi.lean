import Verif.Proofs.StrutTurn
import Mathlib.Geometry.Euclidean.Angle.Unoriented.TriangleInequality

/-! # Edges between which the curve turns by less than half a circle have no strut -/

namespace Plc.Struts

open Plc.Core Plc.FindCrossings Plc.RandomPolygon Plc.Equilateral Plc.Motions Plc.Measure Plc.Poca

/-- The vector in Euclidean space. -/
noncomputable def toE (a : V3) : EuclideanSpace ℝ (Fin 3) := !₂[a.x, a.y, a.z]

theorem inner_toE (a b : V3) : Inner.inner ℝ (toE a) (toE b) = a.dot b := by
  simp [toE, PiLp.inner_apply, Fin.sum_univ_three, V3.dot]
  ring

theorem norm_toE (a : V3) : ‖toE a‖ = Real.sqrt (a.dot a) := by
  rw [norm_eq_sqrt_real_inner, inner_toE]

theorem angle_toE (a b : V3) : angleOf a b = InnerProductGeometry.angle (toE a) (toE b) := by
  unfold angleOf InnerProductGeometry.angle
  rw [inner_toE, norm_toE, norm_toE, Real.sqrt_mul (dot_self_nonneg a)]

theorem angle_triangle (a b c : V3) : angleOf a c ≤ angleOf a b + angleOf b c := by
  rw [angle_toE, angle_toE, angle_toE]
  exact InnerProductGeometry.angle_le_angle_add_angle _ _ _

theorem angle_self {a : V3} (ha : 0 < a.dot a) : angleOf a a = 0 := by
  unfold angleOf
  rw [Real.sqrt_mul_self ha.le, div_self ha.ne', Real.arccos_one]

/-- Turning by at most `m` each time. -/
theorem angle_steps {T : Nat → V3} {D : Nat} {m : ℝ} (hT : ∀ i, i ≤ D → 0 < (T i).dot (T i)) (hm : ∀ i, i < D → angleOf (T i) (T (i + 1)) ≤ m) {i : Nat} :
    ∀ k, i + k ≤ D → angleOf (T i) (T (i + k)) ≤ k * m
  | 0, h => by simp [angle_self (hT i (by omega))]
  | k + 1, h => by
    have h1 := angle_steps hT hm (i := i) k (by omega)
    have h2 := hm (i + k) (by omega)
    have h3 := angle_triangle (T i) (T (i + k)) (T (i + (k + 1)))
    rw [show i + (k + 1) = i + k + 1 by omega] at *
    push_cast
    linarith

theorem cos_add_pos {a b : ℝ} (a0 : 0 ≤ a) (b0 : 0 ≤ b) (hb : b ≤ Real.pi) (h : a + b < Real.pi) : 0 < Real.cos a + Real.cos b := by
  have := Real.cos_lt_cos_of_nonneg_of_le_pi a0 (by linarith : Real.pi - b ≤ Real.pi) (by linarith)
  rw [Real.cos_pi_sub] at this
  linarith

theorem dot_cos {a b : V3} (ha : 0 < a.dot a) (hb : 0 < b.dot b) : a.dot b / Real.sqrt (a.dot a) = Real.sqrt (b.dot b) * Real.cos (angleOf a b) := by
  have h := (angleOf_is ha hb).cosine
  rw [norms, Real.sqrt_mul ha.le] at h
  have ha' := Real.sqrt_pos.mpr ha
  rw [div_eq_iff ha'.ne']
  have : dotOf a b = a.dot b := rfl
  rw [← this, h]; ring

/-- The sum of the components along the first and the last direction. -/
noncomputable def both (a b x : V3) : ℝ := a.dot x / Real.sqrt (a.dot a) + b.dot x / Real.sqrt (b.dot b)

theorem both_pos {T : Nat → V3} {D : Nat} {m : ℝ} (hT : ∀ i, i ≤ D → 0 < (T i).dot (T i)) (hm : ∀ i, i < D → angleOf (T i) (T (i + 1)) ≤ m)
    (hD : D * m < Real.pi) {i : Nat} (hi : i ≤ D) : 0 < both (T 0) (T D) (T i) := by
  unfold both
  rw [dot_cos (hT 0 (by omega)) (hT i hi), dot_cos (hT D (le_refl _)) (hT i hi), ← mul_add]
  have h1 := angle_steps hT hm (i := 0) i (by omega)
  have h2 := angle_steps hT hm (i := i) (D - i) (by omega)
  rw [Nat.zero_add] at h1
  rw [show i + (D - i) = D by omega, angleOf_comm] at h2
  refine mul_pos (Real.sqrt_pos.mpr (hT i hi)) (cos_add_pos (Real.arccos_nonneg _) (Real.arccos_nonneg _) (Real.arccos_le_pi _) ?_)
  have : ((D - i : Nat) : ℝ) = (D : ℝ) - i := by push_cast [hi]; ring
  rw [this] at h2
  linarith

theorem both_sub (a b x y : V3) : both a b (y.sub x) = both a b y - both a b x := by
  unfold both V3.dot V3.sub
  ring

theorem both_along (a b x y : V3) (t : ℝ) : both a b (along x y t) = both a b x + t * (both a b y - both a b x) := by
  unfold both V3.dot along
  ring

/-- A polygon turning by less than half a circle has no two points as near to each other as can be. -/
theorem no_strut_arc {P : Nat → V3} {D : Nat} {m s t : ℝ} (hT : ∀ i, i ≤ D → 0 < ((P (i + 1)).sub (P i)).dot ((P (i + 1)).sub (P i)))
    (hm : ∀ i, i < D → angleOf ((P (i + 1)).sub (P i)) ((P (i + 1 + 1)).sub (P (i + 1))) ≤ m) (hD : D * m < Real.pi) (s1 : s < 1) (t0 : 0 < t)
    (ht : D = 0 → t = 1) {p q : V3} (hp : p = along (P 0) (P 1) s) (hq : q = along (P D) (P (D + 1)) t)
    (h1 : ((P 1).sub (P 0)).dot (q.sub p) ≤ 0) (h2 : ((P (D + 1)).sub (P D)).dot (q.sub p) ≤ 0) : False := by
  have pos := fun i hi => both_pos (T := fun i => (P (i + 1)).sub (P i)) hT hm hD (i := i) hi
  rw [Nat.zero_add] at pos
  obtain ⟨a, ea⟩ : ∃ a, a = (P 1).sub (P 0) := ⟨_, rfl⟩
  obtain ⟨b, eb⟩ : ∃ b, b = (P (D + 1)).sub (P D) := ⟨_, rfl⟩
  rw [← ea, ← eb] at pos
  rw [← ea] at h1
  rw [← eb] at h2
  have step : ∀ i, i ≤ D → both a b (P i) < both a b (P (i + 1)) := by
    intro i hi
    have := pos i hi
    rw [both_sub] at this
    linarith
  have mono : ∀ i, i ≤ D → both a b (P 1) ≤ both a b (P (i + 1)) := by
    intro i
    induction i with
    | zero => intro _; exact le_refl _
    | succ i ih =>
      intro hi
      have := ih (by omega)
      have := step (i + 1) hi
      linarith
  have le : both a b (q.sub p) ≤ 0 := by
    unfold both
    have := div_nonpos_of_nonpos_of_nonneg h1 (Real.sqrt_nonneg (a.dot a))
    have := div_nonpos_of_nonpos_of_nonneg h2 (Real.sqrt_nonneg (b.dot b))
    linarith
  rw [both_sub, hp, hq, both_along, both_along] at le
  have s0 := step 0 (by omega)
  rw [Nat.zero_add] at s0
  have sD := step D (le_refl _)
  rcases Nat.eq_zero_or_pos D with hz | hz
  · rw [ht hz, hz] at le
    rw [Nat.zero_add] at le
    nlinarith
  · have := mono (D - 1) (by omega)
    rw [show D - 1 + 1 = D by omega] at this
    nlinarith

/-- The vertices from `u` on, around the component. -/
def vertAt (c : Comp) (u i : Nat) : V3 := c.vt.getD ((u + i) % c.vt.length) ⟨0, 0, 0⟩

theorem edge_vertAt {c : Comp} {u i : Nat} (hn : 0 < c.vt.length) (ho : c.isOpen = true → u + i + 1 < c.vt.length) :
    EdgeAt c ((u + i) % c.vt.length) (vertAt c u i) (vertAt c u (i + 1)) := by
  have h1 : (u + i) % c.vt.length < c.vt.length := Nat.mod_lt _ hn
  have h2 : (u + (i + 1)) % c.vt.length < c.vt.length := Nat.mod_lt _ hn
  have e1 : c.vt[(u + i) % c.vt.length]? = some (vertAt c u i) := by
    unfold vertAt; rw [List.getD_eq_getElem?_getD, List.getElem?_eq_getElem h1]; rfl
  have e2 : c.vt[(u + (i + 1)) % c.vt.length]? = some (vertAt c u (i + 1)) := by
    unfold vertAt; rw [List.getD_eq_getElem?_getD, List.getElem?_eq_getElem h2]; rfl
  refine ⟨e1, ?_⟩
  rw [← e2]
  congr 1
  split
  · rename_i h
    have := ho h
    rw [Nat.mod_eq_of_lt (by omega), Nat.mod_eq_of_lt (by omega)]; omega
  · rw [Nat.mod_add_mod]; congr 1

/-- No strut from edge `u` to the edge `d` edges further on, if the curve turns by less than half a circle. -/
theorem no_strut {c : Comp} {u d : Nat} {m s t : ℝ} {a b a' b' : V3} (hE : ∀ (v : Nat) (a b : V3), EdgeAt c v a b → a ≠ b) (hu : u < c.vt.length) (hd : 0 < d)
    (ho : c.isOpen = true → u + d + 1 < c.vt.length) (ht : ∀ th, TurnAt c th → th ≤ m) (hm : d * m < Real.pi) (he : EdgeAt c u a b)
    (he' : EdgeAt c ((u + d) % c.vt.length) a' b') (s1 : EndAt c u s) (t1 : EndAt c ((u + d) % c.vt.length) t)
    (n1 : NearestThere c u a b s (along a' b' t)) (n2 : NearestThere c ((u + d) % c.vt.length) a' b' t (along a b s)) : False := by
  have hn : 0 < c.vt.length := by omega
  have edge : ∀ i, i ≤ d → EdgeAt c ((u + i) % c.vt.length) (vertAt c u i) (vertAt c u (i + 1)) :=
    fun i hi => edge_vertAt hn (fun h => by have := ho h; omega)
  obtain ⟨P, eP⟩ : ∃ P, P = vertAt c u := ⟨_, rfl⟩
  rw [← eP] at edge
  have E0 := edge 0 (by omega)
  rw [Nat.add_zero, Nat.mod_eq_of_lt hu, Nat.zero_add] at E0
  obtain ⟨rfl, rfl⟩ := he.same E0
  obtain ⟨rfl, rfl⟩ := he'.same (edge d (le_refl _))
  have pos : ∀ i, i ≤ d → 0 < ((P (i + 1)).sub (P i)).dot ((P (i + 1)).sub (P i)) := fun i hi => sub_dot_pos (hE _ _ _ (edge i hi))
  have turn : ∀ i, i < d → angleOf ((P (i + 1)).sub (P i)) ((P (i + 1 + 1)).sub (P (i + 1))) ≤ m := by
    intro i hi
    refine ht _ ⟨_, _, _, _, _, edge i (by omega), edge (i + 1) (by omega), ?_, angleOf_is (pos i (by omega)) (pos (i + 1) (by omega))⟩
    rw [Nat.mod_add_mod]; congr 1
  have s1' : s < 1 := by
    rcases s1.2 with h | ⟨_, h, h'⟩
    · exact h
    · have := ho h; omega
  have tle : t ≤ 1 := by
    rcases t1.2 with h | ⟨h, _⟩ <;> linarith
  have k1 := ((nearestOn_iff (hE _ _ _ E0) s1.1 s1'.le).mp n1.1).1 s1'.ne
  rcases t1.1.lt_or_eq with t0 | t0
  · have k2 := ((nearestOn_iff (hE _ _ _ (edge d (le_refl _))) t1.1 tle).mp n2.1).2 t0.ne'
    refine no_strut_arc (P := P) (D := d) pos turn hm s1' t0 (fun h => by omega) rfl rfl k1 ?_
    have : ∀ v x y : V3, v.dot (x.sub y) = -(v.dot (y.sub x)) := by intro v x y; unfold V3.dot V3.sub; ring
    rw [this]; linarith
  · obtain ⟨D, rfl⟩ : ∃ D, d = D + 1 := ⟨d - 1, by omega⟩
    have eD := edge D (by omega)
    have k2 := n2.2 t0.symm _ _ _ eD (by rw [Nat.mod_add_mod]; congr 1)
    rw [← t0, along_zero] at k2
    have k3 := ((nearestOn_iff (y := along (P 0) (P 1) s) (s := 1) (hE _ _ _ eD) zero_le_one (le_refl _)).mp (by rw [along_one]; exact k2)).2 one_ne_zero
    have h0 : (D : ℝ) * m < Real.pi := by
      push_cast at hm
      rcases le_total 0 m with h | h
      · linarith
      · have : (D : ℝ) * m ≤ 0 := mul_nonpos_of_nonneg_of_nonpos (Nat.cast_nonneg _) h
        linarith [Real.pi_pos]
    rw [← t0, along_zero] at k1
    refine no_strut_arc (P := P) (D := D) (t := 1) (fun i hi => pos i (by omega)) (fun i hi => turn i (by omega)) h0 s1' one_pos (fun _ => rfl) rfl rfl ?_ ?_
    · rw [along_one]; exact k1
    · have : ∀ v x y : V3, v.dot (x.sub y) = -(v.dot (y.sub x)) := by intro v x y; unfold V3.dot V3.sub; ring
      rw [this]; linarith

end Plc.Struts
