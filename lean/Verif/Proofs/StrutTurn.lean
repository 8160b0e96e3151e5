import Verif.Proofs.StrutGeom

/-! # The struts of a curve: the largest turning angle -/

namespace Plc.Struts

open Plc.Core Plc.FindCrossings Plc.RandomPolygon Plc.Equilateral Plc.Motions Plc.Measure Plc.Poca

/-- The angle of two vectors. -/
noncomputable def angleOf (a b : V3) : ℝ := Real.arccos (a.dot b / Real.sqrt (a.dot a * b.dot b))

theorem norms (a b : V3) : apart a ⟨0, 0, 0⟩ * apart b ⟨0, 0, 0⟩ = Real.sqrt (a.dot a * b.dot b) := by
  rw [Real.sqrt_mul (dot_self_nonneg a)]
  unfold apart
  congr 1 <;> congr 1 <;> unfold distSq V3.dot <;> ring

theorem cauchy (a b : V3) : |a.dot b| ≤ Real.sqrt (a.dot a * b.dot b) := by
  apply Real.abs_le_sqrt
  have := denom_eq a b
  nlinarith [sq_nonneg (apart (crossOf a b) ⟨0, 0, 0⟩)]

theorem angleOf_is {a b : V3} (ha : 0 < a.dot a) (hb : 0 < b.dot b) : IsAngle a b (angleOf a b) := by
  have hp : 0 < Real.sqrt (a.dot a * b.dot b) := Real.sqrt_pos.mpr (mul_pos ha hb)
  have hc := abs_le.mp (cauchy a b)
  refine ⟨Real.arccos_nonneg _, Real.arccos_le_pi _, ?_⟩
  unfold angleOf
  rw [norms, Real.cos_arccos]
  · rw [mul_div_cancel₀ _ hp.ne']; rfl
  · rw [le_div_iff₀ hp]; linarith [hc.1]
  · rw [div_le_iff₀ hp]; linarith [hc.2]

theorem angle_unique {a b : V3} {t : ℝ} (ha : 0 < a.dot a) (hb : 0 < b.dot b) (h : IsAngle a b t) : t = angleOf a b := by
  have hp : 0 < Real.sqrt (a.dot a * b.dot b) := Real.sqrt_pos.mpr (mul_pos ha hb)
  have h' := angleOf_is ha hb
  have e := h.cosine.symm.trans h'.cosine
  rw [norms] at e
  exact Real.injOn_cos ⟨h.nonneg, h.le_pi⟩ ⟨h'.nonneg, h'.le_pi⟩ (mul_left_cancel₀ hp.ne' e)

theorem angleOf_neg (a b : V3) (a' b' : V3) (ha : a'.x = -a.x ∧ a'.y = -a.y ∧ a'.z = -a.z) (hb : b'.x = -b.x ∧ b'.y = -b.y ∧ b'.z = -b.z) :
    angleOf a' b' = angleOf a b := by
  obtain ⟨a1, a2, a3⟩ := ha
  obtain ⟨b1, b2, b3⟩ := hb
  unfold angleOf V3.dot
  rw [a1, a2, a3, b1, b2, b3]
  congr 2 <;> ring_nf

theorem angleOf_comm (a b : V3) : angleOf a b = angleOf b a := by
  unfold angleOf
  rw [dot_comm a b, mul_comm]

theorem turnMax_eq {a b : V3} (ha : 0 < a.dot a) (hb : 0 < b.dot b) (mx : ℝ) : turnMax a b mx = max mx (angleOf a b) := by
  have hp : 0 < Real.sqrt (a.dot a * b.dot b) := Real.sqrt_pos.mpr (mul_pos ha hb)
  unfold turnMax
  rw [if_neg hp.ne']
  simp only
  split
  · rename_i h; exact (max_eq_right h.le).symm
  · rename_i h; exact (max_eq_left (not_lt.mp h)).symm

/-- The largest of a number and the turning angles in a set. -/
def IsMax (P : ℝ → Prop) (m0 m : ℝ) : Prop := m0 ≤ m ∧ (∀ t, P t → t ≤ m) ∧ (m = m0 ∨ P m)

theorem IsMax.trans {P Q R : ℝ → Prop} {a b c : ℝ} (h1 : IsMax P a b) (h2 : IsMax Q b c) (hR : ∀ t, R t ↔ P t ∨ Q t) : IsMax R a c := by
  obtain ⟨p1, p2, p3⟩ := h1
  obtain ⟨q1, q2, q3⟩ := h2
  refine ⟨le_trans p1 q1, ?_, ?_⟩
  · intro t ht
    rcases (hR t).mp ht with h | h
    · exact le_trans (p2 t h) q1
    · exact q2 t h
  · rcases q3 with h | h
    · rcases p3 with h' | h'
      · exact .inl (h.trans h')
      · right; rw [h]; exact (hR b).mpr (.inl h')
    · exact .inr ((hR c).mpr (.inr h))

theorem isMax_one {a b : V3} (ha : 0 < a.dot a) (hb : 0 < b.dot b) (mx : ℝ) : IsMax (fun t => t = angleOf a b) mx (turnMax a b mx) := by
  rw [turnMax_eq ha hb]
  refine ⟨le_max_left _ _, fun t ht => ht ▸ le_max_right _ _, ?_⟩
  rcases max_choice mx (angleOf a b) with h | h
  · exact .inl h
  · exact .inr h

/-- The turning angle at vertex `j`. -/
def TurnHere (c : Comp) (j : Nat) (t : ℝ) : Prop := ∃ a b d : V3, vtAt c ((j : Int) - 1) = .ok a ∧ vtAt c (j : Int) = .ok b ∧ vtAt c ((j : Int) + 1) = .ok d ∧
  t = angleOf (b.sub a) (d.sub b)

theorem inner {c : Comp} {j : Nat} (h1 : 1 ≤ j) (h2 : j + 1 < c.vt.length) : ∃ a b d, EdgeAt c (j - 1) a b ∧ EdgeAt c j b d ∧ vtAt c ((j : Int) - 1) = .ok a ∧
    vtAt c (j : Int) = .ok b ∧ vtAt c ((j : Int) + 1) = .ok d := by
  have ha : j - 1 < c.vt.length := by omega
  have hb : j < c.vt.length := by omega
  have e1 : EdgeAt c (j - 1) c.vt[j - 1] c.vt[j] := by
    refine ⟨List.getElem?_eq_getElem ha, ?_⟩
    rw [show j - 1 + 1 = j by omega, Nat.mod_eq_of_lt hb, ite_self]
    exact List.getElem?_eq_getElem hb
  have e2 : EdgeAt c j c.vt[j] c.vt[j + 1] := by
    refine ⟨List.getElem?_eq_getElem hb, ?_⟩
    rw [Nat.mod_eq_of_lt h2, ite_self]
    exact List.getElem?_eq_getElem h2
  refine ⟨_, _, _, e1, e2, ?_, vtAt_nat e2.1, vtAt_next e2⟩
  rw [show (j : Int) - 1 = ((j - 1 : Nat) : Int) by omega]
  exact vtAt_nat e1.1

theorem turnLoop_ok {c : Comp} (hne : ∀ (v : Nat) (a b : V3), EdgeAt c v a b → a ≠ b) : ∀ (k j : Nat) (mx : ℝ), 1 ≤ j → j + k + 1 ≤ c.vt.length ∨ k = 0 →
    ∃ m, turnLoop c k j mx = .ok m ∧ IsMax (fun t => ∃ i, j ≤ i ∧ i < j + k ∧ TurnHere c i t) mx m
  | 0, j, mx, _, _ => ⟨mx, rfl, le_refl _, fun t ⟨i, h1, h2, _⟩ => by omega, .inl rfl⟩
  | k + 1, j, mx, h1, h2 => by
    obtain ⟨a, b, d, e1, e2, r1, r2, r3⟩ := inner (c := c) h1 (by omega)
    unfold turnLoop
    rw [r2, ok_bind, r3, ok_bind, r1, ok_bind]
    obtain ⟨m, hm, hmax⟩ := turnLoop_ok hne k (j + 1) (turnMax (b.sub a) (d.sub b) mx) (by omega) (by omega)
    refine ⟨m, hm, (isMax_one (sub_dot_pos (hne _ _ _ e1)) (sub_dot_pos (hne _ _ _ e2)) mx).trans hmax ?_⟩
    intro t
    constructor
    · rintro ⟨i, i1, i2, i3⟩
      rcases Nat.eq_or_lt_of_le i1 with rfl | hlt
      · left
        obtain ⟨a', b', d', q1, q2, q3, q4⟩ := i3
        rw [r1] at q1; rw [r2] at q2; rw [r3] at q3
        cases q1; cases q2; cases q3
        exact q4
      · exact .inr ⟨i, by omega, by omega, i3⟩
    · rintro (h | ⟨i, i1, i2, i3⟩)
      · exact ⟨j, le_refl _, by omega, a, b, d, r1, r2, r3, h⟩
      · exact ⟨i, by omega, by omega, i3⟩

theorem vtAt_edge {c : Comp} {v : Nat} {b d : V3} (h2 : EdgeAt c v b d) (hl : 2 ≤ c.vt.length) {u : Nat} {a : V3} (h1 : EdgeAt c u a b) (hm : (u + 1) % c.vt.length = v) :
    vtAt c ((v : Int) - 1) = .ok a ∧ vtAt c (v : Int) = .ok b ∧ vtAt c ((v : Int) + 1) = .ok d := by
  obtain ⟨p, p1, p2, _⟩ := vtAt_prev h2 hl
  obtain ⟨rfl, _⟩ := p2 u a b h1 hm
  exact ⟨p1, vtAt_nat h2.1, vtAt_next h2⟩

/-- Turning angles, by vertices. -/
theorem turnAt_iff {c : Comp} (hl : 2 ≤ c.vt.length) (hne : ∀ (v : Nat) (a b : V3), EdgeAt c v a b → a ≠ b) (t : ℝ) : TurnAt c t ↔
    ∃ j, (c.isOpen = true → 1 ≤ j ∧ j + 1 < c.vt.length) ∧ j < c.vt.length ∧ TurnHere c j t := by
  constructor
  · rintro ⟨u, v, a, b, d, h1, h2, h3, h4⟩
    obtain ⟨r1, r2, r3⟩ := vtAt_edge h2 hl h1 h3
    refine ⟨v, ?_, h2.lt, a, b, d, r1, r2, r3, angle_unique (sub_dot_pos (hne _ _ _ h1)) (sub_dot_pos (hne _ _ _ h2)) h4⟩
    intro ho
    have := h1.openLt ho
    rw [Nat.mod_eq_of_lt this] at h3
    exact ⟨by omega, h2.openLt ho⟩
  · rintro ⟨j, h1, h2, a, b, d, r1, r2, r3, rfl⟩
    have key : ∃ u d', EdgeAt c j b d' ∧ ∃ a', EdgeAt c u a' b ∧ (u + 1) % c.vt.length = j := by
      have hb : c.vt[j]? = some b := by
        have := vtAt_nat (List.getElem?_eq_getElem h2)
        rw [r2] at this
        cases this
        exact List.getElem?_eq_getElem h2
      by_cases ho : c.isOpen = true
      · obtain ⟨g1, g2⟩ := h1 ho
        obtain ⟨a', b', d', e1, e2, q1, q2, q3⟩ := inner (c := c) g1 g2
        rw [r2] at q2; cases q2
        exact ⟨j - 1, d', e2, a', e1, by rw [show j - 1 + 1 = j by omega, Nat.mod_eq_of_lt h2]⟩
      · have hj : (j + 1) % c.vt.length < c.vt.length := Nat.mod_lt _ (by omega)
        have e2 : EdgeAt c j b c.vt[(j + 1) % c.vt.length] := ⟨hb, by rw [if_neg ho]; exact List.getElem?_eq_getElem hj⟩
        obtain ⟨p, _, _, p3⟩ := vtAt_prev e2 hl
        rcases p3 with ⟨u, g1, g2⟩ | ⟨_, g, _⟩
        · exact ⟨u, _, e2, p, g1, g2⟩
        · exact absurd g ho
    obtain ⟨u, d', e2, a', e1, hm⟩ := key
    obtain ⟨q1, q2, q3⟩ := vtAt_edge e2 hl e1 hm
    rw [r1] at q1; rw [r3] at q3
    cases q1; cases q3
    exact ⟨u, j, a, b, d, e1, e2, hm, angleOf_is (sub_dot_pos (hne _ _ _ e1)) (sub_dot_pos (hne _ _ _ e2))⟩

theorem turnComp_ok {c : Comp} (hl : 2 ≤ c.vt.length) (hp : Proper c) (hne : ∀ (v : Nat) (a b : V3), EdgeAt c v a b → a ≠ b) (mx : ℝ) :
    ∃ m, turnComp c mx = .ok m ∧ IsMax (TurnAt c) mx m := by
  unfold turnComp
  by_cases ho : c.isOpen = true
  · rw [if_pos ho]
    obtain ⟨m, h1, h2⟩ := turnLoop_ok hne (c.vt.length - 2) 1 mx (le_refl _) (by omega)
    refine ⟨m, h1, ?_⟩
    have e : (fun t => ∃ i, 1 ≤ i ∧ i < 1 + (c.vt.length - 2) ∧ TurnHere c i t) = TurnAt c := by
      funext t
      rw [turnAt_iff hl hne]
      refine propext ⟨?_, ?_⟩
      · rintro ⟨i, a, b, h⟩; exact ⟨i, fun _ => ⟨a, by omega⟩, by omega, h⟩
      · rintro ⟨i, a, b, h⟩; obtain ⟨x, y⟩ := a ho; exact ⟨i, x, by omega, h⟩
    rw [← e]; exact h2
  · rw [if_neg ho]
    have h3 : 3 ≤ c.vt.length := hp (by simpa using ho)
    have l0 : 0 < c.vt.length := by omega
    have l1 : 1 < c.vt.length := by omega
    have lz : c.vt.length - 1 < c.vt.length := by omega
    have ly : c.vt.length - 2 < c.vt.length := by omega
    obtain ⟨n, hn⟩ : ∃ n, n = c.vt.length := ⟨_, rfl⟩
    have ea : EdgeAt c 0 c.vt[0] c.vt[1] := ⟨List.getElem?_eq_getElem l0, by
      rw [if_neg ho, Nat.mod_eq_of_lt (by omega)]; exact List.getElem?_eq_getElem l1⟩
    have ez : EdgeAt c (c.vt.length - 1) c.vt[c.vt.length - 1] c.vt[0] := ⟨List.getElem?_eq_getElem lz, by
      rw [if_neg ho, show c.vt.length - 1 + 1 = c.vt.length by omega, Nat.mod_self]; exact List.getElem?_eq_getElem l0⟩
    have ey : EdgeAt c (c.vt.length - 2) c.vt[c.vt.length - 2] c.vt[c.vt.length - 1] := ⟨List.getElem?_eq_getElem ly, by
      rw [if_neg ho, show c.vt.length - 2 + 1 = c.vt.length - 1 by omega, Nat.mod_eq_of_lt lz]; exact List.getElem?_eq_getElem lz⟩
    obtain ⟨A, hA⟩ : ∃ x, x = c.vt[0] := ⟨_, rfl⟩
    obtain ⟨B, hB⟩ : ∃ x, x = c.vt[1] := ⟨_, rfl⟩
    obtain ⟨Z, hZ⟩ : ∃ x, x = c.vt[c.vt.length - 1] := ⟨_, rfl⟩
    obtain ⟨Y, hY⟩ : ∃ x, x = c.vt[c.vt.length - 2] := ⟨_, rfl⟩
    rw [← hA, ← hB] at ea
    rw [← hZ, ← hA] at ez
    rw [← hY, ← hZ] at ey
    have rz : vtAt c ((c.vt.length : Int) - 1) = .ok Z := by
      rw [show (c.vt.length : Int) - 1 = ((c.vt.length - 1 : Nat) : Int) by omega]; exact vtAt_nat ez.1
    have ra : vtAt c 0 = .ok A := vtAt_nat (v := 0) ea.1
    have rb : vtAt c 1 = .ok B := vtAt_next ea
    have ry : vtAt c ((c.vt.length : Int) - 2) = .ok Y := by
      rw [show (c.vt.length : Int) - 2 = ((c.vt.length - 2 : Nat) : Int) by omega]; exact vtAt_nat ey.1
    rw [rz, ok_bind, ra, ok_bind, rb, ok_bind, ry, ok_bind]
    have pos : ∀ {v : Nat} {a b : V3}, EdgeAt c v a b → 0 < (a.sub b).dot (a.sub b) := by
      intro v a b h; exact sub_dot_pos (hne _ _ _ h).symm
    obtain ⟨m, h1, h2⟩ := turnLoop_ok hne (c.vt.length - 2) 1 (turnMax (Y.sub Z) (Z.sub A) (turnMax (A.sub B) (Z.sub A) mx)) (le_refl _) (by omega)
    refine ⟨m, h1, ((isMax_one (pos ea) (pos ez) mx).trans (isMax_one (pos ey) (pos ez) _) (fun t => Iff.rfl)).trans h2 ?_⟩
    intro t
    rw [turnAt_iff hl hne]
    have t0 : TurnHere c 0 t ↔ t = angleOf (A.sub B) (Z.sub A) := by
      obtain ⟨r1, r2, r3⟩ := vtAt_edge ea hl ez (by rw [show c.vt.length - 1 + 1 = c.vt.length by omega, Nat.mod_self])
      have e : angleOf (A.sub B) (Z.sub A) = angleOf (A.sub Z) (B.sub A) := by
        rw [angleOf_comm (A.sub Z)]
        apply angleOf_neg <;> simp [V3.sub]
      rw [e]
      constructor
      · rintro ⟨a', b', d', q1, q2, q3, q4⟩
        rw [r1] at q1; rw [r2] at q2; rw [r3] at q3
        cases q1; cases q2; cases q3; exact q4
      · intro h; exact ⟨Z, A, B, r1, r2, r3, h⟩
    have tz : TurnHere c (c.vt.length - 1) t ↔ t = angleOf (Y.sub Z) (Z.sub A) := by
      obtain ⟨r1, r2, r3⟩ := vtAt_edge ez hl ey (by rw [show c.vt.length - 2 + 1 = c.vt.length - 1 by omega, Nat.mod_eq_of_lt lz])
      have e : angleOf (Y.sub Z) (Z.sub A) = angleOf (Z.sub Y) (A.sub Z) := by
        apply angleOf_neg <;> simp [V3.sub]
      rw [e]
      constructor
      · rintro ⟨a', b', d', q1, q2, q3, q4⟩
        rw [r1] at q1; rw [r2] at q2; rw [r3] at q3
        cases q1; cases q2; cases q3; exact q4
      · intro h; exact ⟨Y, Z, A, r1, r2, r3, h⟩
    constructor
    · rintro ⟨j, _, h2, h3⟩
      by_cases j0 : j = 0
      · subst j0; exact .inl (.inl (t0.mp h3))
      · by_cases jz : j = c.vt.length - 1
        · subst jz; exact .inl (.inr (tz.mp h3))
        · exact .inr ⟨j, by omega, by omega, h3⟩
    · rintro ((h | h) | ⟨j, j1, j2, h⟩)
      · exact ⟨0, fun h => absurd h ho, l0, t0.mpr h⟩
      · exact ⟨c.vt.length - 1, fun h => absurd h ho, lz, tz.mpr h⟩
      · exact ⟨j, fun h => absurd h ho, by omega, h⟩

theorem maxTurn_ok : ∀ (cp : List Comp), Edged cp → ∀ mx, ∃ m, maxTurn cp mx = .ok m ∧ IsMax (fun t => ∃ c ∈ cp, TurnAt c t) mx m
  | [], _, mx => ⟨mx, rfl, le_refl _, fun t ⟨c, h, _⟩ => by simp at h, .inl rfl⟩
  | c :: cs, h, mx => by
    obtain ⟨h1, h2, h3⟩ := h c List.mem_cons_self
    obtain ⟨m, e, hm⟩ := turnComp_ok h1 h2 h3 mx
    obtain ⟨m', e', hm'⟩ := maxTurn_ok cs (fun c hc => h c (List.mem_cons_of_mem _ hc)) m
    unfold maxTurn
    rw [e, ok_bind]
    refine ⟨m', e', hm.trans hm' ?_⟩
    intro t
    simp

end Plc.Struts
