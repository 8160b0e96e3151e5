import Verif.Proofs.Sap

/-! # C78: random self-avoiding polygons -/

namespace Plc

open Plc.Core Plc.FindCrossings Plc.RandomPolygon Plc.Equilateral Plc.Sap

/-- Any two different vertices have at least this square of the distance. -/
def VerticesApart (r : ℝ) (vs : List V3) : Prop :=
  ∀ (i j : Nat) (a b : V3), i ≠ j → vs[i]? = some a → vs[j]? = some b → r ≤ distSq a b

namespace Sap

theorem pairwise_lt {X : List V3} {r : ℝ} (h : X.Pairwise fun a b => r ≤ distSq a b) (i j : Nat) (a b : V3) (hij : i < j) (ha : X[i]? = some a)
    (hb : X[j]? = some b) : r ≤ distSq a b := by
  obtain ⟨hi, rfl⟩ := List.getElem?_eq_some_iff.mp ha
  obtain ⟨hj, rfl⟩ := List.getElem?_eq_some_iff.mp hb
  exact List.pairwise_iff_getElem.mp h i j hi hj hij

theorem good_reverse {Y : List V3} {n : Nat} (hn : 2 ≤ n) (G : Sap.Good Y) (hl : Y.length = n) (x : V3) (hx : Y[0]? = some x)
    (hc : distSq x ⟨0, 0, 0⟩ = 1) : ClosedEdges 1 Y.reverse ∧ VerticesApart (1 - 1e-9) Y.reverse ∧ Y.reverse[0]? = some ⟨0, 0, 0⟩ := by
  have h0 : Y.reverse[0]? = some ⟨0, 0, 0⟩ := by rw [← List.head?_eq_getElem?, List.head?_reverse, G.origin]
  refine ⟨?_, ?_, h0⟩
  · intro i a b ha hb
    rw [List.length_reverse, hl] at hb
    have hi : i < n := by
      have := (List.getElem?_eq_some_iff.mp ha).1
      rwa [List.length_reverse, hl] at this
    have one : ∀ p q : V3, distSq p q = 1 → apart p q = 1 := fun p q h => by unfold apart; rw [h, Real.sqrt_one]
    refine one a b ?_
    rw [List.getElem?_reverse (by omega), hl] at ha
    by_cases e : i = n - 1
    · subst e
      rw [show (n - 1 + 1) % n = 0 by rw [show n - 1 + 1 = n by omega, Nat.mod_self], h0, Option.some.injEq] at hb
      rw [show n - 1 - (n - 1) = 0 by omega, hx, Option.some.injEq] at ha
      subst ha hb
      exact hc
    · rw [Nat.mod_eq_of_lt (by omega), List.getElem?_reverse (by omega), hl] at hb
      rw [distSq_symm]
      refine G.chain (n - 1 - (i + 1)) b a hb ?_
      rw [← ha]; congr 1; omega
  · intro i j a b hij ha hb
    have hi : i < n := by
      have := (List.getElem?_eq_some_iff.mp ha).1
      rwa [List.length_reverse, hl] at this
    have hj : j < n := by
      have := (List.getElem?_eq_some_iff.mp hb).1
      rwa [List.length_reverse, hl] at this
    rw [List.getElem?_reverse (by omega), hl] at ha hb
    rcases Nat.lt_or_ge i j with h | h
    · rw [distSq_symm]
      exact pairwise_lt G.apart _ _ b a (by omega) hb ha
    · exact pairwise_lt G.apart _ _ a b (by omega) ha hb

end Sap

/-- **C78.** A random self-avoiding polygon has the requested number of vertices, edges of length 1, and any two vertices are at distance
1 or more, within the tolerance of the sampler: the square of the distance is at least 1 - 1e-9. -/
theorem C78_sap (u : Nat → ℝ) (hu : ∀ i, 0 ≤ u i ∧ u i ≤ 1) (n : Nat) (vs : List V3) (h : sapPolygon u n = .ok vs) :
    vs.length = n ∧ ClosedEdges 1 vs ∧ VerticesApart (1 - 1e-9) vs ∧ vs[0]? = some ⟨0, 0, 0⟩ := by
  unfold sapPolygon at h
  by_cases h5 : n < 5
  · rw [if_pos h5] at h; simp at h
  rw [if_neg h5] at h
  by_cases h25 : n > 25
  · rw [if_pos h25] at h; simp at h
  rw [if_neg h25] at h
  rcases trials_ok u hu n (by omega) 49999999 0 with e | ⟨Y, e, e1, e2, x, e3, e4⟩
  · rw [e] at h; simp at h
  · rw [e] at h
    cases h
    obtain ⟨q1, q2, q3⟩ := good_reverse (by omega) e1 e2 x e3 e4
    exact ⟨by rw [List.length_reverse, e2], q1, q2, q3⟩

/-- There is always an orderly end: a polygon, or an assertion, after 50000000 trials or for a wrong number of edges. -/
theorem C78_outcome (u : Nat → ℝ) (hu : ∀ i, 0 ≤ u i ∧ u i ≤ 1) (n : Nat) : (∃ vs, sapPolygon u n = .ok vs) ∨ sapPolygon u n = .error .die := by
  unfold sapPolygon
  by_cases h5 : n < 5
  · exact .inr (if_pos h5)
  rw [if_neg h5]
  by_cases h25 : n > 25
  · exact .inr (if_pos h25)
  rw [if_neg h25]
  rcases trials_ok u hu n (by omega) 49999999 0 with e | ⟨Y, e, -⟩
  · exact .inr e
  · exact .inl ⟨_, e⟩

/-- The header promises 5 to 30 edges, but from 26 on the call ends the program. -/
theorem C78_range (u : Nat → ℝ) (n : Nat) (h : 26 ≤ n) : sapPolygon u n = .error .die := by
  unfold sapPolygon
  rw [if_neg (by omega), if_pos (by omega)]

/-- `plc_is_sap` says yes to every curve, even if all its vertices are the same point. -/
theorem C78_is_sap_blind (L : List (List V3)) : isSap L = true := by
  unfold isSap isSapInternal
  rw [Bool.not_eq_true', List.any_eq_false]
  intro i _
  rw [Bool.not_eq_true, List.any_eq_false]
  intro j _
  rw [Bool.not_eq_true]
  have h1 : ∀ vs, failsIn false vs = false := by
    intro vs
    unfold failsIn
    rw [List.any_eq_false]
    intro i _
    rw [Bool.not_eq_true, List.any_eq_false]
    intro j _
    rw [Bool.not_eq_true]
    split
    · simp [failsSame]
    · rfl
  have h2 : ∀ vs ws, failsBetween false vs ws = false := by
    intro vs ws
    simp [failsBetween]
  split
  · split
    · exact h1 _
    · exact h2 _ _
  · rfl

/-- With messages the check is right for a curve of one component. -/
theorem C78_check_one (vs : List V3) : isSapInternal true [vs] = true ↔ VerticesApart (1 - 1e-10) vs := by
  have e : isSapInternal true [vs] = !(failsIn true vs) := by
    simp [isSapInternal, List.range_succ]
  rw [e, Bool.not_eq_true']
  unfold failsIn
  rw [List.any_eq_false]
  constructor
  · intro h
    have key : ∀ (i j : Nat) (a b : V3), j < i → vs[i]? = some a → vs[j]? = some b → 1 - 1e-10 ≤ distSq a b := by
      intro i j a b hij ha hb
      have hi := (List.getElem?_eq_some_iff.mp ha).1
      have := h i (List.mem_range.mpr hi)
      rw [Bool.not_eq_true, List.any_eq_false] at this
      have := this j (List.mem_range.mpr hij)
      rw [ha, hb] at this
      simp only [failsSame, Bool.and_true, decide_eq_true_eq, not_lt, sqDist_eq] at this
      exact this
    intro i j a b hij ha hb
    rcases Nat.lt_or_ge j i with h' | h'
    · exact key i j a b h' ha hb
    · rw [distSq_symm]
      exact key j i b a (by omega) hb ha
  · intro h i hi
    rw [Bool.not_eq_true, List.any_eq_false]
    intro j hj
    split
    · rename_i a b ha hb
      simp only [failsSame, Bool.and_true, decide_eq_true_eq, not_lt, sqDist_eq]
      exact h i j a b (by have := List.mem_range.mp hj; omega) ha hb
    · simp

/-- With messages it says no to every curve with two components which are not empty, however far apart. -/
theorem C78_check_two (v w : V3) (vs ws : List V3) : isSapInternal true [v :: vs, w :: ws] = false := by
  simp [isSapInternal, List.range_succ, failsBetween]

namespace Sap

/-- A round in the plane. -/
theorem round_flat (u : Nat → ℝ) (k : Nat) (X : List V3) (a b p q c s : ℝ) (pos : Nat) (ha : 0 < a) (hb : 0 < b) (hab : 1 ≤ b + a)
    (hpq : p ^ 2 + q ^ 2 = 1) (h1 : a + 2 * (u pos - 0.5) = b) (h2 : u (pos + 1) = 0) (hc : 2 * b * a * c = b * b + a * a - 1) (hs : 0 ≤ s)
    (hcs : s ^ 2 + c ^ 2 = 1) (hn : ∀ y ∈ X, 1 ≤ sqDist ⟨b * (c * p - s * q), b * (c * q + s * p), 0⟩ y) :
    trialLoop u (k + 1) X ⟨a * p, a * q, 0⟩ ⟨0, 0, 1⟩ a pos =
      trialLoop u k (⟨b * (c * p - s * q), b * (c * q + s * p), 0⟩ :: X) ⟨b * (c * p - s * q), b * (c * q + s * p), 0⟩ ⟨0, 0, 1⟩ b (pos + 2) := by
  rw [trialLoop]
  simp only
  rw [h1, if_neg (by rw [not_or, not_lt, not_le]; exact ⟨hab, hb⟩)]
  rw [frameAt_of ha (by simp [V3.dot]) (by simp only [V3.dot]; linear_combination a ^ 2 * hpq) (by simp [V3.dot]), ok_bind]
  simp only
  have hdiv : (b * b + a * a - 1) / (2 * b * a) = c := by rw [← hc]; field_simp
  have hsq : Real.sqrt (1 - c * c) = s := by
    rw [show 1 - c * c = s ^ 2 by linear_combination -hcs, Real.sqrt_sq hs]
  rw [divC, if_neg (by positivity), ok_bind, hdiv, sqrtC, if_neg (not_lt.mpr (by nlinarith [sq_nonneg s])), ok_bind, hsq, h2, mul_zero, Real.cos_zero,
    Real.sin_zero]
  have e1 : V3.scale b (lincomb c (V3.scale (1 / a) ⟨a * p, a * q, 0⟩) s ((⟨0, 0, 1⟩ : V3).crossProd (V3.scale (1 / a) ⟨a * p, a * q, 0⟩))) =
      ⟨b * (c * p - s * q), b * (c * q + s * p), 0⟩ := by
    refine V3.ext' ?_ ?_ ?_ <;> simp only [V3.scale, lincomb, add, V3.crossProd]
    · field_simp; ring
    · field_simp; ring
    · ring
  have e2 : ∀ A : V3, lincomb 1 (⟨0, 0, 1⟩ : V3) 0 A = ⟨0, 0, 1⟩ := by
    intro A
    refine V3.ext' ?_ ?_ ?_ <;> simp [V3.scale, lincomb, add]
  rw [e1, e2]
  have hnear : near ⟨b * (c * p - s * q), b * (c * q + s * p), 0⟩ X = false := by
    unfold near
    rw [List.any_eq_false]
    intro y hy
    rw [decide_eq_true_eq, not_lt]
    have := hn y hy
    have h9 : (0 : ℝ) < 1e-9 := by norm_num
    linarith
  rw [hnear]
  simp

/-- The random numbers of the regular hexagon. -/
noncomputable def hexU : Nat → ℝ
  | 0 => Real.sqrt 3 / 2
  | 2 => (3 - Real.sqrt 3) / 2
  | 4 => (Real.sqrt 3 - 1) / 2
  | _ => 0

end Sap

/-- The hypotheses are met: these random numbers give the regular hexagon. -/
theorem C78_hexagon : (∀ i, 0 ≤ hexU i ∧ hexU i ≤ 1) ∧ sapPolygon hexU 6 = .ok [⟨0, 0, 0⟩, ⟨1, 0, 0⟩, ⟨3 / 2, Real.sqrt 3 / 2, 0⟩,
    ⟨1, Real.sqrt 3, 0⟩, ⟨0, Real.sqrt 3, 0⟩, ⟨-1 / 2, Real.sqrt 3 / 2, 0⟩] := by
  obtain ⟨r, hr⟩ : ∃ r, r = Real.sqrt 3 := ⟨_, rfl⟩
  have hr2 : r * r = 3 := by rw [hr]; exact Real.mul_self_sqrt (by norm_num)
  have hr0 : 0 ≤ r := by rw [hr]; exact Real.sqrt_nonneg _
  have hr1 : 1 < r := by nlinarith
  have hr3 : r < 2 := by nlinarith
  have u0 : hexU 0 = r / 2 := by rw [hr]; rfl
  have u1 : hexU 1 = 0 := rfl
  have u2 : hexU 2 = (3 - r) / 2 := by rw [hr]; rfl
  have u3 : hexU 3 = 0 := rfl
  have u4 : hexU 4 = (r - 1) / 2 := by rw [hr]; rfl
  have u5 : hexU 5 = 0 := rfl
  constructor
  · intro i
    match i with
    | 0 => rw [u0]; constructor <;> linarith
    | 1 => rw [u1]; norm_num
    | 2 => rw [u2]; constructor <;> linarith
    | 3 => rw [u3]; norm_num
    | 4 => rw [u4]; constructor <;> linarith
    | i + 5 => show 0 ≤ (0 : ℝ) ∧ (0 : ℝ) ≤ 1; norm_num
  · rw [← hr]
    have t : trial hexU 6 0 = .ok (some [⟨-1 / 2, r / 2, 0⟩, ⟨0, r, 0⟩, ⟨1, r, 0⟩, ⟨3 / 2, r / 2, 0⟩, ⟨1, 0, 0⟩, ⟨0, 0, 0⟩], 6) := by
      unfold trial
      have s1 := round_flat hexU 2 [⟨1, 0, 0⟩, ⟨0, 0, 0⟩] 1 r 1 0 (r / 2) (1 / 2) 0 (by norm_num) (by linarith) (by linarith) (by norm_num)
        (by rw [u0]; norm_num; ring) u1 (by linear_combination 0) (by norm_num) (by linear_combination hr2 / 4) (by
          intro y hy
          simp only [List.mem_cons, List.not_mem_nil, or_false] at hy
          rcases hy with rfl | rfl <;> simp only [sqDist] <;> nlinarith)
      rw [show (⟨1 * 1, 1 * 0, 0⟩ : V3) = ⟨1, 0, 0⟩ by norm_num] at s1
      rw [show (⟨r * (r / 2 * 1 - 1 / 2 * 0), r * (r / 2 * 0 + 1 / 2 * 1), 0⟩ : V3) = ⟨3 / 2, r / 2, 0⟩ by
        rw [V3.mk.injEq]; exact ⟨by linear_combination hr2 / 2, by ring, rfl⟩] at s1
      rw [show 6 - 3 = 2 + 1 from rfl, s1]
      have s2 := round_flat hexU 1 [⟨3 / 2, r / 2, 0⟩, ⟨1, 0, 0⟩, ⟨0, 0, 0⟩] r 2 (r / 2) (1 / 2) (r / 2) (1 / 2) 2 (by linarith) (by norm_num) (by linarith)
        (by linear_combination hr2 / 4)
        (by rw [u2]; norm_num; ring) u3 (by linear_combination hr2) (by norm_num) (by linear_combination hr2 / 4) (by
          intro y hy
          simp only [List.mem_cons, List.not_mem_nil, or_false] at hy
          rcases hy with rfl | rfl | rfl <;> simp only [sqDist] <;> nlinarith)
      rw [show (⟨r * (r / 2), r * (1 / 2), 0⟩ : V3) = ⟨3 / 2, r / 2, 0⟩ by
        rw [V3.mk.injEq]; exact ⟨by linear_combination hr2 / 2, by ring, rfl⟩] at s2
      rw [show (⟨2 * (r / 2 * (r / 2) - 1 / 2 * (1 / 2)), 2 * (r / 2 * (1 / 2) + 1 / 2 * (r / 2)), 0⟩ : V3) = ⟨1, r, 0⟩ by
        rw [V3.mk.injEq]; exact ⟨by linear_combination hr2 / 2, by ring, rfl⟩] at s2
      rw [s2]
      have s3 := round_flat hexU 0 [⟨1, r, 0⟩, ⟨3 / 2, r / 2, 0⟩, ⟨1, 0, 0⟩, ⟨0, 0, 0⟩] 2 r (1 / 2) (r / 2) (r / 2) (1 / 2) 4 (by norm_num) (by linarith)
        (by linarith) (by linear_combination hr2 / 4)
        (by rw [u4]; norm_num; ring) u5 (by linear_combination hr2) (by norm_num) (by linear_combination hr2 / 4) (by
          intro y hy
          rw [show (⟨r * (r / 2 * (1 / 2) - 1 / 2 * (r / 2)), r * (r / 2 * (r / 2) + 1 / 2 * (1 / 2)), 0⟩ : V3) = ⟨0, r, 0⟩ by
            rw [V3.mk.injEq]; exact ⟨by ring, by linear_combination r * hr2 / 4, rfl⟩]
          simp only [List.mem_cons, List.not_mem_nil, or_false] at hy
          rcases hy with rfl | rfl | rfl | rfl <;> simp only [sqDist] <;> nlinarith)
      rw [show (⟨2 * (1 / 2), 2 * (r / 2), 0⟩ : V3) = ⟨1, r, 0⟩ by
        rw [V3.mk.injEq]; exact ⟨by ring, by ring, rfl⟩] at s3
      rw [show (⟨r * (r / 2 * (1 / 2) - 1 / 2 * (r / 2)), r * (r / 2 * (r / 2) + 1 / 2 * (1 / 2)), 0⟩ : V3) = ⟨0, r, 0⟩ by
        rw [V3.mk.injEq]; exact ⟨by ring, by linear_combination r * hr2 / 4, rfl⟩] at s3
      rw [s3, trialLoop]
      unfold lastVertex
      rw [if_neg (by rw [not_or]; constructor <;> linarith), frameAt_of (a := r) (by linarith) (by simp [V3.dot]) (by simp [V3.dot, sq]) (by simp [V3.dot]),
        ok_bind]
      simp only
      have hsq : Real.sqrt (1 - r / 2 * (r / 2)) = 1 / 2 := by
        rw [show 1 - r / 2 * (r / 2) = (1 / 2) ^ 2 by linear_combination -hr2 / 4, Real.sqrt_sq (by norm_num)]
      rw [sqrtC, if_neg (not_lt.mpr (by nlinarith)), ok_bind, hsq]
      have hx : lincomb (r / 2) (V3.scale (1 / r) ⟨0, r, 0⟩) (1 / 2) ((⟨0, 0, 1⟩ : V3).crossProd (V3.scale (1 / r) ⟨0, r, 0⟩)) = ⟨-1 / 2, r / 2, 0⟩ := by
        have hrne : r ≠ 0 := by linarith
        refine V3.ext' ?_ ?_ ?_ <;> simp only [V3.scale, lincomb, add, V3.crossProd]
        · field_simp; ring
        · field_simp; ring
        · ring
      rw [hx]
      have hn : near ⟨-1 / 2, r / 2, 0⟩ [⟨0, r, 0⟩, ⟨1, r, 0⟩, ⟨3 / 2, r / 2, 0⟩, ⟨1, 0, 0⟩, ⟨0, 0, 0⟩] = false := by
        unfold near
        rw [List.any_eq_false]
        intro y hy
        have h9 : (0 : ℝ) < 1e-9 := by norm_num
        simp only [List.mem_cons, List.not_mem_nil, or_false] at hy
        rw [decide_eq_true_eq, not_lt]
        rcases hy with rfl | rfl | rfl | rfl | rfl <;> simp only [sqDist] <;> nlinarith
      rw [hn]
      rfl
    unfold sapPolygon
    rw [if_neg (by norm_num), if_neg (by norm_num), trials, t, ok_bind]
    rfl

end Plc
