import Verif.Model.Sap
import Verif.Proofs.Equilateral

/-! # Lemmas about self-avoiding polygons -/

namespace Plc.Sap

open Plc.Core Plc.FindCrossings Plc.RandomPolygon Plc.Equilateral

theorem sqDist_eq (a b : V3) : sqDist a b = distSq a b := by unfold sqDist distSq; ring

theorem distSq_symm (a b : V3) : distSq a b = distSq b a := by unfold distSq; ring

/-- The vertices of a trial so far, the last one first. -/
structure Good (X : List V3) : Prop where
  chain : ∀ (j : Nat) (p q : V3), X[j]? = some p → X[j + 1]? = some q → distSq p q = 1
  apart : X.Pairwise fun a b => 1 - 1e-9 ≤ distSq a b
  origin : X.getLast? = some ⟨0, 0, 0⟩

theorem near_false {x : V3} {X : List V3} (h : near x X = false) : ∀ y ∈ X, 1 - 1e-9 ≤ distSq x y := by
  intro y hy
  unfold near at h
  rw [List.any_eq_false] at h
  have := h y hy
  rw [decide_eq_true_eq, not_lt, sqDist_eq] at this
  exact this

theorem Good.cons {X : List V3} {v x : V3} (G : Good X) (hv : X[0]? = some v) (hx : distSq x v = 1) (hn : near x X = false) : Good (x :: X) := by
  refine ⟨?_, List.pairwise_cons.mpr ⟨near_false hn, G.apart⟩, ?_⟩
  · intro j p q hp hq
    rw [List.getElem?_cons_succ] at hq
    cases j with
    | zero =>
      simp only [List.getElem?_cons_zero, Option.some.injEq] at hp
      rw [hv, Option.some.injEq] at hq
      subst hp hq
      exact hx
    | succ j =>
      rw [List.getElem?_cons_succ] at hp
      exact G.chain j p q hp hq
  · have : X ≠ [] := fun e => by rw [e] at hv; simp at hv
    rw [List.getLast?_cons, G.origin]
    rfl

theorem unit_of {v : V3} {a : ℝ} (ha : 0 < a) (hv : v.dot v = a ^ 2) : (V3.scale (1 / a) v).dot (V3.scale (1 / a) v) = 1 := by
  have : (V3.scale (1 / a) v).dot (V3.scale (1 / a) v) = (1 / a) ^ 2 * v.dot v := by simp only [V3.dot, V3.scale]; ring
  rw [this, hv]; field_simp

theorem frame_of {N v : V3} {a : ℝ} (ha : 0 < a) (hN : N.dot N = 1) (hv : v.dot v = a ^ 2) (hNv : N.dot v = 0) :
    Frame N (V3.scale (1 / a) v) (N.crossProd (V3.scale (1 / a) v)) := by
  refine ⟨hN, unit_of ha hv, ?_, rfl⟩
  have : N.dot (V3.scale (1 / a) v) = (1 / a) * N.dot v := by simp only [V3.dot, V3.scale]; ring
  rw [this, hNv, mul_zero]

theorem frameAt_of {N v : V3} {a : ℝ} (ha : 0 < a) (hN : N.dot N = 1) (hv : v.dot v = a ^ 2) (hNv : N.dot v = 0) :
    frameAt v N = .ok (V3.scale (1 / a) v, N.crossProd (V3.scale (1 / a) v)) := by
  unfold frameAt
  rw [normalize_of ha hv, ok_bind, normalize_of (a := 1) one_pos (by rw [(frame_of ha hN hv hNv).bb]; norm_num), ok_bind, scale_one]

theorem scale_lincomb (b c s : ℝ) (A B : V3) : V3.scale b (lincomb c A s B) = lincomb (b * c) A (b * s) B := by
  refine V3.ext' ?_ ?_ ?_ <;> simp only [V3.scale, lincomb, add] <;> ring

theorem lincomb_one (c s : ℝ) (A B : V3) : lincomb c A s B = lincomb (1 * c) A (1 * s) B := by rw [one_mul, one_mul]

/-- What a trial gives. -/
def Result (n : Nat) (r : Trial) : Prop :=
  ∃ o p, r = .ok (o, p) ∧ ∀ Y : List V3, o = some Y → Good Y ∧ Y.length = n ∧ ∃ x, Y[0]? = some x ∧ distSq x ⟨0, 0, 0⟩ = 1

theorem lastVertex_ok {X : List V3} {v N : V3} {a : ℝ} (pos : Nat) (G : Good X) (hv0 : X[0]? = some v) (hN : N.dot N = 1) (hv : v.dot v = a ^ 2)
    (hNv : N.dot v = 0) : Result (X.length + 1) (lastVertex X v N a pos) := by
  unfold lastVertex
  by_cases hr : a ≤ 0 ∨ a ≥ 2
  · rw [if_pos hr]
    exact ⟨none, pos, rfl, fun Y h => by simp at h⟩
  · rw [if_neg hr]
    rw [not_or, not_le, ge_iff_le, not_le] at hr
    obtain ⟨h0, h2⟩ := hr
    rw [frameAt_of h0 hN hv hNv, ok_bind]
    simp only
    have hp : 0 ≤ 1 - a / 2 * (a / 2) := by nlinarith
    rw [sqrtC, if_neg (not_lt.mpr hp), ok_bind]
    obtain ⟨s, hs⟩ : ∃ s, s = Real.sqrt (1 - a / 2 * (a / 2)) := ⟨_, rfl⟩
    rw [← hs]
    have hss : s * s = 1 - a / 2 * (a / 2) := by rw [hs]; exact Real.mul_self_sqrt hp
    have S := step_of h0 one_pos hN hv hNv (a / 2) s (by field_simp; ring) hss
    rw [← lincomb_one] at S
    split
    · exact ⟨none, pos, rfl, fun Y h => by simp at h⟩
    · rename_i hn
      refine ⟨some _, pos, rfl, fun Y h => ?_⟩
      rw [Option.some.injEq] at h
      subst h
      refine ⟨G.cons hv0 ?_ (by simpa using hn), by simp, _, rfl, ?_⟩
      · exact (distSq_symm _ _).trans S.edge
      · have := S.len
        have e : ∀ q : V3, distSq q ⟨0, 0, 0⟩ = q.dot q := fun q => by simp only [distSq, V3.dot]; ring
        rw [e, this]; norm_num

theorem trialLoop_ok (u : Nat → ℝ) (hu : ∀ i, 0 ≤ u i ∧ u i ≤ 1) : ∀ (k : Nat) (X : List V3) (v N : V3) (a : ℝ) (pos : Nat), Good X → X[0]? = some v →
    0 < a → N.dot N = 1 → v.dot v = a ^ 2 → N.dot v = 0 → Result (X.length + k + 1) (trialLoop u k X v N a pos)
  | 0, X, v, N, a, pos, G, hv0, _, hN, hv, hNv => lastVertex_ok pos G hv0 hN hv hNv
  | k + 1, X, v, N, a, pos, G, hv0, h0, hN, hv, hNv => by
    rw [trialLoop]
    simp only
    obtain ⟨b, hb⟩ : ∃ b, b = a + 2 * (u pos - 0.5) := ⟨_, rfl⟩
    rw [← hb]
    by_cases hr : b + a < 1 ∨ b ≤ 0
    · rw [if_pos hr]
      exact ⟨none, pos + 1, rfl, fun Y h => by simp at h⟩
    rw [if_neg hr]
    rw [not_or, not_lt, not_le] at hr
    obtain ⟨hsum, hb0⟩ := hr
    have habs : |a - b| ≤ 1 := by
      obtain ⟨u1, u2⟩ := hu pos
      rw [hb, abs_le]
      constructor <;> norm_num <;> linarith
    have hcb := cos_bounds h0 hb0 habs (by linarith)
    obtain ⟨c, hc⟩ : ∃ c, c = (a * a + b * b - 1) / (2 * a * b) := ⟨_, rfl⟩
    rw [← hc] at hcb
    have hc' : (b * b + a * a - 1) / (2 * b * a) = c := by rw [hc]; congr 1 <;> ring
    obtain ⟨s, hs⟩ : ∃ s, s = Real.sqrt (1 - c * c) := ⟨_, rfl⟩
    have hss : s * s = 1 - c * c := by rw [hs]; exact Real.mul_self_sqrt hcb
    have S := step_of h0 hb0 hN hv hNv c s hc hss
    have F := frame_of h0 hN hv hNv
    rw [frameAt_of h0 hN hv hNv, ok_bind]
    simp only
    rw [divC, if_neg (by positivity), ok_bind, hc', sqrtC, if_neg (not_lt.mpr hcb), ok_bind, ← hs]
    obtain ⟨f1, hf1⟩ : ∃ f1, f1 = V3.scale (1 / a) v := ⟨_, rfl⟩
    rw [← hf1] at F S ⊢
    obtain ⟨f2, hf2⟩ : ∃ f2, f2 = N.crossProd f1 := ⟨_, rfl⟩
    rw [← hf2] at F S ⊢
    obtain ⟨x, hx⟩ : ∃ x, x = V3.scale b (lincomb c f1 s f2) := ⟨_, rfl⟩
    rw [← hx]
    rw [← scale_lincomb, ← hx] at S
    have F3 : Frame N (lincomb c f1 s f2) (lincomb (-s) f1 c f2) := by
      refine ⟨hN, ?_, ?_, ?_⟩
      · rw [dot_lincomb, F.aa, F.ab, F.bb]; linear_combination hss
      · rw [dot_lincomb_right, F.na, F.nb]; ring
      · have h := F.cross'
        have h' := F.f2
        have hx := congrArg V3.x h
        have hy := congrArg V3.y h
        have hz := congrArg V3.z h
        have hx' := congrArg V3.x h'
        have hy' := congrArg V3.y h'
        have hz' := congrArg V3.z h'
        simp only [V3.crossProd, V3.scale] at hx hy hz hx' hy' hz'
        refine V3.ext' ?_ ?_ ?_ <;> simp only [V3.crossProd, V3.scale, lincomb, add]
        · linear_combination -s * hx + c * hx'
        · linear_combination -s * hy + c * hy'
        · linear_combination -s * hz + c * hz'
    obtain ⟨r1, r2, -, -⟩ := rotated F3 (6.2831853071795864769 * u (pos + 1))
    split
    · exact ⟨none, pos + 2, rfl, fun Y h => by simp at h⟩
    · rename_i hn
      have G' : Good (x :: X) := G.cons hv0 ((distSq_symm _ _).trans S.edge) (by simpa using hn)
      have hNx : (lincomb (Real.cos (6.2831853071795864769 * u (pos + 1))) N (Real.sin (6.2831853071795864769 * u (pos + 1)))
          (lincomb (-s) f1 c f2)).dot x = 0 := by
        rw [hx]
        have : ∀ A B : V3, A.dot (V3.scale b B) = b * B.dot A := fun A B => by simp only [V3.dot, V3.scale]; ring
        rw [this, r2, mul_zero]
      have := trialLoop_ok u hu k (x :: X) x _ b (pos + 2) G' rfl hb0 r1 S.len hNx
      rwa [List.length_cons, show X.length + 1 + k + 1 = X.length + (k + 1) + 1 by omega] at this

theorem trial_ok (u : Nat → ℝ) (hu : ∀ i, 0 ≤ u i ∧ u i ≤ 1) (n pos : Nat) (hn : 3 ≤ n) : Result n (trial u n pos) := by
  have G : Good [⟨1, 0, 0⟩, ⟨0, 0, 0⟩] := by
    refine ⟨?_, ?_, rfl⟩
    · intro j p q hp hq
      cases j with
      | zero =>
        simp only [List.getElem?_cons_zero, List.getElem?_cons_succ, Option.some.injEq] at hp hq
        subst hp hq
        norm_num [distSq]
      | succ j => simp at hq
    · simp [distSq]; norm_num
  have := trialLoop_ok u hu (n - 3) [⟨1, 0, 0⟩, ⟨0, 0, 0⟩] ⟨1, 0, 0⟩ ⟨0, 0, 1⟩ 1 pos G rfl one_pos (by simp [V3.dot]) (by simp [V3.dot]) (by simp [V3.dot])
  rw [show [(⟨1, 0, 0⟩ : V3), ⟨0, 0, 0⟩].length + (n - 3) + 1 = n by simp; omega] at this
  exact this

theorem trials_ok (u : Nat → ℝ) (hu : ∀ i, 0 ≤ u i ∧ u i ≤ 1) (n : Nat) (hn : 3 ≤ n) : ∀ f pos,
    trials u n f pos = .error .die ∨
    ∃ Y, trials u n f pos = .ok Y.reverse ∧ Good Y ∧ Y.length = n ∧ ∃ x, Y[0]? = some x ∧ distSq x ⟨0, 0, 0⟩ = 1
  | 0, pos => .inl rfl
  | f + 1, pos => by
    obtain ⟨o, p, h1, h2⟩ := trial_ok u hu n pos hn
    rw [trials, h1, ok_bind]
    cases o with
    | none => exact trials_ok u hu n hn f p
    | some Y => exact .inr ⟨Y, rfl, h2 Y rfl⟩

end Plc.Sap
