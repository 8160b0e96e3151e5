import Verif.Proofs.Polytope
import Verif.Props.Embed
import Verif.Props.Generate

/-! # Steps in the moment polytope -/

namespace Plc.Embed

open Plc.Core Plc.FindCrossings Plc.RandomPolygon Plc.Equilateral Plc.Motions Plc.Measure Plc.Tri

/-- **C96** The interval the step is drawn from: a number is in it exactly if it is at most 10¹² in magnitude, and moving the diagonals by it
leaves all those triangle inequalities true whose slack changes with speed at least 10⁻⁸. -/
theorem C96_interval {T : Triangulation} (hT : Proper T) {el dl dv : List ℝ} (h1 : el.length = T.edges.length) (h2 : dl.length = T.diags.length)
    (h3 : dv.length = T.diags.length) : ∃ tlower tupper, bounds T el dl dv = .ok (tupper, tlower) ∧
      ∀ s, (tlower ≤ s ∧ s ≤ tupper) ↔ |s| ≤ 1e12 ∧ ∀ t ∈ T.triangles, ∀ q ∈ sides t, 1e-8 ≤ |rate dv q| → 0 ≤ slack el (shift dl dv s) q := by
  obtain ⟨y, a, b⟩ := bounds_ok hT h1 h2 h3
  exact ⟨y.2, y.1, a, b⟩

theorem fits {T : Triangulation} (hT : Proper T) {t : Triangle} (ht : t ∈ T.triangles) : ∃ i, SidesFit T i t := by
  obtain ⟨i, hi, rfl⟩ := List.getElem_of_mem ht
  exact ⟨i, (proper_walk hT).2.2.1 i _ (List.getElem?_eq_getElem hi)⟩

theorem zero_in {T : Triangulation} (hT : Proper T) {el dl dv : List ℝ} (h2 : dl.length = T.diags.length)
    (h3 : dv.length = T.diags.length) (hc : ∀ t ∈ T.triangles, Closes el dl t) {x : ℝ × ℝ}
    (b : ∀ s, (x.2 ≤ s ∧ s ≤ x.1) ↔ |s| ≤ 1e12 ∧ ∀ t ∈ T.triangles, ∀ q ∈ sides t, 1e-8 ≤ |rate dv q| → 0 ≤ slack el (shift dl dv s) q) :
    x.2 ≤ 0 ∧ 0 ≤ x.1 := by
  refine (b 0).mpr ⟨by rw [abs_zero]; norm_num, ?_⟩
  intro t ht q hq _
  obtain ⟨i, hf⟩ := fits hT ht
  rw [holds_shift h2 h3 hf hq, zero_mul, add_zero]
  exact closes_slack.mp (hc t ht) q hq

theorem slack_after {T : Triangulation} (hT : Proper T) {el dl dv : List ℝ} (h2 : dl.length = T.diags.length)
    (h3 : dv.length = T.diags.length) (hc : ∀ t ∈ T.triangles, Closes el dl t) {s : ℝ}
    (b : ∀ t ∈ T.triangles, ∀ q ∈ sides t, 1e-8 ≤ |rate dv q| → 0 ≤ slack el (shift dl dv s) q) :
    (∀ t ∈ T.triangles, ∀ q ∈ sides t, -(1e-8 * |s|) ≤ slack el (shift dl dv s) q) ∧ (Regular T dv → ∀ t ∈ T.triangles, Closes el (shift dl dv s) t) := by
  constructor
  · intro t ht q hq
    by_cases c : 1e-8 ≤ |rate dv q|
    · have h1 := b t ht q hq c
      have h2 : 0 ≤ 1e-8 * |s| := by positivity
      linarith
    · obtain ⟨i, hf⟩ := fits hT ht
      rw [holds_shift h2 h3 hf hq]
      have h1 := closes_slack.mp (hc t ht) q hq
      have h4 : |s * rate dv q| ≤ 1e-8 * |s| := by
        rw [abs_mul, mul_comm]
        exact mul_le_mul_of_nonneg_right (not_le.mp c).le (abs_nonneg s)
      have h5 := (abs_le.mp h4).1
      linarith
  · intro hr t ht
    refine closes_slack.mpr (fun q hq => ?_)
    rcases hr.2 t ht q hq with h | h
    · obtain ⟨i, hf⟩ := fits hT ht
      rw [holds_shift h2 h3 hf hq, h, mul_zero, add_zero]
      exact closes_slack.mp (hc t ht) q hq
    · exact b t ht q hq h

/-- **C96** A step in the moment polytope from lengths which obey the triangle inequalities: the diagonals move along the direction by at most
10¹² times, every inequality is kept up to 10⁻⁸ times that, and exactly if no slack changes slower than 10⁻⁸ without being constant. -/
theorem C96_step {T : Triangulation} (hT : Proper T) {el dl dv : List ℝ} (h1 : el.length = T.edges.length) (h2 : dl.length = T.diags.length)
    (h3 : dv.length = T.diags.length) (hc : ∀ t ∈ T.triangles, Closes el dl t) {u : ℝ} (hu0 : 0 ≤ u) (hu1 : u ≤ 1) :
    ∃ s, mpStep T el dl dv u = .ok (shift dl dv s) ∧ |s| ≤ 1e12 ∧ (∀ t ∈ T.triangles, ∀ q ∈ sides t, -(1e-8 * |s|) ≤ slack el (shift dl dv s) q) ∧
      (Regular T dv → ∀ t ∈ T.triangles, Closes el (shift dl dv s) t) := by
  obtain ⟨x, a, b⟩ := bounds_ok hT h1 h2 h3
  obtain ⟨z0, z1⟩ := zero_in hT h2 h3 hc b
  have hs := (b _).mp (flat_between hu0 hu1 (le_trans z0 z1))
  refine ⟨flat u x.2 x.1, ?_, hs.1, slack_after hT h2 h3 hc hs.2⟩
  unfold mpStep
  rw [a, ok_bind]

/-- **C96** A step in the confined moment polytope, from lengths which obey the triangle inequalities, with no diagonal longer than `R`: the
same, and no diagonal is longer than `R` by more than 10⁻⁸ times the step; exactly none, if no diagonal changes slower than 10⁻⁸ without being
constant. -/
theorem C96_confined_step {T : Triangulation} (hT : Proper T) {R : ℝ} {el dl dv : List ℝ} (h1 : el.length = T.edges.length) (h2 : dl.length = T.diags.length)
    (h3 : dv.length = T.diags.length) (hc : ∀ t ∈ T.triangles, Closes el dl t) (hR : ∀ d ∈ dl, d ≤ R) {u : ℝ} (hu0 : 0 ≤ u) (hu1 : u ≤ 1) :
    ∃ s, confinedStep T R el dl dv u = .ok (shift dl dv s) ∧ |s| ≤ 1e12 ∧ (∀ t ∈ T.triangles, ∀ q ∈ sides t, -(1e-8 * |s|) ≤ slack el (shift dl dv s) q) ∧
      (∀ d ∈ shift dl dv s, d ≤ R + 1e-8 * |s|) ∧ (Regular T dv → ∀ t ∈ T.triangles, Closes el (shift dl dv s) t) ∧
      (RegularC T dv → ∀ d ∈ shift dl dv s, d ≤ R) := by
  obtain ⟨x, a, b⟩ := bounds_ok hT h1 h2 h3
  have hz := zero_in hT h2 h3 hc b
  have hcf := confine_ok (R := R) dl dv x (h2.trans h3.symm)
  have hz' := (hcf 0).mpr ⟨hz, fun k d v hd _ _ => by
    rw [zero_mul, add_zero]; exact hR d (List.mem_of_getElem? hd)⟩
  have hs := (hcf _).mp (flat_between hu0 hu1 (le_trans hz'.1 hz'.2))
  have hb := (b _).mp hs.1
  obtain ⟨s, hse⟩ : ∃ s, s = flat u (confine R dl dv x).2 (confine R dl dv x).1 := ⟨_, rfl⟩
  rw [← hse] at hs hb
  have hsl := slack_after hT h2 h3 hc hb.2
  have hget : ∀ d' ∈ shift dl dv s, ∃ (k : Nat) (d v : ℝ), dl[k]? = some d ∧ dv[k]? = some v ∧ d' = d + s * v := by
    intro d' hd'
    obtain ⟨k, hk⟩ := List.getElem?_of_mem hd'
    unfold shift at hk
    rw [List.getElem?_zipWith] at hk
    cases e1 : dl[k]? <;> rw [e1] at hk <;> [(simp at hk); skip]
    cases e2 : dv[k]? <;> rw [e2] at hk <;> [(simp at hk); skip]
    refine ⟨k, _, _, e1, e2, ?_⟩
    simpa using hk.symm
  refine ⟨s, ?_, hb.1, hsl.1, ?_, hsl.2, ?_⟩
  · unfold confinedStep
    rw [a, ok_bind, hse]
  · intro d' hd'
    obtain ⟨k, d, v, g1, g2, rfl⟩ := hget d' hd'
    have hd := hR d (List.mem_of_getElem? g1)
    by_cases c : 1e-8 < |v|
    · have h1 := hs.2 k d v g1 g2 c
      have h2 : 0 ≤ 1e-8 * |s| := by positivity
      linarith
    · have h4 : |s * v| ≤ 1e-8 * |s| := by
        rw [abs_mul, mul_comm]
        exact mul_le_mul_of_nonneg_right (not_lt.mp c) (abs_nonneg s)
      have h5 := (abs_le.mp h4).2
      linarith
  · intro hr d' hd'
    obtain ⟨k, d, v, g1, g2, rfl⟩ := hget d' hd'
    rcases hr.2 v (List.mem_of_getElem? g2) with h | h
    · rw [h, mul_zero, add_zero]; exact hR d (List.mem_of_getElem? g1)
    · exact hs.2 k d v g1 g2 h

open Classical in
theorem walk_ok {T : Triangulation} (hT : Proper T) {el dl : List ℝ} (h1 : el.length = T.edges.length) (h2 : dl.length = T.diags.length) :
    ∃ r, okWorker T el dl T.triangles.length 0 = .ok r ∧ (r = true ↔ ∀ t ∈ T.triangles, Closes el dl t) := by
  obtain ⟨_, _, _, ts, hp, _, hok⟩ := proper_walk hT
  refine ⟨_, hok el dl h1 h2, ?_⟩
  refine decide_eq_true_iff.trans ?_
  unfold AllClose
  constructor
  · intro h t ht
    obtain ⟨i, hi, rfl⟩ := List.getElem_of_mem ht
    exact h i (by rw [hp.mem_iff, List.mem_range]; exact hi) _ (List.getElem?_eq_getElem hi)
  · intro h i _ t ht
    exact h t (List.mem_of_getElem? ht)

/-- **C96** `tsmcmc_diagonals_ok` says whether all triangle inequalities hold. -/
theorem C96_diagonals_ok {T : Triangulation} (hT : Proper T) {el dl : List ℝ} (h1 : el.length = T.edges.length) (h2 : dl.length = T.diags.length) :
    ∃ r, diagonalsOk T el dl = .ok r ∧ (r = true ↔ ∀ t ∈ T.triangles, Closes el dl t) := by
  obtain ⟨r, e, h⟩ := walk_ok hT h1 h2
  refine ⟨r, ?_, h⟩
  have := (proper_walk hT).1
  unfold diagonalsOk assertC
  rw [if_pos (by simp; omega), if_pos (by simp; omega), ok_bind, ok_bind, e]

/-- **C96** `tsmcmc_confined_diagonals_ok` says whether all triangle inequalities hold and no diagonal is longer than the radius. -/
theorem C96_confined_diagonals_ok {T : Triangulation} (hT : Proper T) {R : ℝ} {el dl : List ℝ} (h1 : el.length = T.edges.length) (h2 : dl.length = T.diags.length) :
    ∃ r, confinedDiagonalsOk T R el dl = .ok r ∧ (r = true ↔ (∀ t ∈ T.triangles, Closes el dl t) ∧ ∀ d ∈ dl, d ≤ R) := by
  obtain ⟨r, e, h⟩ := walk_ok hT h1 h2
  unfold confinedDiagonalsOk
  rw [e, ok_bind]
  cases r
  · refine ⟨false, rfl, ?_⟩
    simp only [Bool.false_eq_true, false_iff] at h ⊢
    exact fun hh => h hh.1
  · refine ⟨_, rfl, ?_⟩
    have := h.mp rfl
    simp only [Bool.not_eq_true', List.any_eq_false, decide_eq_true_eq, not_lt, gt_iff_lt]
    exact ⟨fun hh => ⟨this, hh⟩, fun hh => hh.2⟩

theorem computeLengths_all {vt : List V3} : ∀ (chords : List Chord), (∀ c ∈ chords, c.1 < vt.length ∧ c.2 < vt.length) →
    ∃ ls, computeLengths vt chords = .ok ls ∧ ls.length = chords.length ∧
      ∀ (k a b : Nat), chords[k]? = some (a, b) → ∃ p q : V3, vt[a]? = some p ∧ vt[b]? = some q ∧ ls[k]? = some (apart p q)
  | [], _ => ⟨[], rfl, rfl, by simp⟩
  | (a, b) :: cs, h => by
    obtain ⟨ls, e1, e2, e3⟩ := computeLengths_all cs (fun c hc => h c (by simp [hc]))
    obtain ⟨ha, hb⟩ := h (a, b) (by simp)
    refine ⟨apart vt[a] vt[b] :: ls, ?_, by simp [e2], ?_⟩
    · unfold computeLengths
      rw [rd_lt ha, rd_lt hb, ok_bind, ok_bind, e1, ok_bind, dist3_eq]
    · intro k a' b' hk
      rcases k with _ | k
      · simp only [List.getElem?_cons_zero, Option.some.injEq, Prod.mk.injEq] at hk
        obtain ⟨rfl, rfl⟩ := hk
        exact ⟨_, _, List.getElem?_eq_getElem ha, List.getElem?_eq_getElem hb, rfl⟩
      · obtain ⟨p, q, g1, g2, g3⟩ := e3 k a' b' (by simpa using hk)
        exact ⟨p, q, g1, g2, by simpa using g3⟩

/-- The ends of diagonals are vertices. -/
theorem diags_lt {T : Triangulation} (hT : Proper T) : ∀ c ∈ T.diags, c.1 < T.edges.length ∧ c.2 < T.edges.length := by
  have key : ∀ {c : CRef} {s : Option Nat} {u w : Nat} {xs : List Nat} {cs : List CRef}, Behind T c s u w xs cs → u < T.edges.length → w < T.edges.length →
      (∀ x ∈ xs, x < T.edges.length) → ∀ c' ∈ cs, ∀ p, ends T c' = some p → p.1 < T.edges.length ∧ p.2 < T.edges.length := by
    intro c s u w xs cs h
    induction h with
    | edge k u w h =>
      intro hu hw _ c' hc p hp
      rw [List.mem_singleton] at hc
      subst hc
      have : some (u, w) = some p := h.symm.trans hp
      cases this
      exact ⟨hu, hw⟩
    | diag k u v w s t xs ys cs ds h1 h2 h3 b1 b2 ih1 ih2 =>
      intro hu hw hx c' hc p hp
      have hv := hx v (by simp)
      rcases List.mem_cons.mp hc with rfl | hc
      · have : some (u, w) = some p := h1.symm.trans hp
        cases this
        exact ⟨hu, hw⟩
      · rcases List.mem_append.mp hc with hc | hc
        · exact ih1 hu hv (fun x hx' => hx x (by simp [hx'])) c' hc p hp
        · exact ih2 hv hw (fun x hx' => hx x (by simp [hx'])) c' hc p hp
  obtain ⟨t, a, b, c, k, xs, ys, cs, ds, ht, hp, hk, h0, h1, hnd, hall, hcs, hev⟩ := hT.tree
  intro d hd
  obtain ⟨j, hj⟩ := List.getElem?_of_mem hd
  have he : ends T ⟨true, j⟩ = some d := hj
  have hm := hev _ _ he
  rcases List.mem_cons.mp hm with h | h
  · simp at h
  · have hb := (hall b).mp (by simp)
    have hc := (hall c).mp (by simp)
    have ha := (hall a).mp (by simp)
    rcases List.mem_append.mp h with h | h
    · exact key h0 hb hc (fun x hx => (hall x).mp (by simp [hx])) _ h d he
    · exact key h1 hc ha (fun x hx => (hall x).mp (by simp [hx])) _ h d he

/-- **C96** The lengths computed from any polygon with enough vertices obey the triangle inequalities. -/
theorem C96_lengths_close {T : Triangulation} (hT : Proper T) {vt : List V3} (hv : vt.length = T.edges.length) :
    ∃ el dl, computeLengths vt T.edges = .ok el ∧ computeLengths vt T.diags = .ok dl ∧ el.length = T.edges.length ∧ dl.length = T.diags.length ∧
      (∀ (i : Nat) (p q : V3), vt[i]? = some p → vt[(i + 1) % T.edges.length]? = some q → el[i]? = some (apart p q)) ∧
      (∀ (k a b : Nat), T.diags[k]? = some (a, b) → ∃ p q : V3, vt[a]? = some p ∧ vt[b]? = some q ∧ dl[k]? = some (apart p q)) ∧
      ∀ t ∈ T.triangles, Closes el dl t := by
  obtain ⟨el, a1, a2, a3⟩ := computeLengths_all (vt := vt) T.edges (by
    intro c hc
    obtain ⟨i, hi, rfl⟩ := List.getElem_of_mem hc
    have := hT.edges i hi
    rw [List.getElem?_eq_getElem hi, Option.some.injEq] at this
    rw [this, hv]
    exact ⟨hi, Nat.mod_lt _ (by omega)⟩)
  obtain ⟨dl, b1, b2, b3⟩ := computeLengths_all (vt := vt) T.diags (by rw [hv]; exact diags_lt hT)
  refine ⟨el, dl, a1, b1, a2, b2, ?_, b3, ?_⟩
  · intro i p q hp hq
    have hi : i < T.edges.length := by rw [← hv]; exact (List.getElem?_eq_some_iff.mp hp).1
    obtain ⟨p', q', g1, g2, g3⟩ := a3 i _ _ (hT.edges i hi)
    rw [hp] at g1; cases g1
    rw [hq] at g2; cases g2
    exact g3
  · intro t ht
    have hlen : ∀ (c : CRef) (a b : Nat), ends T c = some (a, b) → ∃ p q : V3, vt[a]? = some p ∧ vt[b]? = some q ∧ lengthOf el dl c = apart p q := by
      rintro ⟨d, k⟩ a b hc
      cases d
      · obtain ⟨p, q, g1, g2, g3⟩ := a3 k a b hc
        exact ⟨p, q, g1, g2, by simp [lengthOf, g3]⟩
      · obtain ⟨p, q, g1, g2, g3⟩ := b3 k a b hc
        exact ⟨p, q, g1, g2, by simp [lengthOf, g3]⟩
    obtain ⟨i, u, v, w, e1, e2, e3, _⟩ := fits hT ht
    obtain ⟨pu, pv, g1, g2, g3⟩ := hlen _ _ _ e2
    obtain ⟨pv', pw, g4, g5, g6⟩ := hlen _ _ _ e3
    rw [g2] at g4; cases g4
    have hpar : lengthOf el dl t.parent = apart pu pw := by
      split at e1
      · obtain ⟨x, y, k1, k2, k3⟩ := hlen _ _ _ e1
        rw [g5] at k1; cases k1
        rw [g1] at k2; cases k2
        rw [k3, apart_comm]
      · obtain ⟨x, y, k1, k2, k3⟩ := hlen _ _ _ e1
        rw [g1] at k1; cases k1
        rw [g5] at k2; cases k2
        exact k3
    unfold Closes
    rw [hpar, g3, g6]
    refine ⟨apart_triangle _ _ _, ?_, ?_⟩
    · have := apart_triangle pu pw pv
      rw [apart_comm pw pv] at this; linarith
    · have := apart_triangle pv pu pw
      rw [apart_comm pv pu] at this; linarith

theorem folded_verts {n i : Nat} {p : V3} (h : (foldedVerts n)[i]? = some p) :
    p = if i = 0 then ⟨0, 0, 0⟩ else if i % 2 = 0 then ⟨1, 0, 0⟩ else ⟨1 / 2, Real.sqrt 3 / 2, 0⟩ := by
  unfold foldedVerts at h
  rw [List.getElem?_map] at h
  cases e : (List.range n)[i]? with
  | none => rw [e] at h; simp at h
  | some j =>
    have := (List.getElem?_eq_some_iff.mp e)
    obtain ⟨hi, hj⟩ := this
    rw [List.getElem_range] at hj
    subst hj
    rw [e] at h
    simpa using h.symm

theorem unit_ox : apart ⟨0, 0, 0⟩ ⟨1, 0, 0⟩ = 1 := by
  rw [apart_sq_dot (by norm_num)]; simp [V3.sub, V3.dot]

theorem unit_oy : apart ⟨0, 0, 0⟩ ⟨1 / 2, Real.sqrt 3 / 2, 0⟩ = 1 := by
  rw [apart_sq_dot (by norm_num)]
  have := Real.mul_self_sqrt (show (0 : ℝ) ≤ 3 by norm_num)
  simp only [V3.sub, V3.dot]
  nlinarith

theorem unit_xy : apart ⟨1, 0, 0⟩ ⟨1 / 2, Real.sqrt 3 / 2, 0⟩ = 1 := by
  rw [apart_sq_dot (by norm_num)]
  have := Real.mul_self_sqrt (show (0 : ℝ) ≤ 3 by norm_num)
  simp only [V3.sub, V3.dot]
  nlinarith

theorem folded_near {n i j : Nat} {p q : V3} (hp : (foldedVerts n)[i]? = some p) (hq : (foldedVerts n)[j]? = some q) : apart p q ≤ 1 := by
  have h1 := unit_ox
  have h2 := unit_oy
  have h3 := unit_xy
  rw [folded_verts hp, folded_verts hq]
  split <;> split <;> (try split) <;> (try split) <;> first
    | (rw [apart_self]; norm_num)
    | exact h1.le
    | exact h2.le
    | exact h3.le
    | (rw [apart_comm]; first | exact h1.le | exact h2.le | exact h3.le)

theorem folded_edge {n i : Nat} (hn : 3 ≤ n) {p q : V3} (hp : (foldedVerts n)[i]? = some p) (hq : (foldedVerts n)[(i + 1) % n]? = some q) : apart p q = 1 := by
  have hi : i < n := by have := (List.getElem?_eq_some_iff.mp hp).1; simpa [foldedVerts] using this
  have h1 := unit_ox
  have h2 := unit_oy
  have h3 := unit_xy
  rw [folded_verts hp, folded_verts hq]
  by_cases c : i + 1 < n
  · rw [Nat.mod_eq_of_lt c, if_neg (show i + 1 ≠ 0 by omega)]
    by_cases c0 : i = 0
    · subst c0
      rw [if_pos rfl, if_neg (by omega)]
      exact h2
    · rw [if_neg c0]
      by_cases c2 : i % 2 = 0
      · rw [if_pos c2, if_neg (by omega)]; exact h3
      · rw [if_neg c2, if_pos (by omega), apart_comm]; exact h3
  · have : i + 1 = n := by omega
    rw [this, Nat.mod_self, if_pos rfl, if_neg (show i ≠ 0 by omega), apart_comm]
    split
    · exact h1
    · exact h2

/-- **C96** The folded triangle: all edges have length 1, no diagonal is longer than 1, and all triangle inequalities hold. -/
theorem C96_folded {T : Triangulation} (hT : Proper T) : ∃ dl, folded T = .ok (List.replicate T.edges.length 1, dl) ∧ dl.length = T.diags.length ∧
    (∀ d ∈ dl, d ≤ 1) ∧ ∀ t ∈ T.triangles, Closes (List.replicate T.edges.length 1) dl t := by
  have hn : 3 ≤ T.edges.length := by have := (proper_walk hT).1; omega
  have hl : (foldedVerts T.edges.length).length = T.edges.length := by simp [foldedVerts]
  obtain ⟨el, dl, a1, a2, a3, a4, a5, a6, a7⟩ := C96_lengths_close hT hl
  have hel : el = List.replicate T.edges.length 1 := by
    refine List.eq_replicate_iff.mpr ⟨a3, ?_⟩
    intro x hx
    obtain ⟨i, hi⟩ := List.getElem?_of_mem hx
    have hi' : i < T.edges.length := by rw [← a3]; exact (List.getElem?_eq_some_iff.mp hi).1
    have g1 := List.getElem?_eq_getElem (show i < (foldedVerts T.edges.length).length by omega)
    have g2 := List.getElem?_eq_getElem (show (i + 1) % T.edges.length < (foldedVerts T.edges.length).length by rw [hl]; exact Nat.mod_lt _ (by omega))
    have := a5 i _ _ g1 g2
    rw [hi, folded_edge hn g1 g2] at this
    exact Option.some.inj this
  subst hel
  refine ⟨dl, ?_, a4, ?_, a7⟩
  · show (do
      let el ← computeLengths (foldedVerts T.edges.length) T.edges
      let dl ← computeLengths (foldedVerts T.edges.length) T.diags
      Except.ok (el, dl)) = _
    rw [a1, ok_bind, a2, ok_bind]
  · intro d hd
    obtain ⟨k, hk⟩ := List.getElem?_of_mem hd
    have hk' : k < T.diags.length := by rw [← a4]; exact (List.getElem?_eq_some_iff.mp hk).1
    obtain ⟨p, q, g1, g2, g3⟩ := a6 k _ _ (List.getElem?_eq_getElem hk')
    rw [hk] at g3
    rw [Option.some.inj g3]
    exact folded_near g1 g2

theorem edgesUnit_ones (n : Nat) : edgesUnit (List.replicate n 1) = true := by
  unfold edgesUnit
  rw [List.all_eq_true]
  intro x hx
  rw [(List.mem_replicate.mp hx).2]
  simp
  norm_num

/-- What the chain keeps. -/
structure Confined (T : Triangulation) (R : ℝ) (el dl : List ℝ) : Prop where
  size : dl.length = T.diags.length
  close : ∀ t ∈ T.triangles, Closes el dl t
  short : ∀ d ∈ dl, d ≤ R

/-- A move of the chain: a direction none of whose slopes is tiny, and a number from 0 to 1. -/
def Move (T : Triangulation) (m : List ℝ × ℝ) : Prop := RegularC T m.1 ∧ 0 ≤ m.2 ∧ m.2 ≤ 1

theorem confined_step {T : Triangulation} (hT : Proper T) {R : ℝ} {el dl : List ℝ} (h1 : el.length = T.edges.length) (h : Confined T R el dl) {m : List ℝ × ℝ}
    (hm : Move T m) : ∃ dl', confinedStep T R el dl m.1 m.2 = .ok dl' ∧ Confined T R el dl' := by
  obtain ⟨s, e, _, _, _, c1, c2⟩ := C96_confined_step hT h1 h.size hm.1.1.1 h.close h.short hm.2.1 hm.2.2
  refine ⟨_, e, ?_, c1 hm.1.1, c2 hm.1⟩
  unfold shift
  rw [List.length_zipWith, h.size, hm.1.1.1, Nat.min_self]

theorem confined_steps {T : Triangulation} (hT : Proper T) {R : ℝ} {el : List ℝ} (h1 : el.length = T.edges.length) : ∀ (ms : List (List ℝ × ℝ)) (dl : List ℝ),
    Confined T R el dl → (∀ m ∈ ms, Move T m) → ∃ dl', ms.foldlM (fun dl m => confinedStep T R el dl m.1 m.2) dl = .ok dl' ∧ Confined T R el dl'
  | [], dl, h, _ => ⟨dl, rfl, h⟩
  | m :: ms, dl, h, hm => by
    obtain ⟨d1, e1, c1⟩ := confined_step hT h1 h (hm m (by simp))
    obtain ⟨d2, e2, c2⟩ := confined_steps hT h1 ms d1 c1 (fun x hx => hm x (by simp [hx]))
    exact ⟨d2, by rw [List.foldlM_cons, e1, ok_bind, e2], c2⟩

theorem chain_step {T : Triangulation} (hT : Proper T) {R : ℝ} {dl : List ℝ} (h : Confined T R (List.replicate T.edges.length 1) dl)
    {ms : List (List ℝ × ℝ)} (hm : ∀ m ∈ ms, Move T m) :
    ∃ dl', chainStep T R (List.replicate T.edges.length 1) ms dl = .ok dl' ∧ Confined T R (List.replicate T.edges.length 1) dl' := by
  have hl : (List.replicate T.edges.length (1 : ℝ)).length = T.edges.length := by simp
  obtain ⟨d1, e1, c1⟩ := confined_steps hT hl ms dl h hm
  refine ⟨d1, ?_, c1⟩
  obtain ⟨r, e2, hr⟩ := C96_confined_diagonals_ok (R := R) hT hl c1.size
  have : r = true := hr.mpr ⟨c1.close, c1.short⟩
  subst this
  unfold chainStep
  rw [e1, ok_bind, edgesUnit_ones, e2]
  rfl

theorem chain_steps {T : Triangulation} (hT : Proper T) {R : ℝ} : ∀ (steps : List (List (List ℝ × ℝ))) (dl : List ℝ),
    Confined T R (List.replicate T.edges.length 1) dl → (∀ ms ∈ steps, ∀ m ∈ ms, Move T m) →
    ∃ dl', steps.foldlM (fun dl s => chainStep T R (List.replicate T.edges.length 1) s dl) dl = .ok dl' ∧ Confined T R (List.replicate T.edges.length 1) dl'
  | [], dl, h, _ => ⟨dl, rfl, h⟩
  | ms :: steps, dl, h, hm => by
    obtain ⟨d1, e1, c1⟩ := chain_step hT h (hm ms (by simp))
    obtain ⟨d2, e2, c2⟩ := chain_steps hT steps d1 c1 (fun x hx => hm x (by simp [hx]))
    exact ⟨d2, by rw [List.foldlM_cons, e1, ok_bind, e2], c2⟩

theorem fan_eq (Q : QSort) (n : Nat) : Tri.fan Q n = .ok (fanList n) := by
  have h := fanLoop_ok (n - 3) 0 [] (List.replicate (n - 3) (0, 0)) rfl (by simp)
  simp only [List.nil_append, Nat.zero_add] at h
  rw [Tri.fan, h, ok_bind, assertC_ok, ok_bind]
  · rfl
  · exact fan_triangulation.ok Q

/-- The diagonals of the fan run between vertex 0 and the others. -/
theorem fanT_diags (Q : QSort) {n : Nat} (h3 : 3 ≤ n) : ∃ T, fanT Q n = .ok T ∧ Proper T ∧ T.edges.length = n ∧
    ∀ k, k + 3 < n → ∃ d, T.diags[k]? = some d ∧ Same d (0, k + 2) := by
  obtain ⟨T, h4, h5, h6, _, h7⟩ := C95_generate Q h3 fan_triangulation
  refine ⟨T, ?_, h5, h6, ?_⟩
  · unfold fanT
    rw [fan_eq, ok_bind, h4]
  · intro k hk
    refine h7 k (0, k + 2) ?_
    unfold fanList
    rw [List.getElem?_map, List.getElem?_eq_getElem (by simp; omega)]
    simp

/-- **C96** The chain of confined equilateral polygons: for every number of vertices, every radius above 1, and every sequence of moves whose
directions have no tiny slopes, no check fails; all edges keep length 1, the triangle inequalities hold, and no diagonal is longer than the
radius. -/
theorem C96_chain (Q : QSort) {n : Nat} (h3 : 3 ≤ n) {R : ℝ} (hR : 1 < R) {first : List ℝ × ℝ} {steps : List (List (List ℝ × ℝ))}
    (hm : ∀ T, fanT Q n = .ok T → Move T first ∧ ∀ ms ∈ steps, ∀ m ∈ ms, Move T m) :
    ∃ T dl, fanT Q n = .ok T ∧ Proper T ∧ T.edges.length = n ∧ confinedChain Q n R first steps = .ok (T, List.replicate n 1, dl) ∧
      dl.length = T.diags.length ∧ (∀ t ∈ T.triangles, Closes (List.replicate n 1) dl t) ∧ ∀ d ∈ dl, d ≤ R := by
  obtain ⟨T, e1, hT, hn, _⟩ := fanT_diags Q h3
  obtain ⟨m1, m2⟩ := hm T e1
  obtain ⟨d0, f1, f2, f3, f4⟩ := C96_folded hT
  have c0 : Confined T R (List.replicate T.edges.length 1) d0 := ⟨f2, f4, fun d hd => (f3 d hd).trans hR.le⟩
  obtain ⟨d1, g1, c1⟩ := confined_step hT (by simp) c0 m1
  obtain ⟨d2, g2, c2⟩ := chain_steps hT steps d1 c1 m2
  subst hn
  refine ⟨T, d2, e1, hT, rfl, ?_, c2.size, c2.close, c2.short⟩
  unfold confinedChain
  rw [e1, ok_bind, assertC_ok (by simpa using hR), ok_bind, f1, ok_bind]
  simp only
  rw [g1, ok_bind, g2, ok_bind]

/-- **C96** The polygons made from such lengths are confined: their edges have length 1, and no vertex is further than the radius from the
first one; if no diagonal is shorter than 10⁻⁸. -/
theorem C96_confined_polygon (Q : QSort) {n : Nat} (h3 : 3 ≤ n) {R : ℝ} (hR : 1 < R) {T : Triangulation} (hf : fanT Q n = .ok T) {dl da : List ℝ}
    (h2 : dl.length = T.diags.length) (ha : da.length = T.diags.length) (hc : ∀ t ∈ T.triangles, Closes (List.replicate n 1) dl t)
    (hs : ∀ d ∈ dl, d ≤ R) (hl : ∀ d ∈ dl, 1e-8 ≤ d) :
    ∃ vt : List V3, embed T (List.replicate n 1) dl da = .ok (some vt) ∧ vt.length = n ∧
      (∀ (i : Nat) (p q : V3), vt[i]? = some p → vt[(i + 1) % n]? = some q → apart p q = 1) ∧
      ∀ (i : Nat) (o p : V3), vt[0]? = some o → vt[i]? = some p → apart o p ≤ R := by
  obtain ⟨T', e1, hT, hn, hd⟩ := fanT_diags Q h3
  rw [hf] at e1
  cases e1
  have hS : Sized T (List.replicate n 1) dl := by
    refine ⟨by simp [hn], h2, ?_⟩
    rintro x (hx | hx)
    · rw [(List.mem_replicate.mp hx).2]; norm_num
    · exact hl x hx
  obtain ⟨vt, v1, v2, v3, v4⟩ := C94_embed hT hS ha hc
  rw [hn] at v2 v3
  have hedge : ∀ (i : Nat) (p q : V3), vt[i]? = some p → vt[(i + 1) % n]? = some q → apart p q = 1 := by
    intro i p q hp hq
    have hi : i < n := by rw [← v2]; exact (List.getElem?_eq_some_iff.mp hp).1
    have := v3 i p q hp hq
    rw [List.getElem?_replicate, if_pos hi] at this
    exact (Option.some.inj this).symm
  refine ⟨vt, v1, v2, hedge, ?_⟩
  intro i o p ho hp
  have hi : i < n := by rw [← v2]; exact (List.getElem?_eq_some_iff.mp hp).1
  by_cases c0 : i = 0
  · subst c0
    rw [ho] at hp; cases hp
    rw [apart_self]; linarith
  by_cases c1 : i = 1
  · subst c1
    rw [hedge 0 o p ho (by rw [Nat.mod_eq_of_lt (by omega)]; exact hp)]
    exact hR.le
  by_cases c2 : i + 1 = n
  · rw [apart_comm, hedge i p o hp (by rw [c2, Nat.mod_self]; exact ho)]
    exact hR.le
  · obtain ⟨⟨a, b⟩, g1, g2⟩ := hd (i - 2) (by omega)
    have hi2 : i - 2 + 2 = i := by omega
    obtain ⟨x, y, k1, k2, k3⟩ := v4 _ a b g1
    have hle := hs _ (List.mem_of_getElem? k3)
    rw [hi2] at g2
    rcases g2 with ⟨q1, q2⟩ | ⟨q1, q2⟩
    · simp only at q1 q2
      subst q1 q2
      rw [ho] at k1; cases k1
      rw [hp] at k2; cases k2
      exact hle
    · simp only at q1 q2
      subst q1 q2
      rw [hp] at k1; cases k1
      rw [ho] at k2; cases k2
      rw [apart_comm]
      exact hle

/-! ## The square -/

theorem square_closes {x : ℝ} (h0 : 0 ≤ x) (h2 : x ≤ 2) : ∀ t ∈ square.triangles, Closes [1, 1, 1, 1] [x] t := by
  intro t ht
  simp only [square, List.mem_cons, List.not_mem_nil, or_false] at ht
  rcases ht with rfl | rfl <;> (unfold Closes lengthOf; simp only [List.getElem?_cons_zero, List.getElem?_cons_succ, Option.getD_some, if_true, Bool.false_eq_true, if_false]) <;>
    (refine ⟨?_, ?_, ?_⟩ <;> linarith)

theorem square_regular : RegularC square [1] := by
  refine ⟨⟨rfl, ?_⟩, by intro v hv; simp at hv; right; rw [hv]; norm_num⟩
  intro t ht q hq
  simp only [square, List.mem_cons, List.not_mem_nil, or_false] at ht
  right
  rcases ht with rfl | rfl <;> simp only [sides, List.mem_cons, List.not_mem_nil, or_false] at hq <;>
    rcases hq with rfl | rfl | rfl <;> (unfold rate rateOf; simp <;> norm_num)

/-- The square with diagonal 1, moved in direction 1: the inequalities stay true. -/
example {u : ℝ} (h0 : 0 ≤ u) (h1 : u ≤ 1) : ∃ dl, confinedStep square 2 [1, 1, 1, 1] [1] [1] u = .ok dl ∧ (∀ t ∈ square.triangles, Closes [1, 1, 1, 1] dl t) ∧ ∀ d ∈ dl, d ≤ 2 := by
  obtain ⟨s, e, _, _, _, c1, c2⟩ := C96_confined_step (R := 2) (dv := [1]) square_proper (el := [1, 1, 1, 1]) (dl := [1]) rfl rfl rfl
    (square_closes (by norm_num) (by norm_num)) (by intro d hd; simp at hd; rw [hd]; norm_num) h0 h1
  exact ⟨_, e, c1 square_regular.1, c2 square_regular⟩

/-- Directions with integer entries have no tiny slopes. -/
theorem regular_int {T : Triangulation} {zs : List ℤ} (h : zs.length = T.diags.length) : RegularC T (zs.map (fun z : ℤ => (z : ℝ))) := by
  have hz : ∀ z : ℤ, (z : ℝ) = 0 ∨ (1 : ℝ) ≤ |(z : ℝ)| := by
    intro z
    by_cases c : z = 0
    · left; rw [c]; simp
    · right
      have := Int.one_le_abs c
      rw [← Int.cast_abs]
      exact_mod_cast this
  have hr : ∀ c : CRef, ∃ z : ℤ, rateOf (zs.map (fun z : ℤ => (z : ℝ))) c = z := by
    intro c
    unfold rateOf
    split
    · rw [List.getElem?_map]
      cases zs[c.num]? with
      | none => exact ⟨0, by simp⟩
      | some z => exact ⟨z, rfl⟩
    · exact ⟨0, by simp⟩
  refine ⟨⟨by simp [h], ?_⟩, ?_⟩
  · intro t _ q _
    obtain ⟨a, ha⟩ := hr q.1
    obtain ⟨b, hb⟩ := hr q.2.1
    obtain ⟨c, hc⟩ := hr q.2.2
    have : rate (zs.map (fun z : ℤ => (z : ℝ))) q = ((a + b - c : ℤ) : ℝ) := by
      unfold rate
      rw [ha, hb, hc]
      push_cast
      rfl
    rw [this]
    rcases hz (a + b - c) with h | h
    · exact .inl h
    · right; refine le_trans ?_ h; norm_num
  · intro v hv
    obtain ⟨z, _, rfl⟩ := List.mem_map.mp hv
    rcases hz z with h | h
    · exact .inl h
    · right; refine lt_of_lt_of_le ?_ h; norm_num

/-- For every number of vertices, a chain with moves in directions with integer entries. -/
example (Q : QSort) {n : Nat} (h3 : 3 ≤ n) (u v : ℝ) (hu : 0 ≤ u ∧ u ≤ 1) (hv : 0 ≤ v ∧ v ≤ 1) :
    ∃ T dl, confinedChain Q n (3 / 2) (List.replicate (n - 3) 1, u) [[((List.range (n - 3)).map (fun k : Nat => ((2 * (k : ℤ) - 5 : ℤ) : ℝ)), v)], []] = .ok (T, List.replicate n 1, dl) ∧
      ∀ d ∈ dl, d ≤ 3 / 2 := by
  obtain ⟨T, dl, _, _, _, h, _, _, hd⟩ := C96_chain Q h3 (R := 3 / 2) (by norm_num) (first := (List.replicate (n - 3) 1, u))
    (steps := [[((List.range (n - 3)).map (fun k : Nat => ((2 * (k : ℤ) - 5 : ℤ) : ℝ)), v)], []]) (by
      intro T hT
      obtain ⟨T', e1, e2, e3, _⟩ := fanT_diags Q h3
      rw [hT] at e1; cases e1
      have hc := (proper_walk e2).1
      constructor
      · refine ⟨?_, hu⟩
        have := regular_int (T := T) (zs := List.replicate (n - 3) 1) (by simp; omega)
        simpa using this
      · intro ms hms m hm
        simp only [List.mem_cons, List.not_mem_nil, or_false] at hms
        rcases hms with rfl | rfl
        · rw [List.mem_singleton] at hm
          subst hm
          refine ⟨?_, hv⟩
          have := regular_int (T := T) (zs := (List.range (n - 3)).map (fun k : Nat => (2 * (k : ℤ) - 5 : ℤ))) (by simp; omega)
          rw [List.map_map] at this
          exact this
        · simp at hm)
  exact ⟨T, dl, h, hd⟩

/-- **C96** Slow directions are not bounded at all: from the square with diagonal 1, a step in direction 10⁻⁹ with three quarters drawn gives
a diagonal of length 501, in the confined polytope too, and the check fails. -/
theorem C96_slow_direction : mpStep square [1, 1, 1, 1] [1] [1e-9] (3 / 4) = .ok [501] ∧ confinedStep square 2 [1, 1, 1, 1] [1] [1e-9] (3 / 4) = .ok [501] ∧
    diagonalsOk square [1, 1, 1, 1] [501] = .ok false ∧ confinedDiagonalsOk square 2 [1, 1, 1, 1] [501] = .ok false := by
  have hbad : ¬ ∀ t ∈ square.triangles, Closes [1, 1, 1, 1] [501] t := by
    intro h
    have := h ⟨⟨true, 0⟩, ⟨false, 0⟩, ⟨false, 1⟩, none, none⟩ (by simp [square])
    unfold Closes lengthOf at this
    simp at this
    norm_num at this
  have hb : bounds square [1, 1, 1, 1] [1] [1e-9] = .ok (1e12, -1e12) := by
    obtain ⟨x, a, b⟩ := bounds_ok square_proper (el := [1, 1, 1, 1]) (dl := [1]) (dv := [1e-9]) rfl rfl rfl
    have hr : ∀ t ∈ square.triangles, ∀ q ∈ sides t, ¬ 1e-8 ≤ |rate [1e-9] q| := by
      intro t ht q hq
      simp only [square, List.mem_cons, List.not_mem_nil, or_false] at ht
      rcases ht with rfl | rfl <;> simp only [sides, List.mem_cons, List.not_mem_nil, or_false] at hq <;>
        rcases hq with rfl | rfl | rfl <;> (unfold rate rateOf; simp; norm_num [abs_of_pos])
    have b' : ∀ s, (x.2 ≤ s ∧ s ≤ x.1) ↔ |s| ≤ 1e12 := by
      intro s
      rw [b s]
      exact ⟨fun h => h.1, fun h => ⟨h, fun t ht q hq hh => absurd hh (hr t ht q hq)⟩⟩
    have p1 := (b' 1e12).mpr (by rw [abs_of_pos (by norm_num)])
    have p2 := (b' (-1e12)).mpr (by rw [abs_neg, abs_of_pos (by norm_num)])
    have p3 := abs_le.mp ((b' x.1).mp ⟨p1.1.trans p1.2, le_refl _⟩)
    have p4 := abs_le.mp ((b' x.2).mp ⟨le_refl _, p1.1.trans p1.2⟩)
    rw [a]
    have q1 : x.1 = 1e12 := le_antisymm p3.2 p1.2
    have q2 : x.2 = -1e12 := le_antisymm p2.1 p4.1
    exact congrArg Except.ok (Prod.ext q1 q2)
  refine ⟨?_, ?_, ?_, ?_⟩
  · unfold mpStep
    rw [hb, ok_bind]
    unfold shift flat
    norm_num
  · unfold confinedStep
    rw [hb, ok_bind]
    unfold confine
    rw [if_neg (by norm_num [abs_of_pos])]
    unfold confine shift flat
    norm_num
  · obtain ⟨r, e, h⟩ := C96_diagonals_ok square_proper (el := [1, 1, 1, 1]) (dl := [501]) rfl rfl
    rw [e]
    cases r
    · rfl
    · exact absurd (h.mp rfl) hbad
  · obtain ⟨r, e, h⟩ := C96_confined_diagonals_ok square_proper (R := 2) (el := [1, 1, 1, 1]) (dl := [501]) rfl rfl
    rw [e]
    cases r
    · rfl
    · exact absurd (h.mp rfl).1 hbad

end Plc.Embed
