import Verif.Spec.Embed
import Verif.Proofs.Motions
import Verif.Proofs.Measure

/-! # Polygons from lengths and dihedral angles: lemmas -/

namespace Plc.Embed

open Plc.Core Plc.FindCrossings Plc.RandomPolygon Plc.Equilateral Plc.Motions Plc.Measure Plc.Tri

/-! ## Vectors -/

theorem cross_unit {a b : V3} (ha : a.dot a = 1) (hb : b.dot b = 1) (h : a.dot b = 0) : (a.crossProd b).dot (a.crossProd b) = 1 := by
  have : (a.crossProd b).dot (a.crossProd b) = a.dot a * b.dot b - (a.dot b) ^ 2 := by
    simp only [V3.dot, V3.crossProd]; ring
  rw [this, ha, hb, h]; ring

theorem cross_dot_left (a b : V3) : (a.crossProd b).dot a = 0 := by simp only [V3.dot, V3.crossProd]; ring

theorem cross_dot_right (a b : V3) : (a.crossProd b).dot b = 0 := by simp only [V3.dot, V3.crossProd]; ring

theorem cross_cross {a b : V3} (hb : b.dot b = 1) (h : a.dot b = 0) : b.crossProd (a.crossProd b) = a := by
  simp only [V3.dot, V3.crossProd] at *
  refine V3.ext' ?_ ?_ ?_ <;> simp only
  · linear_combination a.x * hb - b.x * h
  · linear_combination a.y * hb - b.y * h
  · linear_combination a.z * hb - b.z * h

/-- The normal of the next triangle, as a combination. -/
noncomputable def tilt (phi : ℝ) (n f : V3) : V3 := lincomb (Real.cos phi) n (Real.sin phi) (n.crossProd f)

theorem dot_lin (a b : ℝ) (A B C : V3) : (lincomb a A b B).dot C = a * A.dot C + b * B.dot C := by
  simp only [lincomb, add, V3.scale, V3.dot]; ring

theorem dot_comm' (a b : V3) : a.dot b = b.dot a := by simp only [V3.dot]; ring

theorem tilt_unit {phi : ℝ} {n f : V3} (hn : n.dot n = 1) (hf : f.dot f = 1) (h : n.dot f = 0) : (tilt phi n f).dot (tilt phi n f) = 1 := by
  unfold tilt
  rw [dot_lin, dot_comm' n, dot_comm' (n.crossProd f), dot_lin, dot_lin, hn, cross_dot_left, dot_comm' n, cross_dot_left, cross_unit hn hf h]
  have := Real.sin_sq_add_cos_sq phi
  linear_combination this

theorem tilt_perp {phi : ℝ} {n f : V3} (h : n.dot f = 0) : (tilt phi n f).dot f = 0 := by
  unfold tilt
  rw [dot_lin, h, cross_dot_right]; ring

theorem norm3_dot (a : V3) : norm3 a = Real.sqrt (a.dot a) := rfl

theorem norm3_one {a : V3} (h : a.dot a = 1) : norm3 a = 1 := by rw [norm3_dot, h, Real.sqrt_one]

theorem apart_dot (a b : V3) : apart a b = Real.sqrt ((a.sub b).dot (a.sub b)) := by
  unfold apart distSq V3.dot V3.sub
  congr 1; simp only; ring

theorem apart_sq_dot {a b : V3} {d : ℝ} (h0 : 0 ≤ d) : apart a b = d ↔ (a.sub b).dot (a.sub b) = d ^ 2 := by
  rw [apart_dot]
  have h1 : 0 ≤ (a.sub b).dot (a.sub b) := by simp only [V3.dot]; nlinarith [sq_nonneg (a.sub b).x, sq_nonneg (a.sub b).y, sq_nonneg (a.sub b).z]
  constructor
  · intro h; rw [← h, Real.sq_sqrt h1]
  · intro h; rw [h, Real.sqrt_sq h0]

theorem eps_lt : eps < 1e-8 := by unfold eps; norm_num

theorem eps_pos : 0 < eps := by unfold eps; positivity

/-- A vector longer than `eps` is normalised. -/
theorem normalizeF_ok {v : V3} {d : ℝ} (hd : eps ≤ d) (h : v.dot v = d ^ 2) :
    normalizeF v = .ok (V3.scale (1 / d) v, true) ∧ (V3.scale (1 / d) v).dot (V3.scale (1 / d) v) = 1 := by
  have hd0 : 0 < d := lt_of_lt_of_le eps_pos hd
  have hn : norm3 v = d := by rw [norm3_dot, h, Real.sqrt_sq hd0.le]
  constructor
  · unfold normalizeF Equilateral.normalize divC
    rw [hn, if_neg hd0.ne', ok_bind, ok_bind, decide_eq_false (by intro h; linarith [h.1])]
    rfl
  · have : (V3.scale (1 / d) v).dot (V3.scale (1 / d) v) = v.dot v / d ^ 2 := by
      simp only [V3.scale, V3.dot]; field_simp
    rw [this, h]; field_simp

/-! ## One triangle -/

/-- The law of cosines is usable. -/
theorem fromLengths_ok {A B C : ℝ} (hA : 1e-8 ≤ A) (hB : 1e-8 ≤ B) (hC : 1e-8 ≤ C) (h1 : C ≤ A + B) (h2 : A ≤ B + C) (h3 : B ≤ C + A) :
    ∃ x y, fromLengths A B C = some (⟨0, 0, 0⟩, ⟨C, 0, 0⟩, ⟨x, y, 0⟩) ∧ 0 ≤ y ∧ x ^ 2 + y ^ 2 = B ^ 2 ∧ (x - C) ^ 2 + y ^ 2 = A ^ 2 := by
  have pA : (0 : ℝ) < A := lt_of_lt_of_le (by norm_num) hA
  have pB : (0 : ℝ) < B := lt_of_lt_of_le (by norm_num) hB
  have pC : (0 : ℝ) < C := lt_of_lt_of_le (by norm_num) hC
  obtain ⟨z, hz⟩ : ∃ z, z = (B * B + C * C - A * A) / (2 * B * C) := ⟨_, rfl⟩
  have hz' : z * (2 * B * C) = B * B + C * C - A * A := by rw [hz]; field_simp
  have hBC : 0 < 2 * B * C := by positivity
  have z1 : z ≤ 1 := by
    by_contra hc
    have : 2 * B * C < z * (2 * B * C) := by nlinarith
    nlinarith
  have z2 : -1 ≤ z := by
    by_contra hc
    have : z * (2 * B * C) < -(2 * B * C) := by nlinarith
    nlinarith
  refine ⟨B * Real.cos (Real.arccos z), B * Real.sin (Real.arccos z), ?_, ?_, ?_, ?_⟩
  · unfold fromLengths
    rw [if_neg (by rintro (h | h | h) <;> linarith), if_neg (by rintro (h | h | h) <;> linarith), if_neg (by rintro ⟨h, _, _⟩; linarith),
      if_neg (by linarith), if_neg (by linarith), if_neg (by linarith), ← hz]
  · exact mul_nonneg pB.le (Real.sin_nonneg_of_nonneg_of_le_pi (Real.arccos_nonneg z) (Real.arccos_le_pi z))
  · have := Real.sin_sq_add_cos_sq (Real.arccos z)
    linear_combination B ^ 2 * this
  · have := Real.sin_sq_add_cos_sq (Real.arccos z)
    rw [Real.cos_arccos z2 z1] at *
    linear_combination B ^ 2 * this - hz'

/-- How a triangle is put at the chord from `p0` to `p1`: `n` is the normal on the near side, `m` that of the new triangle. -/
structure Step (p0 p1 q n m : V3) (theta : ℝ) : Prop where
  unit : n.dot n = 1
  flat : n.dot (p0.sub p1) = 0
  tilted : m = tilt (theta - Real.pi) n (V3.scale (1 / apart p0 p1) (p0.sub p1))
  side : ∃ h, 0 ≤ h ∧ (p0.sub p1).crossProd (q.sub p1) = V3.scale h m

theorem vert_ends {T : Triangulation} {c : CRef} {u w : Nat} (h : ends T c = some (u, w)) :
    vertChord T false c = .ok u ∧ vertChord T true c = .ok w := by
  unfold ends at h
  unfold vertChord
  rcases hc : c.diag with _ | _
  · rw [hc] at h
    simp only [Bool.false_eq_true, if_false] at h ⊢
    have hlt := (List.getElem?_eq_some_iff.mp h).1
    have : rd T.edges c.num = .ok (u, w) := rd_eq_ok.mpr h
    rw [this]
    simp [assertC, hlt.le, ok_bind]
  · rw [hc] at h
    simp only [if_true] at h ⊢
    have hlt := (List.getElem?_eq_some_iff.mp h).1
    have : rd T.diags c.num = .ok (u, w) := rd_eq_ok.mpr h
    rw [this]
    simp [assertC, hlt.le, ok_bind]

theorem Behind.ends {T : Triangulation} {c : CRef} {s : Option Nat} {u w : Nat} {xs : List Nat} {cs : List CRef} (h : Behind T c s u w xs cs) :
    ends T c = some (u, w) := by
  cases h with
  | edge k u w h => exact h
  | diag k u v w s t xs ys cs ds h => exact h

theorem length_ok {T : Triangulation} {el dl : List ℝ} (hL : Sized T el dl) {c : CRef} {p : Chord} (h : ends T c = some p) :
    chordLength dl el c = .ok (lengthOf el dl c) ∧ 1e-8 ≤ lengthOf el dl c := by
  unfold Plc.Embed.ends at h
  unfold chordLength lengthOf
  rcases hc : c.diag with _ | _
  · rw [hc] at h
    simp only [Bool.false_eq_true, if_false] at h ⊢
    have hlt := (List.getElem?_eq_some_iff.mp h).1
    rw [← hL.edges] at hlt
    rw [List.getElem?_eq_getElem hlt, rd_lt hlt]
    exact ⟨rfl, hL.long _ (.inl (List.getElem_mem hlt))⟩
  · rw [hc] at h
    simp only [if_true] at h ⊢
    have hlt := (List.getElem?_eq_some_iff.mp h).1
    rw [← hL.diags] at hlt
    rw [List.getElem?_eq_getElem hlt, rd_lt hlt]
    exact ⟨rfl, hL.long _ (.inr (List.getElem_mem hlt))⟩

theorem place_ok {T : Triangulation} {el dl da : List ℝ} (hL : Sized T el dl) {t : Triangle} {k u v w : Nat} {theta : ℝ} {n p0 p1 : V3} {vt : List V3}
    (ht : Closes el dl t) (hp : t.parent = ⟨true, k⟩) (e : ends T ⟨true, k⟩ = some (u, w)) (e0 : ends T t.d0 = some (u, v)) (e1 : ends T t.d1 = some (v, w))
    (hda : da[k]? = some theta) (h0 : vt[u]? = some p0) (h1 : vt[w]? = some p1) (hv : v < vt.length)
    (hd : apart p0 p1 = lengthOf el dl ⟨true, k⟩) (hn : n.dot n = 1) (hf : n.dot (p0.sub p1) = 0) :
    ∃ m q, place T el dl da t n vt = .ok (some (m, vt.set v q)) ∧ Step p0 p1 q n m theta ∧ m.dot m = 1 ∧ m.dot (p0.sub q) = 0 ∧ m.dot (q.sub p1) = 0 ∧
      apart p0 q = lengthOf el dl t.d0 ∧ apart q p1 = lengthOf el dl t.d1 := by
  obtain ⟨lA, hA⟩ := length_ok hL e0
  obtain ⟨lB, hB⟩ := length_ok hL e1
  obtain ⟨lC, hC⟩ := length_ok hL e
  obtain ⟨tr1, tr2, tr3⟩ := ht
  rw [hp] at tr1 tr2 tr3
  obtain ⟨A, eA⟩ : ∃ A, A = lengthOf el dl t.d0 := ⟨_, rfl⟩
  obtain ⟨B, eB⟩ : ∃ B, B = lengthOf el dl t.d1 := ⟨_, rfl⟩
  obtain ⟨C, eC⟩ : ∃ C, C = lengthOf el dl ⟨true, k⟩ := ⟨_, rfl⟩
  rw [← eA] at lA hA tr1 tr2 tr3 ⊢
  rw [← eB] at lB hB tr1 tr2 tr3 ⊢
  rw [← eC] at lC hC tr1 tr2 tr3 hd
  have pC : (0 : ℝ) < C := lt_of_lt_of_le (by norm_num) hC
  have pA : (0 : ℝ) < A := lt_of_lt_of_le (by norm_num) hA
  have pB : (0 : ℝ) < B := lt_of_lt_of_le (by norm_num) hB
  have hdot := (apart_sq_dot pC.le).mp hd
  obtain ⟨nf, hf1⟩ := normalizeF_ok (le_trans eps_lt.le hC) hdot
  obtain ⟨f, ef⟩ : ∃ f, f = V3.scale (1 / C) (p0.sub p1) := ⟨_, rfl⟩
  rw [← ef] at nf hf1
  have hpf : p0.sub p1 = V3.scale C f := by
    rw [ef]
    refine V3.ext' ?_ ?_ ?_ <;> simp only [V3.scale] <;> field_simp
  have hnf : n.dot f = 0 := by
    rw [ef]
    have : n.dot (V3.scale (1 / C) (p0.sub p1)) = (1 / C) * n.dot (p0.sub p1) := by simp only [V3.dot, V3.scale]; ring
    rw [this, hf]; ring
  obtain ⟨x, y, hfl, hy, hx1, hx2⟩ := fromLengths_ok hA hB hC tr1 tr2 tr3
  obtain ⟨m, em⟩ : ∃ m, m = tilt (theta - Real.pi) n f := ⟨_, rfl⟩
  have hm1 : m.dot m = 1 := by rw [em]; exact tilt_unit hn hf1 hnf
  have hmf : m.dot f = 0 := by rw [em]; exact tilt_perp hnf
  have hg1 := cross_unit hm1 hf1 hmf
  have hgf := cross_dot_right m f
  have hgm := cross_dot_left m f
  have hfg := cross_cross hf1 hmf
  obtain ⟨g, eg⟩ : ∃ g, g = m.crossProd f := ⟨_, rfl⟩
  rw [← eg] at hg1 hgf hgm hfg
  obtain ⟨q, eq⟩ : ∃ q, q = add p1 (lincomb x f y g) := ⟨_, rfl⟩
  have hq1 : q.sub p1 = lincomb x f y g := by
    rw [eq]
    refine V3.ext' ?_ ?_ ?_ <;> simp only [V3.sub, add] <;> ring
  have hq0 : p0.sub q = lincomb (C - x) f (-y) g := by
    have a1 := congrArg V3.x hpf
    have a2 := congrArg V3.y hpf
    have a3 := congrArg V3.z hpf
    rw [eq]
    simp only [V3.sub, V3.scale] at a1 a2 a3
    refine V3.ext' ?_ ?_ ?_ <;> simp only [V3.sub, add, lincomb, V3.scale] <;> linarith
  refine ⟨m, q, ?_, ⟨hn, hf, ?_, C * y, by positivity, ?_⟩, hm1, ?_, ?_, ?_, ?_⟩
  · unfold place
    rw [if_neg (by rw [norm3_one hn]; norm_num), hp, (vert_ends e).1, (vert_ends e).2, ok_bind, ok_bind, rd_eq_ok.mpr h0, rd_eq_ok.mpr h1, ok_bind, ok_bind,
      nf, ok_bind]
    simp only
    have hnn : nextNormal da t n f true = .ok (some m) := by
      unfold nextNormal
      rw [hp]
      simp only [Bool.not_true, Bool.false_eq_true, if_false]
      rw [if_neg (by rw [norm3_one (cross_unit hn hf1 hnf)]; norm_num), rd_eq_ok.mpr hda, em]
      rfl
    rw [hnn, ok_bind]
    simp only
    rw [lA, lB, lC, ok_bind, ok_bind, ok_bind, hfl]
    simp only
    rw [(vert_ends e0).2, ok_bind, wr_lt hv, ok_bind, ← eg, ← eq]
  · rw [em, hd, ef]
  · rw [hq1, hpf, ← hfg]
    refine V3.ext' ?_ ?_ ?_ <;> simp only [V3.crossProd, lincomb, add, V3.scale] <;> ring
  · rw [hq0, dot_comm', dot_lin, dot_comm' f, hmf, hgm]; ring
  · rw [hq1, dot_comm', dot_lin, dot_comm' f, hmf, hgm]; ring
  · rw [apart_sq_dot pA.le, hq0, dot_lin, dot_comm' f, dot_comm' g, dot_lin, dot_lin, hf1, hg1, hgf, dot_comm' f, hgf]
    linear_combination hx2
  · rw [apart_sq_dot pB.le, hq1, dot_lin, dot_comm' f, dot_comm' g, dot_lin, dot_lin, hf1, hg1, hgf, dot_comm' f, hgf]
    linear_combination hx1

theorem fromLengths_none {A B C : ℝ} (h : ¬ (C ≤ A + B ∧ A ≤ B + C ∧ B ≤ C + A)) : fromLengths A B C = none := by
  unfold fromLengths
  by_cases h1 : A < 0 ∨ B < 0 ∨ C < 0
  · rw [if_pos h1]
  · rw [if_neg h1, if_pos]
    by_contra hc
    simp only [not_or, not_lt] at hc
    exact h ⟨hc.1, hc.2.1, hc.2.2⟩

theorem place_none {T : Triangulation} {el dl da : List ℝ} (hL : Sized T el dl) {t : Triangle} {k u v w : Nat} {theta : ℝ} {n p0 p1 : V3} {vt : List V3}
    (ht : ¬ Closes el dl t) (hp : t.parent = ⟨true, k⟩) (e : ends T ⟨true, k⟩ = some (u, w)) (e0 : ends T t.d0 = some (u, v)) (e1 : ends T t.d1 = some (v, w))
    (hda : da[k]? = some theta) (h0 : vt[u]? = some p0) (h1 : vt[w]? = some p1)
    (hd : apart p0 p1 = lengthOf el dl ⟨true, k⟩) (hn : n.dot n = 1) (hf : n.dot (p0.sub p1) = 0) : place T el dl da t n vt = .ok none := by
  obtain ⟨lA, hA⟩ := length_ok hL e0
  obtain ⟨lB, hB⟩ := length_ok hL e1
  obtain ⟨lC, hC⟩ := length_ok hL e
  unfold Closes at ht
  rw [hp] at ht
  obtain ⟨C, eC⟩ : ∃ C, C = lengthOf el dl ⟨true, k⟩ := ⟨_, rfl⟩
  rw [← eC] at lC hC ht hd
  have pC : (0 : ℝ) < C := lt_of_lt_of_le (by norm_num) hC
  have hdot := (apart_sq_dot pC.le).mp hd
  obtain ⟨nf, hf1⟩ := normalizeF_ok (le_trans eps_lt.le hC) hdot
  obtain ⟨f, ef⟩ : ∃ f, f = V3.scale (1 / C) (p0.sub p1) := ⟨_, rfl⟩
  rw [← ef] at nf hf1
  have hnf : n.dot f = 0 := by
    rw [ef]
    have : n.dot (V3.scale (1 / C) (p0.sub p1)) = (1 / C) * n.dot (p0.sub p1) := by simp only [V3.dot, V3.scale]; ring
    rw [this, hf]; ring
  unfold place
  rw [if_neg (by rw [norm3_one hn]; norm_num), hp, (vert_ends e).1, (vert_ends e).2, ok_bind, ok_bind, rd_eq_ok.mpr h0, rd_eq_ok.mpr h1, ok_bind, ok_bind,
    nf, ok_bind]
  simp only
  have hnn : nextNormal da t n f true = .ok (some (tilt (theta - Real.pi) n f)) := by
    unfold nextNormal
    rw [hp]
    simp only [Bool.not_true, Bool.false_eq_true, if_false]
    rw [if_neg (by rw [norm3_one (cross_unit hn hf1 hnf)]; norm_num), rd_eq_ok.mpr hda]
    rfl
  rw [hnn, ok_bind]
  simp only
  rw [lA, lB, lC, ok_bind, ok_bind, ok_bind, fromLengths_none ht]

/-! ## The recursion -/

/-- The triangles behind a chord are put in place one after the other; `n` is the normal on the near side. -/
inductive Folded (T : Triangulation) (da : List ℝ) (vt : List V3) : CRef → Option Nat → Nat → Nat → V3 → Prop
  | edge (c : CRef) (u w : Nat) (n : V3) : Folded T da vt c none u w n
  | diag (k u v w s : Nat) (n m p0 p1 q : V3) (theta : ℝ) (t : Triangle) : T.triangles[s]? = some t → vt[u]? = some p0 → vt[w]? = some p1 →
      vt[v]? = some q → ends T t.d0 = some (u, v) → da[k]? = some theta → Step p0 p1 q n m theta → Folded T da vt t.d0 t.t0 u v m →
      Folded T da vt t.d1 t.t1 v w m → Folded T da vt ⟨true, k⟩ (some s) u w n

theorem Behind.mem {T : Triangulation} {c : CRef} {s : Option Nat} {u w : Nat} {xs : List Nat} {cs : List CRef} (h : Behind T c s u w xs cs) :
    ∀ c' ∈ cs, ∀ a b, Plc.Embed.ends T c' = some (a, b) → a ∈ u :: w :: xs ∧ b ∈ u :: w :: xs := by
  induction h with
  | edge k u w h =>
    intro c' hc a b hab
    rw [List.mem_singleton.mp hc] at hab
    have : some (u, w) = some (a, b) := h.symm.trans hab
    cases this
    simp
  | diag k u v w s t xs ys cs ds h1 h2 h3 h4 h5 ih4 ih5 =>
    intro c' hc a b hab
    rcases List.mem_cons.mp hc with rfl | hc
    · have : some (u, w) = some (a, b) := h1.symm.trans hab
      cases this
      simp
    · rcases List.mem_append.mp hc with hc | hc
      · obtain ⟨i1, i2⟩ := ih4 c' hc a b hab
        simp only [List.mem_cons, List.mem_append] at i1 i2 ⊢
        tauto
      · obtain ⟨i1, i2⟩ := ih5 c' hc a b hab
        simp only [List.mem_cons, List.mem_append] at i1 i2 ⊢
        tauto

theorem Folded.congr {T : Triangulation} {da : List ℝ} {vt vt' : List V3} {c : CRef} {s : Option Nat} {u w : Nat} {xs : List Nat} {cs : List CRef}
    (h : Behind T c s u w xs cs) : ∀ n, (∀ i ∈ u :: w :: xs, vt'[i]? = vt[i]?) → Folded T da vt c s u w n → Folded T da vt' c s u w n := by
  induction h with
  | edge k u w h => intro n _ _; exact .edge _ _ _ _
  | diag k u v w s t xs ys cs ds h1 h2 h3 h4 h5 ih4 ih5 =>
    intro n hi hf
    cases hf with
    | diag _ _ v' _ _ _ m p0 p1 q theta t' a1 a2 a3 a4 a5 a6 a7 a8 a9 =>
      rw [h2] at a1
      cases a1
      have hv : v' = v := by
        have := h4.ends
        rw [a5] at this
        simpa using this
      subst hv
      refine .diag _ _ v' _ _ _ m p0 p1 q theta t h2 ?_ ?_ ?_ a5 a6 a7 (ih4 m ?_ a8) (ih5 m ?_ a9)
      · rw [hi u (by simp)]; exact a2
      · rw [hi w (by simp)]; exact a3
      · rw [hi v' (by simp)]; exact a4
      · intro i h; apply hi; simp only [List.mem_cons, List.mem_append] at h ⊢; tauto
      · intro i h; apply hi; simp only [List.mem_cons, List.mem_append] at h ⊢; tauto

/-- The recursive call for a daughter, if there is one. -/
noncomputable def run (T : Triangulation) (el dl da : List ℝ) (f : Nat) (s : Option Nat) (n : V3) (vt : List V3) : Res (Option (List V3)) :=
  match s with
  | none => .ok (some vt)
  | some s => worker T el dl da f s n vt

/-- The chord has the length it should have. -/
def Long (T : Triangulation) (el dl : List ℝ) (vt : List V3) (c : CRef) : Prop :=
  ∀ a b, ends T c = some (a, b) → ∃ pa pb, vt[a]? = some pa ∧ vt[b]? = some pb ∧ apart pa pb = lengthOf el dl c

/-- The triangles behind a chord all close. -/
inductive Fits (T : Triangulation) (el dl : List ℝ) : Option Nat → Prop
  | edge : Fits T el dl none
  | diag (s : Nat) (t : Triangle) : T.triangles[s]? = some t → Closes el dl t → Fits T el dl t.t0 → Fits T el dl t.t1 → Fits T el dl (some s)

theorem run_ok {T : Triangulation} {el dl da : List ℝ} (hL : Sized T el dl) (hda : da.length = T.diags.length) {c : CRef} {s : Option Nat} {u w : Nat}
    {xs : List Nat} {cs : List CRef} (h : Behind T c s u w xs cs) :
    ∀ (vt : List V3) (n p0 p1 : V3) (f : Nat), vt[u]? = some p0 → vt[w]? = some p1 → apart p0 p1 = lengthOf el dl c → n.dot n = 1 →
      n.dot (p0.sub p1) = 0 → (u :: w :: xs).Nodup → (∀ x ∈ xs, x < vt.length) → xs.length ≤ f →
      (run T el dl da f s n vt = .ok none ∧ ¬ Fits T el dl s) ∨
      ∃ vt', run T el dl da f s n vt = .ok (some vt') ∧ vt'.length = vt.length ∧ (∀ i, i ∉ xs → vt'[i]? = vt[i]?) ∧
        (∀ c' ∈ cs, Long T el dl vt' c') ∧ Folded T da vt' c s u w n ∧ Fits T el dl s := by
  induction h with
  | edge k u w h =>
    intro vt n p0 p1 f h0 h1 hd hn hf _ _ _
    refine .inr ⟨vt, rfl, rfl, fun _ _ => rfl, ?_, .edge _ _ _ _, .edge⟩
    intro c' hc a b hab
    rw [List.mem_singleton.mp hc] at hab ⊢
    have : some (u, w) = some (a, b) := h.symm.trans hab
    cases this
    exact ⟨p0, p1, h0, h1, hd⟩
  | diag k u v w s t xs ys cs ds g1 g2 g3 g4 g5 ih4 ih5 =>
    intro vt n p0 p1 f h0 h1 hd hn hf hnd hlt hfu
    have hk : k < da.length := by rw [hda]; exact (List.getElem?_eq_some_iff.mp g1).1
    rcases f with _ | f
    · simp at hfu
    simp only [List.length_append, List.length_cons] at hfu
    simp only [List.nodup_cons, List.mem_cons, List.mem_append, List.nodup_append, not_or] at hnd
    obtain ⟨⟨nuw, nux, nuv, nuy⟩, ⟨nwx, nwv, nwy⟩, ndx, ⟨nvy, ndy⟩, hdis⟩ := hnd
    have hvx : v ∉ xs := fun h => hdis v h v (.inl rfl) rfl
    have hxy : ∀ x ∈ xs, x ∉ ys := fun x h h' => hdis x h x (.inr h') rfl
    have hv : v < vt.length := hlt v (by simp)
    have unw : ∀ f, worker T el dl da (f + 1) s n vt = (do
        let r ← place T el dl da t n vt
        match r with
        | none => .ok none
        | some (cn, vt) => do
          let r ← run T el dl da f t.t0 cn vt
          match r with
          | none => .ok none
          | some vt => run T el dl da f t.t1 cn vt) := by
      intro f
      conv_lhs => unfold worker
      rw [rd_eq_ok.mpr g2, ok_bind]
      rfl
    by_cases hcl : Closes el dl t
    swap
    · refine .inl ⟨?_, fun h => ?_⟩
      · show worker T el dl da (f + 1) s n vt = _
        rw [unw, place_none hL hcl g3 g1 g4.ends g5.ends (List.getElem?_eq_getElem hk) h0 h1 hd hn hf, ok_bind]
      · cases h with
        | diag _ t' q1 q2 _ _ => rw [g2] at q1; cases q1; exact hcl q2
    obtain ⟨m, q, e1, e2, e3, e4, e5, e6, e7⟩ := place_ok hL hcl g3 g1 g4.ends g5.ends (List.getElem?_eq_getElem hk) h0 h1 hv hd hn hf
    have u1 : (vt.set v q)[u]? = some p0 := by rw [List.getElem?_set_ne (fun h => nuv h.symm)]; exact h0
    have w1 : (vt.set v q)[w]? = some p1 := by rw [List.getElem?_set_ne (fun h => nwv h.symm)]; exact h1
    have v1 : (vt.set v q)[v]? = some q := by rw [List.getElem?_set_self hv]
    rcases ih4 (vt.set v q) m p0 q f u1 v1 e6 e3 e4
      (by simp only [List.nodup_cons, List.mem_cons, not_or]; exact ⟨⟨nuv, nux⟩, hvx, ndx⟩)
      (by intro x hx; rw [List.length_set]; exact hlt x (by simp [hx])) (by omega) with ⟨r1, r2⟩ | ⟨vt1, r1, r2, r3, r4, r5, r6⟩
    · refine .inl ⟨?_, fun h => ?_⟩
      · show worker T el dl da (f + 1) s n vt = _
        rw [unw, e1, ok_bind]
        simp only
        rw [r1, ok_bind]
      · cases h with
        | diag _ t' q1 _ q2 _ => rw [g2] at q1; cases q1; exact r2 q2
    rcases ih5 vt1 m q p1 f (by rw [r3 v hvx]; exact v1) (by rw [r3 w nwx]; exact w1) e7 e3 e5
      (by simp only [List.nodup_cons, List.mem_cons, not_or]; exact ⟨⟨fun h => nwv h.symm, nvy⟩, nwy, ndy⟩)
      (by intro x hx; rw [r2, List.length_set]; exact hlt x (by simp [hx])) (by omega) with ⟨q1, q2⟩ | ⟨vt2, q1, q2, q3, q4, q5, q6⟩
    · refine .inl ⟨?_, fun h => ?_⟩
      · show worker T el dl da (f + 1) s n vt = _
        rw [unw, e1, ok_bind]
        simp only
        rw [r1, ok_bind]
        exact q1
      · cases h with
        | diag _ t' x1 _ _ x2 => rw [g2] at x1; cases x1; exact q2 x2
    have key : ∀ i, i ∉ xs → i ≠ v → i ∉ ys → vt2[i]? = vt[i]? := by
      intro i i1 i2 i3
      rw [q3 i i3, r3 i i1, List.getElem?_set_ne (fun h => i2 h.symm)]
    have keep : ∀ i ∈ u :: v :: xs, vt2[i]? = vt1[i]? := by
      intro i hi
      refine q3 i ?_
      rcases List.mem_cons.mp hi with rfl | hi
      · exact nuy
      · rcases List.mem_cons.mp hi with rfl | hi
        · exact nvy
        · exact hxy i hi
    refine .inr ⟨vt2, ?_, by rw [q2, r2, List.length_set], ?_, ?_, ?_, .diag _ t g2 hcl r6 q6⟩
    · show worker T el dl da (f + 1) s n vt = _
      rw [unw, e1, ok_bind]
      simp only
      rw [r1, ok_bind]
      exact q1
    · intro i hi
      simp only [List.mem_append, List.mem_cons, not_or] at hi
      exact key i hi.1 hi.2.1 hi.2.2
    · intro c' hc
      rcases List.mem_cons.mp hc with rfl | hc
      · intro a b hab
        have : some (u, w) = some (a, b) := g1.symm.trans hab
        cases this
        exact ⟨p0, p1, by rw [key u nux nuv nuy]; exact h0, by rw [key w nwx nwv nwy]; exact h1, hd⟩
      · rcases List.mem_append.mp hc with hc | hc
        · intro a b hab
          obtain ⟨pa, pb, a1, a2, a3⟩ := r4 c' hc a b hab
          obtain ⟨ma, mb⟩ := g4.mem c' hc a b hab
          exact ⟨pa, pb, by rw [keep a ma]; exact a1, by rw [keep b mb]; exact a2, a3⟩
        · exact q4 c' hc
    · refine .diag k u v w s n m p0 p1 q _ t g2 (by rw [key u nux nuv nuy]; exact h0) (by rw [key w nwx nwv nwy]; exact h1) ?_ g4.ends
        (List.getElem?_eq_getElem hk) e2 (Folded.congr g4 m keep r5) q5
      rw [keep v (by simp), r3 v hvx]; exact v1

/-- The root triangle. -/
structure Root (T : Triangulation) (da : List ℝ) (vt : List V3) (t : Triangle) (a b c : Nat) : Prop where
  normal : ∃ (pa pb pc : V3) (h : ℝ), vt[a]? = some pa ∧ vt[b]? = some pb ∧ vt[c]? = some pc ∧ 0 ≤ h ∧
    (pb.sub pa).crossProd (pc.sub pa) = V3.scale h ⟨0, 0, 1⟩
  fold0 : Folded T da vt t.d0 t.t0 b c ⟨0, 0, 1⟩
  fold1 : Folded T da vt t.d1 t.t1 c a ⟨0, 0, 1⟩

theorem embed_ok {T : Triangulation} {el dl da : List ℝ} (hL : Sized T el dl) (hda : da.length = T.diags.length) (hc : T.triangles.length + 2 = T.edges.length)
    {t : Triangle} {a b c k : Nat} {xs ys : List Nat} {cs ds : List CRef} (ht : T.triangles[0]? = some t) (hp : t.parent = ⟨false, k⟩)
    (hk : T.edges[k]? = some (a, b)) (h0 : Behind T t.d0 t.t0 b c xs cs) (h1 : Behind T t.d1 t.t1 c a ys ds)
    (hnd : (a :: b :: (xs ++ c :: ys)).Nodup) (hall : ∀ i, i ∈ a :: b :: (xs ++ c :: ys) ↔ i < T.edges.length) :
    (embed T el dl da = .ok none ∧ ¬ (Closes el dl t ∧ Fits T el dl t.t0 ∧ Fits T el dl t.t1)) ∨
    ∃ vt, embed T el dl da = .ok (some vt) ∧ vt.length = T.edges.length ∧ (∀ c' ∈ (⟨false, k⟩ :: (cs ++ ds) : List CRef), Long T el dl vt c') ∧
      Root T da vt t a b c ∧ Closes el dl t ∧ Fits T el dl t.t0 ∧ Fits T el dl t.t1 := by
  have e : ends T ⟨false, k⟩ = some (a, b) := hk
  obtain ⟨lA, hA⟩ := length_ok hL h0.ends
  obtain ⟨lB, hB⟩ := length_ok hL h1.ends
  obtain ⟨lC, hC⟩ := length_ok hL e
  by_cases hclo : Closes el dl t
  swap
  · refine .inl ⟨?_, fun h => hclo h.1⟩
    have hclo' := hclo
    unfold Closes at hclo'
    rw [hp] at hclo'
    unfold embed
    rw [rd_eq_ok.mpr ht, ok_bind, hp, (vert_ends e).1, (vert_ends e).2, (vert_ends h0.ends).2, ok_bind, ok_bind, ok_bind, lA, lB, lC, ok_bind, ok_bind, ok_bind,
      fromLengths_none hclo']
  obtain ⟨tr1, tr2, tr3⟩ := id hclo
  rw [hp] at tr1 tr2 tr3
  obtain ⟨x, y, hfl, hy, hx1, hx2⟩ := fromLengths_ok hA hB hC tr1 tr2 tr3
  have hlen : (a :: b :: (xs ++ c :: ys)).length = T.edges.length := by
    have hperm : (a :: b :: (xs ++ c :: ys)).Perm (List.range T.edges.length) := by
      rw [List.perm_ext_iff_of_nodup hnd List.nodup_range]
      intro i
      rw [hall i, List.mem_range]
    rw [hperm.length_eq, List.length_range]
  simp only [List.length_cons, List.length_append] at hlen
  have ha : a < T.edges.length := (hall a).mp (by simp)
  have hb : b < T.edges.length := (hall b).mp (by simp)
  have hcl : c < T.edges.length := (hall c).mp (by simp)
  simp only [List.nodup_cons, List.mem_cons, List.mem_append, List.nodup_append, not_or] at hnd
  obtain ⟨⟨nab, nax, nac, nay⟩, ⟨nbx, nbc, nby⟩, ndx, ⟨ncy, ndy⟩, hdis⟩ := hnd
  have hcx : c ∉ xs := fun h => hdis c h c (.inl rfl) rfl
  have hxy : ∀ x ∈ xs, x ∉ ys := fun x h h' => hdis x h x (.inr h') rfl
  obtain ⟨pC, epC⟩ : ∃ p : ℝ, p = lengthOf el dl ⟨false, k⟩ := ⟨_, rfl⟩
  rw [← epC] at hfl hx2 hC tr1 tr2 tr3 lC
  obtain ⟨vt0, hvt0⟩ : ∃ v : List V3, v = (((List.replicate T.edges.length (⟨0, 0, 0⟩ : V3)).set a ⟨0, 0, 0⟩).set b ⟨pC, 0, 0⟩).set c ⟨x, y, 0⟩ := ⟨_, rfl⟩
  have len0 : vt0.length = T.edges.length := by rw [hvt0]; simp
  have a0 : vt0[a]? = some ⟨0, 0, 0⟩ := by
    rw [hvt0, List.getElem?_set_ne (fun h => nac h.symm), List.getElem?_set_ne (fun h => nab h.symm), List.getElem?_set_self (by simpa using ha)]
  have b0 : vt0[b]? = some ⟨pC, 0, 0⟩ := by
    rw [hvt0, List.getElem?_set_ne (fun h => nbc h.symm), List.getElem?_set_self (by simpa using hb)]
  have c0 : vt0[c]? = some ⟨x, y, 0⟩ := by
    rw [hvt0, List.getElem?_set_self (by simpa using hcl)]
  have pA0 : 0 ≤ lengthOf el dl t.d0 := le_trans (by norm_num) hA
  have pB0 : 0 ≤ lengthOf el dl t.d1 := le_trans (by norm_num) hB
  have pC0 : 0 ≤ pC := le_trans (by norm_num) hC
  have unw : embed T el dl da = (do
      let r ← run T el dl da T.triangles.length t.t0 ⟨0, 0, 1⟩ vt0
      match r with
      | none => .ok none
      | some vt => run T el dl da T.triangles.length t.t1 ⟨0, 0, 1⟩ vt) := by
    unfold embed
    rw [rd_eq_ok.mpr ht, ok_bind, hp, (vert_ends e).1, (vert_ends e).2, (vert_ends h0.ends).2, ok_bind, ok_bind, ok_bind, lA, lB, lC, ok_bind, ok_bind, ok_bind, hfl]
    simp only
    rw [wr_lt (by simpa using ha), ok_bind, wr_lt (by simpa using hb), ok_bind, wr_lt (by simpa using hcl), ok_bind, ← hvt0]
    rfl
  rcases run_ok hL hda h0 vt0 ⟨0, 0, 1⟩ ⟨pC, 0, 0⟩ ⟨x, y, 0⟩ T.triangles.length b0 c0
    (by rw [apart_sq_dot pA0, ← hx2]; simp only [V3.sub, V3.dot]; ring) (by simp [V3.dot]) (by simp [V3.dot, V3.sub])
    (by simp only [List.nodup_cons, List.mem_cons, not_or]; exact ⟨⟨nbc, nbx⟩, hcx, ndx⟩)
    (by intro i hi; rw [len0]; exact (hall i).mp (by simp [hi])) (by omega) with ⟨r1, r2⟩ | ⟨vt1, r1, r2, r3, r4, r5, r6⟩
  · refine .inl ⟨?_, fun h => r2 h.2.1⟩
    rw [unw, r1, ok_bind]
  rcases run_ok hL hda h1 vt1 ⟨0, 0, 1⟩ ⟨x, y, 0⟩ ⟨0, 0, 0⟩ T.triangles.length (by rw [r3 c hcx]; exact c0) (by rw [r3 a nax]; exact a0)
    (by rw [apart_sq_dot pB0, ← hx1]; simp only [V3.sub, V3.dot]; ring) (by simp [V3.dot]) (by simp [V3.dot, V3.sub])
    (by simp only [List.nodup_cons, List.mem_cons, not_or]; exact ⟨⟨fun h => nac h.symm, ncy⟩, nay, ndy⟩)
    (by intro i hi; rw [r2, len0]; exact (hall i).mp (by simp [hi])) (by omega) with ⟨q1, q2⟩ | ⟨vt2, q1, q2, q3, q4, q5, q6⟩
  · refine .inl ⟨?_, fun h => q2 h.2.2⟩
    rw [unw, r1, ok_bind]
    exact q1
  have keep : ∀ i ∈ b :: c :: xs, vt2[i]? = vt1[i]? := by
    intro i hi
    refine q3 i ?_
    rcases List.mem_cons.mp hi with rfl | hi
    · exact nby
    · rcases List.mem_cons.mp hi with rfl | hi
      · exact ncy
      · exact hxy i hi
  have a2 : vt2[a]? = some ⟨0, 0, 0⟩ := by rw [q3 a nay, r3 a nax]; exact a0
  have b2 : vt2[b]? = some ⟨pC, 0, 0⟩ := by rw [keep b (by simp), r3 b nbx]; exact b0
  have c2 : vt2[c]? = some ⟨x, y, 0⟩ := by rw [keep c (by simp), r3 c hcx]; exact c0
  refine .inr ⟨vt2, ?_, by rw [q2, r2, len0], ?_, ⟨⟨_, _, _, pC * y, a2, b2, c2, by positivity, ?_⟩, Folded.congr h0 _ keep r5, q5⟩, hclo, r6, q6⟩
  · rw [unw, r1, ok_bind]
    exact q1
  · intro c' hc'
    rcases List.mem_cons.mp hc' with rfl | hc'
    · intro i j hij
      have : some (a, b) = some (i, j) := e.symm.trans hij
      cases this
      refine ⟨_, _, a2, b2, ?_⟩
      rw [← epC, apart_sq_dot pC0]
      simp only [V3.sub, V3.dot]; ring
    · rcases List.mem_append.mp hc' with hc' | hc'
      · intro i j hij
        obtain ⟨pi, pj, a1, a2, a3⟩ := r4 c' hc' i j hij
        obtain ⟨mi, mj⟩ := h0.mem c' hc' i j hij
        exact ⟨pi, pj, by rw [keep i mi]; exact a1, by rw [keep j mj]; exact a2, a3⟩
      · exact q4 c' hc'
  · refine V3.ext' ?_ ?_ ?_ <;> simp only [V3.crossProd, V3.sub, V3.scale] <;> ring

end Plc.Embed
