import Verif.Proofs.Embed
import Verif.Proofs.Locate
import Mathlib.Analysis.SpecialFunctions.Trigonometric.Angle

/-! # Dihedral angles: lemmas -/

namespace Plc.Embed

open Plc.Core Plc.FindCrossings Plc.RandomPolygon Plc.Equilateral Plc.Motions Plc.Measure Plc.Tri

/-! ## The angle -/

theorem cramer (a b c v : V3) : V3.scale (a.dot (b.crossProd c)) v =
    add (V3.scale (v.dot (b.crossProd c)) a) (add (V3.scale (v.dot (c.crossProd a)) b) (V3.scale (v.dot (a.crossProd b)) c)) := by
  refine V3.ext' ?_ ?_ ?_ <;> simp only [V3.scale, V3.dot, V3.crossProd, add] <;> ring

/-- A vector across `e` in the frame of `n` and `n × e`. -/
theorem frame {n e m : V3} (hn : n.dot n = 1) (he : e.dot e = 1) (h : n.dot e = 0) (hm : m.dot e = 0) :
    m = lincomb (m.dot n) n (m.dot (n.crossProd e)) (n.crossProd e) := by
  have h1 := cramer n e (n.crossProd e) m
  have h2 : e.crossProd (n.crossProd e) = n := cross_cross he h
  have h3 : (n.crossProd e).crossProd n = e := by
    simp only [V3.dot, V3.crossProd] at *
    refine V3.ext' ?_ ?_ ?_ <;> simp only
    · linear_combination e.x * hn - n.x * h
    · linear_combination e.y * hn - n.y * h
    · linear_combination e.z * hn - n.z * h
  rw [h2, h3, hn, hm] at h1
  have a1 := congrArg V3.x h1
  have a2 := congrArg V3.y h1
  have a3 := congrArg V3.z h1
  simp only [V3.scale, add] at a1 a2 a3
  refine V3.ext' ?_ ?_ ?_ <;> simp only [lincomb, add, V3.scale] <;> linarith

theorem scale_scale (a b : ℝ) (v : V3) : V3.scale a (V3.scale b v) = V3.scale (a * b) v := by
  refine V3.ext' ?_ ?_ ?_ <;> simp only [V3.scale] <;> ring

theorem scale_one (v : V3) : V3.scale 1 v = v := by
  refine V3.ext' ?_ ?_ ?_ <;> simp only [V3.scale] <;> ring

theorem normal_ok {A B C n : V3} {h : ℝ} (hh : eps ≤ h) (hn : n.dot n = 1) (hc : (B.sub A).crossProd (C.sub A) = V3.scale h n) :
    normal A B C = .ok (n, true) := by
  have h0 : h ≠ 0 := (lt_of_lt_of_le eps_pos hh).ne'
  unfold normal
  rw [hc]
  have : (V3.scale h n).dot (V3.scale h n) = h ^ 2 := by
    have : (V3.scale h n).dot (V3.scale h n) = h ^ 2 * n.dot n := by simp only [V3.scale, V3.dot]; ring
    rw [this, hn, mul_one]
  rw [(normalizeF_ok hh this).1, scale_scale]
  rw [one_div, inv_mul_cancel₀ h0, scale_one]

/-- The angle between unit vectors. -/
theorem angle_unit {a b : V3} (ha : a.dot a = 1) (hb : b.dot b = 1) :
    (angle a b).2 = true ∧ Real.cos (angle a b).1 = a.dot b ∧ Real.sin (angle a b).1 = Real.sqrt (1 - (a.dot b) ^ 2) ∧ 0 ≤ (angle a b).1 ∧ (angle a b).1 ≤ Real.pi := by
  have hl : (a.x * b.y - a.y * b.x) ^ 2 + (a.x * b.z - a.z * b.x) ^ 2 + (a.y * b.z - a.z * b.y) ^ 2 = 1 - (a.dot b) ^ 2 := by
    have : (a.x * b.y - a.y * b.x) ^ 2 + (a.x * b.z - a.z * b.x) ^ 2 + (a.y * b.z - a.z * b.y) ^ 2 = a.dot a * b.dot b - (a.dot b) ^ 2 := by
      simp only [V3.dot]; ring
    rw [this, ha, hb]; ring
  have h0 : 0 ≤ 1 - (a.dot b) ^ 2 := by rw [← hl]; positivity
  obtain ⟨L, hL⟩ : ∃ L, L = Real.sqrt (1 - (a.dot b) ^ 2) := ⟨_, rfl⟩
  have hL0 : 0 ≤ L := by rw [hL]; exact Real.sqrt_nonneg _
  have hLsq : L ^ 2 = 1 - (a.dot b) ^ 2 := by rw [hL]; exact Real.sq_sqrt h0
  have hno : ‖(⟨a.dot b, L⟩ : ℂ)‖ = 1 := by rw [norm_mk, hLsq, add_sub_cancel, Real.sqrt_one]
  have hne : (⟨a.dot b, L⟩ : ℂ) ≠ 0 := by intro h; rw [h, norm_zero] at hno; norm_num at hno
  unfold angle atan2
  dsimp only
  rw [hl, ← hL]
  refine ⟨?_, ?_, ?_, ?_, Complex.arg_le_pi _⟩
  · rw [decide_eq_true_iff]
    by_contra hc
    simp only [not_or, not_lt] at hc
    have c1 : L ^ 2 ≤ (1e-12 : ℝ) ^ 2 := by rw [← sq_abs]; exact pow_le_pow_left₀ (abs_nonneg _) hc.1 2
    have c2 : (a.dot b) ^ 2 ≤ (1e-12 : ℝ) ^ 2 := by rw [← sq_abs]; exact pow_le_pow_left₀ (abs_nonneg _) hc.2 2
    norm_num at c1 c2
    linarith
  · rw [Complex.cos_arg hne, hno, div_one]
  · rw [Complex.sin_arg, hno, div_one]
  · exact Complex.arg_nonneg_iff.mpr hL0

theorem turn_unique {a b : ℝ} (a0 : 0 ≤ a) (a1 : a < 2 * Real.pi) (b0 : 0 ≤ b) (b1 : b < 2 * Real.pi) (hc : Real.cos a = Real.cos b) (hs : Real.sin a = Real.sin b) :
    a = b := by
  have h := Real.Angle.cos_sin_inj hc hs
  obtain ⟨k, hk⟩ := Real.Angle.angle_eq_iff_two_pi_dvd_sub.mp h
  have hp := Real.pi_pos
  have k1 : k < 1 := by
    by_contra hc
    have : (1 : ℝ) ≤ k := by exact_mod_cast not_lt.mp hc
    nlinarith
  have k2 : -1 < k := by
    by_contra hc
    have : (k : ℝ) ≤ -1 := by exact_mod_cast not_lt.mp hc
    nlinarith
  have k0 : k = 0 := by omega
  rw [k0] at hk
  norm_num at hk
  linarith

/-- What `plc_dihedral_angle` gives, in terms of the normals. -/
theorem dihedral_core {A B C D n m : V3} {h1 h2 d : ℝ} (hn : n.dot n = 1) (hm : m.dot m = 1) (e1 : eps ≤ h1) (e2 : eps ≤ h2) (hd : 1e-8 ≤ d)
    (c1 : (B.sub A).crossProd (C.sub A) = V3.scale h1 n) (c2 : (C.sub A).crossProd (D.sub A) = V3.scale h2 m) (hCA : (C.sub A).dot (C.sub A) = d ^ 2) :
    ∃ theta, dihedralAngle A B C D = .ok (theta, true) ∧ 0 ≤ theta ∧ theta < 2 * Real.pi ∧ m = tilt (theta - Real.pi) n (V3.scale (1 / d) (C.sub A)) := by
  have d0 : 0 < d := lt_of_lt_of_le (by norm_num) hd
  have h10 : 0 < h1 := lt_of_lt_of_le eps_pos e1
  have h20 : 0 < h2 := lt_of_lt_of_le eps_pos e2
  obtain ⟨e, ee⟩ : ∃ e, e = V3.scale (1 / d) (C.sub A) := ⟨_, rfl⟩
  have hCe : C.sub A = V3.scale d e := by rw [ee, scale_scale, mul_one_div, div_self d0.ne', scale_one]
  have he : e.dot e = 1 := by
    have : d ^ 2 * e.dot e = (C.sub A).dot (C.sub A) := by
      rw [hCe]; simp only [V3.scale, V3.dot]; ring
    rw [hCA] at this
    have h2 : d ^ 2 ≠ 0 := by positivity
    exact mul_left_cancel₀ h2 (by rw [this, mul_one])
  have hne : n.dot e = 0 := by
    have h := cross_dot_right (B.sub A) (C.sub A)
    rw [c1, hCe] at h
    have : (V3.scale h1 n).dot (V3.scale d e) = (h1 * d) * n.dot e := by simp only [V3.scale, V3.dot]; ring
    rw [this] at h
    rcases mul_eq_zero.mp h with h | h
    · exact absurd h (by positivity)
    · exact h
  have hme : m.dot e = 0 := by
    have h := cross_dot_left (C.sub A) (D.sub A)
    rw [c2, hCe] at h
    have : (V3.scale h2 m).dot (V3.scale d e) = (h2 * d) * m.dot e := by simp only [V3.scale, V3.dot]; ring
    rw [this] at h
    rcases mul_eq_zero.mp h with h | h
    · exact absurd h (by positivity)
    · exact h
  have hfr := frame hn he hne hme
  obtain ⟨S, eS⟩ : ∃ S, S = m.dot (n.crossProd e) := ⟨_, rfl⟩
  rw [← eS] at hfr
  have hDS : (n.dot m) ^ 2 + S ^ 2 = 1 := by
    have h := hm
    rw [hfr, dot_lin, dot_comm' n, dot_comm' (n.crossProd e), dot_lin, dot_lin, hn, cross_dot_left, dot_comm' n, cross_dot_left, cross_unit hn he hne] at h
    rw [dot_comm' n m]
    linarith
  obtain ⟨g1, g2, g3, g4, g5⟩ := angle_unit hn hm
  have hsq : 1 - (n.dot m) ^ 2 = S ^ 2 := by linarith
  rw [hsq, Real.sqrt_sq_eq_abs] at g3
  obtain ⟨an, ean⟩ : ∃ x, x = (angle n m).1 := ⟨_, rfl⟩
  rw [← ean] at g2 g3 g4 g5
  have hsign : (n.crossProd (C.sub A)).dot m = d * S := by
    rw [eS, hCe, dot_comm' m]; simp only [V3.scale, V3.dot, V3.crossProd]; ring
  have hno : norm3 (C.sub A) = d := by rw [norm3_dot, hCA, Real.sqrt_sq d0.le]
  have hcode : dihedralAngle A B C D = if d * S > 0 then .ok (an + Real.pi, true) else .ok (Real.pi - an, true) := by
    unfold dihedralAngle
    rw [normal_ok e1 hn c1, normal_ok e2 hm c2]
    simp only
    rw [if_neg (by rw [hno]; linarith), g1, hsign, ← ean]
    rfl
  have hp := Real.pi_pos
  rw [← ee, hcode]
  by_cases hS : 0 < S
  · rw [if_pos (by positivity)]
    rw [abs_of_pos hS] at g3
    refine ⟨_, rfl, by linarith, ?_, ?_⟩
    · rcases eq_or_lt_of_le g5 with h | h
      · rw [h, Real.sin_pi] at g3; linarith
      · linarith
    · unfold tilt
      rw [add_sub_cancel_right, g2, g3, dot_comm' n m]
      exact hfr
  · rw [if_neg (by intro h; exact hS (by by_contra hc; nlinarith))]
    rw [abs_of_nonpos (not_lt.mp hS)] at g3
    refine ⟨_, rfl, by linarith, by linarith, ?_⟩
    unfold tilt
    rw [show Real.pi - an - Real.pi = -an by ring, Real.cos_neg, Real.sin_neg, g2, g3, dot_comm' n m, neg_neg]
    exact hfr

/-- The angle of the fold is given back. -/
theorem fold_angle {p0 p1 pa q n m : V3} {theta h1 h2 d : ℝ} (hs : Step p0 p1 q n m theta) (t0 : 0 ≤ theta) (t1 : theta < 2 * Real.pi)
    (hd : 1e-8 ≤ d) (hp : apart p0 p1 = d) (e1 : eps ≤ h1) (c1 : (pa.sub p1).crossProd (p0.sub p1) = V3.scale h1 n) (e2 : eps ≤ h2)
    (c2 : (p0.sub p1).crossProd (q.sub p1) = V3.scale h2 m) : m.dot m = 1 ∧ dihedralAngle p1 pa p0 q = .ok (theta, true) := by
  have d0 : 0 < d := lt_of_lt_of_le (by norm_num) hd
  have hdot := (apart_sq_dot d0.le).mp hp
  obtain ⟨_, hf1⟩ := normalizeF_ok (le_trans eps_lt.le hd) hdot
  have hnf : n.dot (V3.scale (1 / d) (p0.sub p1)) = 0 := by
    have : n.dot (V3.scale (1 / d) (p0.sub p1)) = (1 / d) * n.dot (p0.sub p1) := by simp only [V3.dot, V3.scale]; ring
    rw [this, hs.flat]; ring
  have ht := hs.tilted
  rw [hp] at ht
  have hm : m.dot m = 1 := by rw [ht]; exact tilt_unit hs.unit hf1 hnf
  refine ⟨hm, ?_⟩
  obtain ⟨th, k1, k2, k3, k4⟩ := dihedral_core hs.unit hm e1 e2 hd c1 c2 hdot
  rw [k1]
  obtain ⟨f, ef⟩ : ∃ f, f = V3.scale (1 / d) (p0.sub p1) := ⟨_, rfl⟩
  rw [← ef] at ht k4 hf1 hnf
  have q1 : ∀ phi, (tilt phi n f).dot n = Real.cos phi := by
    intro phi; unfold tilt; rw [dot_lin, hs.unit, cross_dot_left]; ring
  have q2 : ∀ phi, (tilt phi n f).dot (n.crossProd f) = Real.sin phi := by
    intro phi; unfold tilt; rw [dot_lin, cross_unit hs.unit hf1 hnf, dot_comm' n, cross_dot_left]; ring
  have hc : Real.cos (th - Real.pi) = Real.cos (theta - Real.pi) := by rw [← q1, ← q1, ← k4, ← ht]
  have hsn : Real.sin (th - Real.pi) = Real.sin (theta - Real.pi) := by rw [← q2, ← q2, ← k4, ← ht]
  rw [Real.cos_sub_pi, Real.cos_sub_pi] at hc
  rw [Real.sin_sub_pi, Real.sin_sub_pi] at hsn
  rw [turn_unique k2 k3 t0 t1 (by linarith) (by linarith)]

/-! ## All diagonals -/

/-- One side of `tsmcmc_compute_dihedrals_worker`. -/
def branch (T : Triangulation) (f : Nat) (t : Triangle) (first : Bool) (s : Option Nat) (c : CRef) (ds : List Dihedral) : Res (List Dihedral) :=
  match s with
  | none => .ok ds
  | some s => do
    assertC c.diag
    let d ← rd T.triangles s
    let e ← entry T t d first
    let ds ← wr ds c.num e
    dihedralsWorker T f s ds

theorem worker_branch (T : Triangulation) (f tri : Nat) (ds : List Dihedral) : dihedralsWorker T (f + 1) tri ds = (do
    let t ← rd T.triangles tri
    let ds ← branch T f t true t.t0 t.d0 ds
    branch T f t false t.t1 t.d1 ds) := rfl

/-- The entry for diagonal `k` gives its angle. -/
def Good (vt : List V3) (da : List ℝ) (k : Nat) (e : Dihedral) : Prop :=
  ∃ A B C D theta, vt[e.a1]? = some A ∧ vt[e.a2]? = some B ∧ vt[e.a0]? = some C ∧ vt[e.b2]? = some D ∧ da[k]? = some theta ∧
    dihedralAngle A B C D = .ok (theta, true)

theorem area_cross {p0 p1 q : V3} {A B C : ℝ} (hA : apart p0 q = A) (hB : apart q p1 = B) (hC : apart p0 p1 = C) :
    ((p0.sub p1).crossProd (q.sub p1)).dot ((p0.sub p1).crossProd (q.sub p1)) = area4 A B C := by
  have a1 := (apart_sq_dot (by rw [← hA]; exact apart_nonneg _ _)).mp hA
  have b1 := (apart_sq_dot (by rw [← hB]; exact apart_nonneg _ _)).mp hB
  have c1 := (apart_sq_dot (by rw [← hC]; exact apart_nonneg _ _)).mp hC
  unfold area4
  rw [← a1, ← b1, ← c1]
  simp only [V3.dot, V3.sub, V3.crossProd]; ring

theorem height_le {v m : V3} {h : ℝ} (h0 : 0 ≤ h) (hm : m.dot m = 1) (hv : v = V3.scale h m) (hr : eps ^ 2 ≤ v.dot v) : eps ≤ h := by
  have : v.dot v = h ^ 2 := by
    rw [hv]
    have : (V3.scale h m).dot (V3.scale h m) = h ^ 2 * m.dot m := by simp only [V3.scale, V3.dot]; ring
    rw [this, hm, mul_one]
  rw [this] at hr
  exact (pow_le_pow_iff_left₀ eps_pos.le h0 (by norm_num)).mp hr

theorem branch_ok {T : Triangulation} {el dl da : List ℝ} {vt : List V3} (hL : Sized T el dl) (hfat : ∀ t ∈ T.triangles,
    eps ^ 2 ≤ area4 (lengthOf el dl t.d0) (lengthOf el dl t.d1) (lengthOf el dl t.parent)) (hturn : ∀ x ∈ da, 0 ≤ x ∧ x < 2 * Real.pi)
    {c : CRef} {s : Option Nat} {u w : Nat} {xs : List Nat} {cs : List CRef} (h : Behind T c s u w xs cs) :
    ∀ (t : Triangle) (first : Bool) (ds : List Dihedral) (f a : Nat) (n p0 p1 pa : V3) (h1 : ℝ),
      (∀ (d : Triangle) (x y z : Nat), vertChord T true d.d1 = .ok x → vertChord T false d.d0 = .ok y → vertChord T true d.d0 = .ok z →
        entry T t d first = .ok ⟨u, w, a, x, y, z⟩) →
      vt[u]? = some p0 → vt[w]? = some p1 → vt[a]? = some pa → (pa.sub p1).crossProd (p0.sub p1) = V3.scale h1 n → eps ≤ h1 →
      Folded T da vt c s u w n → (∀ c' ∈ cs, Long T el dl vt c') → ds.length = T.diags.length → cs.Nodup → xs.length ≤ f →
      ∃ ds', branch T f t first s c ds = .ok ds' ∧ ds'.length = ds.length ∧ (∀ k, (⟨true, k⟩ : CRef) ∉ cs → ds'[k]? = ds[k]?) ∧
        ∀ k, (⟨true, k⟩ : CRef) ∈ cs → ∃ e, ds'[k]? = some e ∧ Good vt da k e := by
  induction h with
  | edge k u w h =>
    intro t first ds f a n p0 p1 pa h1 _ _ _ _ _ _ _ _ _ _ _
    refine ⟨ds, rfl, rfl, fun _ _ => rfl, ?_⟩
    intro k' hk'
    simp at hk'
  | diag k u v w s t xs ys cs1 cs2 g1 g2 g3 g4 g5 ih4 ih5 =>
    intro t' first ds f a n p0 p1 pa h1 hent v0 v1 va hc1 he1 hF hlong hlen hnd hfu
    rcases f with _ | f
    · simp at hfu
    simp only [List.length_append, List.length_cons] at hfu
    simp only [List.nodup_cons, List.mem_append, not_or, List.nodup_append] at hnd
    obtain ⟨⟨nk1, nk2⟩, nd1, nd2, hdis⟩ := hnd
    have hk : k < ds.length := by rw [hlen]; exact (List.getElem?_eq_some_iff.mp g1).1
    have l0 : Long T el dl vt ⟨true, k⟩ := hlong _ (by simp)
    cases hF with
    | diag _ _ v' _ _ _ m p0' p1' q theta t'' a1 a2 a3 a4 a5 a6 a7 a8 a9 =>
      rw [g2] at a1
      cases a1
      have hv : v' = v := by
        have := g4.ends
        rw [a5] at this
        simpa using this
      subst hv
      rw [v0] at a2
      cases a2
      rw [v1] at a3
      cases a3
      have gA : apart p0 q = lengthOf el dl t.d0 := by
        have hmem : ∀ {c s u w xs cs}, Behind T c s u w xs cs → c ∈ cs := by intro c s u w xs cs h; cases h <;> simp
        obtain ⟨x, y, b1, b2, b3⟩ := hlong t.d0 (by simp [hmem g4]) u v' g4.ends
        rw [v0] at b1; cases b1
        rw [a4] at b2; cases b2
        exact b3
      have gB : apart q p1 = lengthOf el dl t.d1 := by
        have hmem : ∀ {c s u w xs cs}, Behind T c s u w xs cs → c ∈ cs := by intro c s u w xs cs h; cases h <;> simp
        obtain ⟨x, y, b1, b2, b3⟩ := hlong t.d1 (by simp [hmem g5]) v' w g5.ends
        rw [a4] at b1; cases b1
        rw [v1] at b2; cases b2
        exact b3
      have gC : apart p0 p1 = lengthOf el dl t.parent := by
        obtain ⟨x, y, b1, b2, b3⟩ := l0 u w g1
        rw [v0] at b1; cases b1
        rw [v1] at b2; cases b2
        rw [g3]; exact b3
      have har := area_cross gA gB gC
      have hft := hfat t (List.mem_of_getElem? g2)
      rw [← har] at hft
      obtain ⟨h2, h20, hc2⟩ := a7.side
      have hd : 1e-8 ≤ lengthOf el dl t.parent := by rw [g3]; exact (length_ok hL (c := ⟨true, k⟩) g1).2
      have hm : m.dot m = 1 := by
        have hdot := (apart_sq_dot (by linarith)).mp gC
        obtain ⟨_, hf1⟩ := normalizeF_ok (le_trans eps_lt.le hd) hdot
        have ht := a7.tilted
        rw [gC] at ht
        rw [ht]
        refine tilt_unit a7.unit hf1 ?_
        have : n.dot (V3.scale (1 / lengthOf el dl t.parent) (p0.sub p1)) = (1 / lengthOf el dl t.parent) * n.dot (p0.sub p1) := by
          simp only [V3.dot, V3.scale]; ring
        rw [this, a7.flat]; ring
      have he2 : eps ≤ h2 := height_le h20 hm hc2 hft
      obtain ⟨th0, th1⟩ := hturn theta (List.mem_of_getElem? a6)
      obtain ⟨_, hang⟩ := fold_angle a7 th0 th1 hd gC he1 hc1 he2 hc2
      obtain ⟨x0, x1⟩ := vert_ends g4.ends
      obtain ⟨y0, y1⟩ := vert_ends g5.ends
      have hE := hent t w u v' y1 x0 x1
      obtain ⟨e, ee⟩ : ∃ e : Dihedral, e = ⟨u, w, a, w, u, v'⟩ := ⟨_, rfl⟩
      rw [← ee] at hE
      have hgood : Good vt da k e := by
        rw [ee]; exact ⟨p1, pa, p0, q, theta, v1, va, v0, a4, a6, hang⟩
      have hcyc : (p1.sub q).crossProd (p0.sub q) = V3.scale h2 m := by
        rw [← hc2]
        refine V3.ext' ?_ ?_ ?_ <;> simp only [V3.crossProd, V3.sub] <;> ring
      obtain ⟨ds1, r1, r2, r3, r4⟩ := ih4 t true (ds.set k e) f w m p0 q p1 h2
        (by
          intro d x y z i1 i2 i3
          unfold entry
          rw [y1, x0, x1, i1, i2, i3]; rfl)
        v0 a4 v1 hcyc he2 a8 (fun c' hc' => hlong c' (by simp [hc'])) (by rw [List.length_set]; exact hlen) nd1 (by omega)
      obtain ⟨ds2, q1, q2, q3, q4⟩ := ih5 t false ds1 f u m q p1 p0 h2
        (by
          intro d x y z i1 i2 i3
          unfold entry
          rw [y1, x0, x1, i1, i2, i3]; rfl)
        a4 v1 v0 hc2 he2 a9 (fun c' hc' => hlong c' (by simp [hc'])) (by rw [r2, List.length_set]; exact hlen) nd2 (by omega)
      refine ⟨ds2, ?_, by rw [q2, r2, List.length_set], ?_, ?_⟩
      · show (do
          assertC true
          let d ← rd T.triangles s
          let e ← entry T t' d first
          let ds ← wr ds k e
          dihedralsWorker T (f + 1) s ds) = _
        rw [show assertC true = .ok () from rfl, ok_bind, rd_eq_ok.mpr g2, ok_bind, hE, ok_bind, wr_lt hk, ok_bind, worker_branch, rd_eq_ok.mpr g2, ok_bind, r1, ok_bind]
        exact q1
      · intro k' hk'
        simp only [List.mem_cons, List.mem_append, not_or] at hk'
        obtain ⟨m1, m2, m3⟩ := hk'
        have : k ≠ k' := by intro h; exact m1 (by rw [h])
        rw [q3 k' m3, r3 k' m2, List.getElem?_set_ne this]
      · intro k' hk'
        rcases List.mem_cons.mp hk' with hk' | hk'
        · have : k' = k := by simpa using hk'
          subst this
          exact ⟨e, by rw [q3 k' nk2, r3 k' nk1, List.getElem?_set_self hk], hgood⟩
        · rcases List.mem_append.mp hk' with hk' | hk'
          · obtain ⟨e', e1, e2⟩ := r4 k' hk'
            refine ⟨e', ?_, e2⟩
            rw [q3 k' (fun h => hdis _ hk' _ h rfl)]
            exact e1
          · exact q4 k' hk'

theorem anglesLoop_ok {vt : List V3} : ∀ (ds : List Dihedral) (rs : List ℝ), ds.length = rs.length →
    (∀ (k : Nat) (e : Dihedral), ds[k]? = some e → Good vt rs k e) → anglesLoop vt ds = .ok (rs.map (fun x => (x, true)))
  | [], rs, hl, _ => by
    cases rs with
    | nil => rfl
    | cons => simp at hl
  | d :: ds, rs, hl, h => by
    cases rs with
    | nil => simp at hl
    | cons r rs =>
      obtain ⟨A, B, C, D, th, h1, h2, h3, h4, h5, h6⟩ := h 0 d rfl
      have e5 : r = th := by simpa using h5
      subst e5
      have ih := anglesLoop_ok (vt := vt) ds rs (by simpa using hl) (fun k e he => by
        obtain ⟨A, B, C, D, th, g1, g2, g3, g4, g5, g6⟩ := h (k + 1) e (by simpa using he)
        exact ⟨A, B, C, D, th, g1, g2, g3, g4, by simpa using g5, g6⟩)
      unfold anglesLoop
      rw [rd_eq_ok.mpr h1, rd_eq_ok.mpr h2, rd_eq_ok.mpr h3, rd_eq_ok.mpr h4, ok_bind, ok_bind, ok_bind, ok_bind, h6, ok_bind, ih, ok_bind]
      rfl

theorem computeDihedrals_ok {T : Triangulation} {el dl da : List ℝ} {vt : List V3} (hL : Sized T el dl) (hda : da.length = T.diags.length) (hfat : ∀ t ∈ T.triangles,
    eps ^ 2 ≤ area4 (lengthOf el dl t.d0) (lengthOf el dl t.d1) (lengthOf el dl t.parent)) (hturn : ∀ x ∈ da, 0 ≤ x ∧ x < 2 * Real.pi)
    (hc : T.triangles.length + 2 = T.edges.length)
    {t : Triangle} {a b c k : Nat} {xs ys : List Nat} {cs ds : List CRef} (ht : T.triangles[0]? = some t) (hp : t.parent = ⟨false, k⟩)
    (hk : T.edges[k]? = some (a, b)) (h0 : Behind T t.d0 t.t0 b c xs cs) (h1 : Behind T t.d1 t.t1 c a ys ds)
    (hnd : (a :: b :: (xs ++ c :: ys)).Nodup) (hall : ∀ i, i ∈ a :: b :: (xs ++ c :: ys) ↔ i < T.edges.length)
    (hcs : ((⟨false, k⟩ : CRef) :: (cs ++ ds)).Nodup) (hev : ∀ (c : CRef) (p : Chord), ends T c = some p → c ∈ (⟨false, k⟩ :: (cs ++ ds) : List CRef))
    (hlong : ∀ c' ∈ (⟨false, k⟩ :: (cs ++ ds) : List CRef), Long T el dl vt c') (hR : Root T da vt t a b c) :
    computeDihedrals T vt = .ok (da.map (fun x => (x, true))) := by
  have hlen : (a :: b :: (xs ++ c :: ys)).length = T.edges.length := by
    have hperm : (a :: b :: (xs ++ c :: ys)).Perm (List.range T.edges.length) := by
      rw [List.perm_ext_iff_of_nodup hnd List.nodup_range]
      intro i
      rw [hall i, List.mem_range]
    rw [hperm.length_eq, List.length_range]
  simp only [List.length_cons, List.length_append] at hlen
  obtain ⟨f, hf⟩ : ∃ f, T.triangles.length = f + 1 := by
    refine ⟨T.triangles.length - 1, ?_⟩
    have := (List.getElem?_eq_some_iff.mp ht).1
    omega
  obtain ⟨pa, pb, pc, h, va, vb, vc, hh, hcr⟩ := hR.normal
  have hmem : ∀ {c s u w xs cs}, Behind T c s u w xs cs → c ∈ cs := by intro c s u w xs cs h; cases h <;> simp
  have gA : apart pb pc = lengthOf el dl t.d0 := by
    obtain ⟨x, y, b1, b2, b3⟩ := hlong t.d0 (by simp [hmem h0]) b c h0.ends
    rw [vb] at b1; cases b1
    rw [vc] at b2; cases b2
    exact b3
  have gB : apart pc pa = lengthOf el dl t.d1 := by
    obtain ⟨x, y, b1, b2, b3⟩ := hlong t.d1 (by simp [hmem h1]) c a h1.ends
    rw [vc] at b1; cases b1
    rw [va] at b2; cases b2
    exact b3
  have gC : apart pb pa = lengthOf el dl t.parent := by
    obtain ⟨x, y, b1, b2, b3⟩ := hlong ⟨false, k⟩ (by simp) a b hk
    rw [va] at b1; cases b1
    rw [vb] at b2; cases b2
    rw [hp, apart_comm]; exact b3
  have hft := hfat t (List.mem_of_getElem? ht)
  rw [← area_cross gA gB gC] at hft
  have he : eps ≤ h := height_le hh (by simp [V3.dot]) hcr hft
  have hcyc : (pa.sub pc).crossProd (pb.sub pc) = V3.scale h ⟨0, 0, 1⟩ := by
    rw [← hcr]
    refine V3.ext' ?_ ?_ ?_ <;> simp only [V3.crossProd, V3.sub] <;> ring
  simp only [List.nodup_cons, List.mem_append, not_or, List.nodup_append] at hcs
  obtain ⟨_, nd1, nd2, hdis⟩ := hcs
  obtain ⟨x0, x1⟩ := vert_ends h0.ends
  obtain ⟨y0, y1⟩ := vert_ends h1.ends
  obtain ⟨init, hinit⟩ : ∃ l : List Dihedral, l = List.replicate T.diags.length ⟨0, 0, 0, 0, 0, 0⟩ := ⟨_, rfl⟩
  have li : init.length = T.diags.length := by rw [hinit]; simp
  obtain ⟨ds1, r1, r2, r3, r4⟩ := branch_ok (vt := vt) hL hfat hturn h0 t true init f a ⟨0, 0, 1⟩ pb pc pa h
    (by
      intro d x y z i1 i2 i3
      unfold entry
      rw [y1, x0, x1, i1, i2, i3]; rfl)
    vb vc va hcyc he hR.fold0 (fun c' hc' => hlong c' (by simp [hc'])) li nd1 (by omega)
  obtain ⟨ds2, q1, q2, q3, q4⟩ := branch_ok (vt := vt) hL hfat hturn h1 t false ds1 f b ⟨0, 0, 1⟩ pc pa pb h
    (by
      intro d x y z i1 i2 i3
      unfold entry
      rw [y1, x0, x1, i1, i2, i3]; rfl)
    vc va vb hcr he hR.fold1 (fun c' hc' => hlong c' (by simp [hc'])) (by rw [r2]; exact li) nd2 (by omega)
  unfold computeDihedrals
  rw [hf, worker_branch, rd_eq_ok.mpr ht, ok_bind, ← hinit, r1, ok_bind, q1, ok_bind]
  refine anglesLoop_ok ds2 da (by rw [q2, r2, li, hda]) ?_
  intro k' e hk'
  have hlt := (List.getElem?_eq_some_iff.mp hk').1
  rw [q2, r2, li] at hlt
  have hin := hev ⟨true, k'⟩ _ (List.getElem?_eq_getElem hlt : T.diags[k']? = some _)
  rcases List.mem_cons.mp hin with hin | hin
  · simp at hin
  · rcases List.mem_append.mp hin with hin | hin
    · obtain ⟨e', e1, e2⟩ := r4 k' hin
      rw [q3 k' (fun h => hdis _ hin _ h rfl), e1] at hk'
      cases hk'
      exact e2
    · obtain ⟨e', e1, e2⟩ := q4 k' hin
      rw [e1] at hk'
      cases hk'
      exact e2

/-- Every triangle is behind one of the two sides, or it is the root. -/
theorem Behind.triangles {T : Triangulation} {el dl : List ℝ} {c : CRef} {s : Option Nat} {u w : Nat} {xs : List Nat} {cs : List CRef} (h : Behind T c s u w xs cs) :
    ∃ ss : List Nat, ss.length = xs.length ∧ (∀ i ∈ ss, ∃ t k, T.triangles[i]? = some t ∧ t.parent = ⟨true, k⟩ ∧ (⟨true, k⟩ : CRef) ∈ cs) ∧
      (cs.Nodup → ss.Nodup) ∧ (Fits T el dl s ↔ ∀ i ∈ ss, ∀ t, T.triangles[i]? = some t → Closes el dl t) := by
  induction h with
  | edge k u w h => exact ⟨[], rfl, by simp, by simp, by simp; exact .edge⟩
  | diag k u v w s t xs ys cs1 cs2 g1 g2 g3 g4 g5 ih4 ih5 =>
    obtain ⟨s1, a1, a2, a3, a4⟩ := ih4
    obtain ⟨s2, b1, b2, b3, b4⟩ := ih5
    refine ⟨s :: (s1 ++ s2), by simp [a1, b1]; omega, ?_, ?_, ?_⟩
    · intro i hi
      rcases List.mem_cons.mp hi with rfl | hi
      · exact ⟨t, k, g2, g3, by simp⟩
      · rcases List.mem_append.mp hi with hi | hi
        · obtain ⟨t', k', h1, h2, h3⟩ := a2 i hi
          exact ⟨t', k', h1, h2, by simp [h3]⟩
        · obtain ⟨t', k', h1, h2, h3⟩ := b2 i hi
          exact ⟨t', k', h1, h2, by simp [h3]⟩
    · intro hnd
      simp only [List.nodup_cons, List.mem_append, not_or, List.nodup_append] at hnd ⊢
      obtain ⟨⟨n1, n2⟩, n3, n4, n5⟩ := hnd
      refine ⟨⟨fun h => ?_, fun h => ?_⟩, a3 n3, b3 n4, fun i hi j hj hij => ?_⟩
      · obtain ⟨t', k', h1, h2, h3⟩ := a2 s h
        rw [g2] at h1; cases h1
        rw [g3] at h2; cases h2
        exact n1 h3
      · obtain ⟨t', k', h1, h2, h3⟩ := b2 s h
        rw [g2] at h1; cases h1
        rw [g3] at h2; cases h2
        exact n2 h3
      · subst hij
        obtain ⟨t', k', h1, h2, h3⟩ := a2 i hi
        obtain ⟨t2, k2, h4, h5, h6⟩ := b2 i hj
        rw [h1] at h4; cases h4
        rw [h2] at h5; cases h5
        exact n5 _ h3 _ h6 rfl
    · constructor
      · intro hF i hi t' ht'
        cases hF with
        | diag _ t2 x1 x2 x3 x4 =>
          rw [g2] at x1; cases x1
          rcases List.mem_cons.mp hi with rfl | hi
          · rw [g2] at ht'; cases ht'; exact x2
          · rcases List.mem_append.mp hi with hi | hi
            · exact a4.mp x3 i hi t' ht'
            · exact b4.mp x4 i hi t' ht'
      · intro h
        exact .diag s t g2 (h s (by simp) t g2) (a4.mpr fun i hi => h i (by simp [hi])) (b4.mpr fun i hi => h i (by simp [hi]))

theorem closes_iff {T : Triangulation} {el dl : List ℝ} (hc : T.triangles.length + 2 = T.edges.length)
    {t : Triangle} {a b c k : Nat} {xs ys : List Nat} {cs ds : List CRef} (ht : T.triangles[0]? = some t) (hp : t.parent = ⟨false, k⟩)
    (h0 : Behind T t.d0 t.t0 b c xs cs) (h1 : Behind T t.d1 t.t1 c a ys ds)
    (hnd : (a :: b :: (xs ++ c :: ys)).Nodup) (hall : ∀ i, i ∈ a :: b :: (xs ++ c :: ys) ↔ i < T.edges.length)
    (hcs : ((⟨false, k⟩ : CRef) :: (cs ++ ds)).Nodup) :
    (Closes el dl t ∧ Fits T el dl t.t0 ∧ Fits T el dl t.t1) ↔ ∀ t ∈ T.triangles, Closes el dl t := by
  have hlen : (a :: b :: (xs ++ c :: ys)).length = T.edges.length := by
    have hperm : (a :: b :: (xs ++ c :: ys)).Perm (List.range T.edges.length) := by
      rw [List.perm_ext_iff_of_nodup hnd List.nodup_range]
      intro i
      rw [hall i, List.mem_range]
    rw [hperm.length_eq, List.length_range]
  simp only [List.length_cons, List.length_append] at hlen
  obtain ⟨s1, a1, a2, a3, a4⟩ := h0.triangles (el := el) (dl := dl)
  obtain ⟨s2, b1, b2, b3, b4⟩ := h1.triangles (el := el) (dl := dl)
  simp only [List.nodup_cons, List.mem_append, not_or, List.nodup_append] at hcs
  obtain ⟨_, n3, n4, n5⟩ := hcs
  constructor
  · rintro ⟨e1, e2, e3⟩ t' ht'
    obtain ⟨i, hi, hti⟩ := List.getElem_of_mem ht'
    have hti' : T.triangles[i]? = some t' := by rw [List.getElem?_eq_getElem hi, hti]
    have hnod : (0 :: (s1 ++ s2)).Nodup := by
      simp only [List.nodup_cons, List.mem_append, not_or, List.nodup_append]
      refine ⟨⟨fun h => ?_, fun h => ?_⟩, a3 n3, b3 n4, fun i hi j hj hij => ?_⟩
      · obtain ⟨t', k', h1, h2, h3⟩ := a2 0 h
        rw [ht] at h1; cases h1
        rw [hp] at h2; simp at h2
      · obtain ⟨t', k', h1, h2, h3⟩ := b2 0 h
        rw [ht] at h1; cases h1
        rw [hp] at h2; simp at h2
      · subst hij
        obtain ⟨t', k', h1, h2, h3⟩ := a2 i hi
        obtain ⟨t2, k2, h4, h5, h6⟩ := b2 i hj
        rw [h1] at h4; cases h4
        rw [h2] at h5; cases h5
        exact n5 _ h3 _ h6 rfl
    have hsub : (0 :: (s1 ++ s2)).Subset (List.range T.triangles.length) := by
      intro j hj
      rw [List.mem_range]
      rcases List.mem_cons.mp hj with rfl | hj
      · exact (List.getElem?_eq_some_iff.mp ht).1
      · rcases List.mem_append.mp hj with hj | hj
        · obtain ⟨_, _, h1, _⟩ := a2 j hj; exact (List.getElem?_eq_some_iff.mp h1).1
        · obtain ⟨_, _, h1, _⟩ := b2 j hj; exact (List.getElem?_eq_some_iff.mp h1).1
    have hperm : (0 :: (s1 ++ s2)).Perm (List.range T.triangles.length) := by
      refine (List.subperm_of_subset hnod hsub).perm_of_length_le ?_
      simp only [List.length_range, List.length_cons, List.length_append]; omega
    have hin : i ∈ 0 :: (s1 ++ s2) := hperm.mem_iff.mpr (List.mem_range.mpr hi)
    rcases List.mem_cons.mp hin with rfl | hin
    · rw [ht] at hti'; cases hti'; exact e1
    · rcases List.mem_append.mp hin with hin | hin
      · exact a4.mp e2 i hin t' hti'
      · exact b4.mp e3 i hin t' hti'
  · intro h
    exact ⟨h t (List.mem_of_getElem? ht), a4.mpr fun i _ t' ht' => h t' (List.mem_of_getElem? ht'), b4.mpr fun i _ t' ht' => h t' (List.mem_of_getElem? ht')⟩

/-! ## The meaning of the angle -/

theorem perp_cross {e p v : V3} {d h : ℝ} (d0 : d ≠ 0) (he : e.dot e = 1) (h1 : p.crossProd (V3.scale d e) = V3.scale h v) : perp e p = V3.scale (h / d) (e.crossProd v) := by
  have a1 := congrArg V3.x h1
  have a2 := congrArg V3.y h1
  have a3 := congrArg V3.z h1
  simp only [V3.crossProd, V3.scale, V3.dot] at a1 a2 a3 he
  unfold perp dotOf
  refine V3.ext' ?_ ?_ ?_ <;> simp only [V3.crossProd, V3.scale] <;> field_simp
  · linear_combination -d * p.x * he - e.z * a2 + e.y * a3
  · linear_combination -d * p.y * he - e.x * a3 + e.z * a1
  · linear_combination -d * p.z * he - e.y * a1 + e.x * a2

theorem folded_by {A B C D n m : V3} {h1 h2 d theta : ℝ} (hn : n.dot n = 1) (hm : m.dot m = 1) (h10 : 0 < h1) (h20 : 0 < h2) (d0 : 0 < d)
    (c1 : (B.sub A).crossProd (C.sub A) = V3.scale h1 n) (c2 : (C.sub A).crossProd (D.sub A) = V3.scale h2 m) (hd : apart C A = d)
    (t0 : 0 ≤ theta) (t1 : theta < 2 * Real.pi) (hne : n.dot (C.sub A) = 0) (hme : m.dot (C.sub A) = 0) (ht : m = tilt (theta - Real.pi) n (V3.scale (1 / d) (C.sub A))) :
    FoldedBy A B C D theta := by
  have hCA := (apart_sq_dot d0.le).mp hd
  have main : ∀ e : V3, C.sub A = V3.scale d e → dotOf (perp e (D.sub A)) (perp e (B.sub A)) =
      apart (perp e (D.sub A)) ⟨0, 0, 0⟩ * apart (perp e (B.sub A)) ⟨0, 0, 0⟩ * Real.cos theta ∧
      dotOf e (crossOf (perp e (D.sub A)) (perp e (B.sub A))) = apart (perp e (D.sub A)) ⟨0, 0, 0⟩ * apart (perp e (B.sub A)) ⟨0, 0, 0⟩ * Real.sin theta := by
    intro e hCe
    have he : e.dot e = 1 := by
      have : d ^ 2 * e.dot e = (C.sub A).dot (C.sub A) := by
        rw [hCe]; simp only [V3.scale, V3.dot]; ring
      rw [hCA] at this
      have h2 : d ^ 2 ≠ 0 := by positivity
      exact mul_left_cancel₀ h2 (by rw [this, mul_one])
    have hne' : n.dot e = 0 := by
      rw [hCe] at hne
      have : n.dot (V3.scale d e) = d * n.dot e := by simp only [V3.dot, V3.scale]; ring
      rw [this] at hne
      exact (mul_eq_zero.mp hne).resolve_left d0.ne'
    have hme' : m.dot e = 0 := by
      rw [hCe] at hme
      have : m.dot (V3.scale d e) = d * m.dot e := by simp only [V3.dot, V3.scale]; ring
      rw [this] at hme
      exact (mul_eq_zero.mp hme).resolve_left d0.ne'
    have hes : V3.scale (1 / d) (C.sub A) = e := by rw [hCe, scale_scale, one_div, inv_mul_cancel₀ d0.ne', scale_one]
    rw [hes] at ht
    have q1 : m.dot n = -Real.cos theta := by
      rw [ht]; unfold tilt; rw [dot_lin, hn, cross_dot_left, Real.cos_sub_pi]; ring
    have q2 : m.dot (n.crossProd e) = -Real.sin theta := by
      rw [ht]; unfold tilt; rw [dot_lin, cross_unit hn he hne', dot_comm' n, cross_dot_left, Real.sin_sub_pi]; ring
    have b1 : perp e (B.sub A) = V3.scale (h1 / d) (e.crossProd n) := by
      rw [hCe] at c1
      exact perp_cross d0.ne' he c1
    have b2 : perp e (D.sub A) = V3.scale (-h2 / d) (e.crossProd m) := by
      rw [hCe] at c2
      refine perp_cross d0.ne' he ?_
      have a1 := congrArg V3.x c2
      have a2 := congrArg V3.y c2
      have a3 := congrArg V3.z c2
      simp only [V3.crossProd, V3.scale] at a1 a2 a3
      refine V3.ext' ?_ ?_ ?_ <;> simp only [V3.crossProd, V3.scale] <;> linarith
    have size : ∀ {x : V3} {r : ℝ}, x.dot x = 1 → x.dot e = 0 → apart (V3.scale r (e.crossProd x)) ⟨0, 0, 0⟩ = |r| := by
      intro x r hx hxe
      rw [apart_sq_dot (abs_nonneg _), sq_abs]
      have := cross_unit he hx (by rw [dot_comm']; exact hxe)
      have e2 : ((V3.scale r (e.crossProd x)).sub ⟨0, 0, 0⟩).dot ((V3.scale r (e.crossProd x)).sub ⟨0, 0, 0⟩) = r ^ 2 * (e.crossProd x).dot (e.crossProd x) := by
        simp only [V3.sub, V3.dot, V3.scale]; ring
      rw [e2, this, mul_one]
    rw [b1, b2, size hm hme', size hn hne']
    have r1 : |h1 / d| = h1 / d := abs_of_pos (by positivity)
    have r2 : |-h2 / d| = h2 / d := by rw [neg_div, abs_neg]; exact abs_of_pos (by positivity)
    rw [r1, r2]
    have x1 : dotOf (V3.scale (-h2 / d) (e.crossProd m)) (V3.scale (h1 / d) (e.crossProd n)) = -(h2 / d) * (h1 / d) * (e.dot e * m.dot n - n.dot e * m.dot e) := by
      simp only [dotOf, V3.scale, V3.crossProd, V3.dot]; ring
    have x2 : dotOf e (crossOf (V3.scale (-h2 / d) (e.crossProd m)) (V3.scale (h1 / d) (e.crossProd n))) = -(h2 / d) * (h1 / d) * (e.dot e * m.dot (n.crossProd e)) := by
      simp only [dotOf, crossOf, V3.scale, V3.crossProd, V3.dot]; ring
    rw [x1, x2, he, q1, q2, hne', hme']
    constructor <;> ring
  exact ⟨⟨t0, t1⟩, fun e he => (main e (by rw [← hd]; exact he)).1, fun e he => (main e (by rw [← hd]; exact he)).2⟩

end Plc.Embed
