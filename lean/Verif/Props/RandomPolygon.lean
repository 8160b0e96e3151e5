import Verif.Proofs.RandomPolygon
import Verif.Proofs.Basic


/-! # C76: random polygons of the symmetric measure -/

namespace Plc

open Plc.Core Plc.FindCrossings Plc.RandomPolygon

namespace RandomPolygon

theorem length_toComplex : ∀ (n : Nat) (l : List ℝ), l.length = 2 * n → (toComplex l).length = n
  | 0, [], _ => rfl
  | n + 1, x :: y :: l, h => by
    rw [toComplex, List.length_cons, length_toComplex n l (by simp at h; omega)]
  | 0, x :: l, h => by simp at h
  | n + 1, [], h => by simp at h
  | n + 1, [x], h => by simp at h; omega

theorem length_evens : ∀ (n : Nat) (l : List ℝ), l.length = 2 * n → (evens l).length = n ∧ (odds l).length = n
  | 0, [], _ => ⟨rfl, rfl⟩
  | n + 1, x :: y :: l, h => by
    obtain ⟨h1, h2⟩ := length_evens n l (by simp at h; omega)
    rw [evens, odds, List.length_cons, List.length_cons, h1, h2]
    exact ⟨rfl, rfl⟩
  | 0, x :: l, h => by simp at h
  | n + 1, [], h => by simp at h
  | n + 1, [x], h => by simp at h; omega

theorem total_frame {A B : List ℂ} (hl : A.length = B.length) (h1 : hdot A A = 1) (h2 : hdot B B = 1) (h3 : hdot A B = 0) :
    total (edges A B) = ⟨0, 0, 0⟩ := by
  obtain ⟨s1, s2, s3⟩ := sum_edges A B hl
  unfold total
  rw [foldl_add, s1, s2, s3, h1, h2, h3]
  simp

theorem frameOk_true {A B : List ℂ} (h1 : hdot A A = 1) (h2 : hdot B B = 1) (h3 : hdot A B = 0) : frameOk A B = true := by
  unfold frameOk
  rw [h1, h2, h3]
  simp only [Complex.one_re, Complex.one_im, Complex.zero_re, Complex.zero_im, sub_self, abs_zero, Bool.and_eq_true, decide_eq_true_eq]
  norm_num

theorem closedFrom_ok (sc : Bool) {A B : List ℂ} (hl : A.length = B.length) (h0 : A ≠ []) :
    (frame A B = none ∧ closedFrom sc A B = .ok .nan) ∨
    ∃ A' B' e l, frame A B = some (A', B') ∧ edges A' B' = e :: l ∧ closedFrom sc A B = .ok (.curve (e :: path e l)) ∧
      (e :: path e l).length = A.length ∧ closedLength (e :: path e l) = 2 ∧ (e :: path e l).getLast (by simp) = ⟨0, 0, 0⟩ := by
  cases hf : frame A B with
  | none =>
    refine .inl ⟨rfl, ?_⟩
    unfold closedFrom
    rw [if_neg h0, hf]
  | some q =>
    obtain ⟨A', B'⟩ := q
    obtain ⟨f1, f2, f3, f4, f5⟩ := frame_some hl hf
    have hl' : A'.length = B'.length := by rw [f4, f5, hl]
    have ht := total_frame hl' f1 f2 f3
    have hlen : (edges A' B').length = A.length := by simp [edges, f4, f5, hl]
    cases he : edges A' B' with
    | nil =>
      rw [he] at hlen
      exact absurd (List.length_eq_zero_iff.mp hlen.symm) h0
    | cons e l =>
      rw [he] at hlen
      have ht' := ht
      rw [he] at ht'
      obtain ⟨c1, c2⟩ := closedLength_path e l ht'
      refine .inr ⟨A', B', e, l, rfl, he, ?_, by simpa [length_path] using hlen, ?_, c2⟩
      · unfold closedFrom
        rw [if_neg h0, hf]
        simp only
        have : norm3 (total (edges A' B')) = 0 := by rw [ht]; simp [norm3]
        rw [frameOk_true f1 f2 f3, this, assertC_ok (by cases sc <;> simp <;> norm_num), ok_bind, he]
      · rw [c1, ← he, length_edges A' B' hl']
        have g1 := f1
        have g2 := f2
        rw [hdot_self_re] at g1 g2
        have g1' : (A'.map Complex.normSq).sum = 1 := by exact_mod_cast g1
        have g2' : (B'.map Complex.normSq).sum = 1 := by exact_mod_cast g2
        rw [g1', g2']
        norm_num

end RandomPolygon

/-- **C76.** A random closed polygon has the requested number of vertices and length 2, the edge from the last vertex to the first one
included; the last vertex is the origin. -/
theorem C76_closed (sc : Bool) (n : Nat) (hn : 0 < n) (Araw Braw : List ℝ) (hA : Araw.length = 2 * n) (hB : Braw.length = 2 * n) (vs : List V3)
    (h : closedPolygon sc Araw Braw = .ok (.curve vs)) : vs.length = n ∧ closedLength vs = 2 ∧ vs.getLast? = some ⟨0, 0, 0⟩ := by
  have a := length_toComplex n _ hA
  have b := length_toComplex n _ hB
  have h0 : toComplex Araw ≠ [] := fun e => by rw [e] at a; simp at a; omega
  rcases closedFrom_ok sc (a.trans b.symm) h0 with ⟨-, e⟩ | ⟨A', B', e, l, -, -, e1, e2, e3, e4⟩
  · rw [closedPolygon, e] at h
    simp at h
  · rw [closedPolygon, e1] at h
    cases h
    exact ⟨by rw [e2, a], e3, by rw [List.getLast?_eq_getLast_of_ne_nil (by simp), e4]⟩

/-- It is made, and passes its own self check, whenever the two vectors of random numbers are linearly independent. -/
theorem C76_closed_made (sc : Bool) (n : Nat) (hn : 0 < n) (Araw Braw : List ℝ) (hA : Araw.length = 2 * n) (hB : Braw.length = 2 * n)
    (hI : Independent (toComplex Araw) (toComplex Braw)) : ∃ vs, closedPolygon sc Araw Braw = .ok (.curve vs) := by
  have a := length_toComplex n _ hA
  have b := length_toComplex n _ hB
  have h0 : toComplex Araw ≠ [] := fun e => by rw [e] at a; simp at a; omega
  rcases closedFrom_ok sc (a.trans b.symm) h0 with ⟨e, -⟩ | ⟨A', B', e, l, -, -, e1, -⟩
  · exact absurd hI (frame_none (a.trans b.symm) e)
  · exact ⟨_, e1⟩

/-- With one edge it is never made: the coordinates are not numbers, and the self check does not notice. -/
theorem C76_one_edge (sc : Bool) (Araw Braw : List ℝ) (hA : Araw.length = 2) (hB : Braw.length = 2) : closedPolygon sc Araw Braw = .ok .nan := by
  have a := length_toComplex 1 _ hA
  have b := length_toComplex 1 _ hB
  have h0 : toComplex Araw ≠ [] := fun e => by rw [e] at a; simp at a
  rcases closedFrom_ok sc (a.trans b.symm) h0 with ⟨-, e⟩ | ⟨A', B', e, l, e0, -⟩
  · exact e
  · exfalso
    obtain ⟨f1, f2, f3, f4, f5⟩ := frame_some (a.trans b.symm) e0
    rw [a] at f4
    rw [b] at f5
    obtain ⟨x, rfl⟩ := List.length_eq_one_iff.mp f4
    obtain ⟨y, rfl⟩ := List.length_eq_one_iff.mp f5
    rw [hdot_cons, hdot_nil, add_zero] at f1 f2 f3
    rcases mul_eq_zero.mp f3 with h | h
    · rw [h] at f1; simp at f1
    · rw [h] at f2; simp at f2

namespace RandomPolygon

/-- All entries are real numbers. -/
def AllReal (A : List ℂ) : Prop := ∀ a ∈ A, a.im = 0

theorem hdot_real : ∀ {A B : List ℂ}, AllReal A → AllReal B → (hdot A B).im = 0
  | [], B, _, _ => by simp [hdot]
  | a :: A, [], _, _ => by simp [hdot]
  | a :: A, b :: B, hA, hB => by
    rw [hdot_cons]
    have := hdot_real (A := A) (B := B) (fun x hx => hA x (List.mem_cons_of_mem _ hx)) (fun x hx => hB x (List.mem_cons_of_mem _ hx))
    simp [this, hA a (List.mem_cons_self ..), hB b (List.mem_cons_self ..)]

theorem cscale_real {A : List ℂ} (h : AllReal A) (r : ℝ) : AllReal (cscale (r : ℂ) A) := by
  intro a ha
  obtain ⟨b, hb, rfl⟩ := List.mem_map.mp ha
  simp [h b hb]

theorem minus_real (s : ℂ) (hs : s.im = 0) : ∀ {A B : List ℂ}, AllReal A → AllReal B → AllReal (List.zipWith (fun b a => b - s * a) B A)
  | [], [], _, _ => by intro a ha; simp at ha
  | [], b :: B, _, _ => by intro a ha; simp at ha
  | a :: A, [], _, _ => by intro a ha; simp at ha
  | a :: A, b :: B, hA, hB => by
    intro x hx
    rw [List.zipWith_cons_cons] at hx
    rcases List.mem_cons.mp hx with rfl | hx
    · simp [hs, hA a (List.mem_cons_self ..), hB b (List.mem_cons_self ..)]
    · exact minus_real s hs (fun x hx => hA x (List.mem_cons_of_mem _ hx)) (fun x hx => hB x (List.mem_cons_of_mem _ hx)) x hx

theorem frame_real {A B A' B' : List ℂ} (hA : AllReal A) (hB : AllReal B) (h : frame A B = some (A', B')) : AllReal A' ∧ AllReal B' := by
  unfold frame at h
  cases h1 : unit A with
  | none => rw [h1] at h; simp at h
  | some A1 =>
    rw [h1] at h
    simp only at h
    obtain ⟨-, -, r, -, hr⟩ := unit_some h1
    have r1 : AllReal A1 := by rw [hr]; exact cscale_real hA r
    cases h2 : unit (List.zipWith (fun b a => b - (starRingEnd ℂ) (hdot A1 B) * a) B A1) with
    | none => rw [h2] at h; simp at h
    | some B1 =>
      rw [h2] at h
      simp only [Option.some.injEq, Prod.mk.injEq] at h
      obtain ⟨rfl, rfl⟩ := h
      obtain ⟨-, -, r', -, hr'⟩ := unit_some h2
      refine ⟨r1, ?_⟩
      rw [hr']
      exact cscale_real (minus_real _ (by simp [hdot_real r1 hB]) r1 hB) r'

theorem edges_flat : ∀ {A B : List ℂ}, AllReal A → AllReal B → ∀ e ∈ edges A B, e.y = 0
  | [], _, _, _ => by simp [edges]
  | a :: A, [], _, _ => by simp [edges]
  | a :: A, b :: B, hA, hB => by
    intro e he
    rw [edges, List.zipWith_cons_cons] at he
    rcases List.mem_cons.mp he with rfl | he
    · simp [hopf, hA a (List.mem_cons_self ..), hB b (List.mem_cons_self ..)]
    · exact edges_flat (fun x hx => hA x (List.mem_cons_of_mem _ hx)) (fun x hx => hB x (List.mem_cons_of_mem _ hx)) e he

theorem path_flat : ∀ {p : V3} {es : List V3}, p.y = 0 → (∀ e ∈ es, e.y = 0) → ∀ v ∈ path p es, v.y = 0
  | _, [], _, _ => by simp [path]
  | p, e :: l, hp, he => by
    intro v hv
    have h1 : (add p e).y = 0 := by simp [add, hp, he e (List.mem_cons_self ..)]
    rw [path] at hv
    rcases List.mem_cons.mp hv with rfl | hv
    · exact h1
    · exact path_flat h1 (fun x hx => he x (List.mem_cons_of_mem _ hx)) v hv

theorem evens_real : ∀ l : List ℝ, AllReal (evens l) ∧ AllReal (odds l)
  | [] => ⟨by intro a h; simp [evens] at h, by intro a h; simp [odds] at h⟩
  | [x] => ⟨by intro a h; simp [evens] at h, by intro a h; simp [odds] at h⟩
  | x :: y :: l => by
    obtain ⟨h1, h2⟩ := evens_real l
    constructor
    · intro a ha
      rw [evens] at ha
      rcases List.mem_cons.mp ha with rfl | ha
      · simp
      · exact h1 a ha
    · intro a ha
      rw [odds] at ha
      rcases List.mem_cons.mp ha with rfl | ha
      · simp
      · exact h2 a ha

end RandomPolygon

/-- **C76.** A random closed plane polygon has, besides, all vertices in the plane y = 0. -/
theorem C76_closed_plane (sc : Bool) (n : Nat) (hn : 0 < n) (raw : List ℝ) (hr : raw.length = 2 * n) (vs : List V3)
    (h : closedPlane sc raw = .ok (.curve vs)) :
    vs.length = n ∧ closedLength vs = 2 ∧ vs.getLast? = some ⟨0, 0, 0⟩ ∧ ∀ v ∈ vs, v.y = 0 := by
  obtain ⟨a, b⟩ := length_evens n _ hr
  obtain ⟨r1, r2⟩ := evens_real raw
  have h0 : evens raw ≠ [] := fun e => by rw [e] at a; simp at a; omega
  rcases closedFrom_ok sc (a.trans b.symm) h0 with ⟨-, e⟩ | ⟨A', B', e, l, e0, ee, e1, e2, e3, e4⟩
  · rw [closedPlane, e] at h
    simp at h
  · rw [closedPlane, e1] at h
    cases h
    refine ⟨by rw [e2, a], e3, by rw [List.getLast?_eq_getLast_of_ne_nil (by simp), e4], ?_⟩
    obtain ⟨q1, q2⟩ := frame_real r1 r2 e0
    have hflat := edges_flat q1 q2
    rw [ee] at hflat
    intro v hv
    rcases List.mem_cons.mp hv with rfl | hv
    · exact hflat _ (List.mem_cons_self ..)
    · exact path_flat (hflat e (List.mem_cons_self ..)) (fun x hx => hflat x (List.mem_cons_of_mem _ hx)) v hv

namespace RandomPolygon

theorem openFrom_ok (sc : Bool) {A B : List ℂ} (hl : A.length = B.length) (h0 : A ≠ []) :
    ((∀ a ∈ A, a = 0) ∧ (∀ b ∈ B, b = 0) ∧ openFrom sc A B = .ok .nan) ∨
    ∃ r : ℝ, openFrom sc A B = .ok (.curve (⟨0, 0, 0⟩ :: path ⟨0, 0, 0⟩ (edges (cscale r A) (cscale r B)))) ∧
      openLength (⟨0, 0, 0⟩ :: path ⟨0, 0, 0⟩ (edges (cscale r A) (cscale r B))) = 2 := by
  have n1 := sum_normSq_nonneg A
  have n2 := sum_normSq_nonneg B
  have e1 : (hdot A A).re = (A.map Complex.normSq).sum := by rw [hdot_self_re]; simp
  have e2 : (hdot B B).re = (B.map Complex.normSq).sum := by rw [hdot_self_re]; simp
  by_cases hz : Real.sqrt ((hdot A A).re + (hdot B B).re) = 0
  · left
    have hz' := hz
    rw [e1, e2, Real.sqrt_eq_zero (by linarith)] at hz'
    refine ⟨sum_normSq_zero (by linarith), sum_normSq_zero (by linarith), ?_⟩
    unfold openFrom
    simp only
    rw [if_neg h0, if_pos hz]
  · right
    obtain ⟨q, hq⟩ : ∃ q, q = (A.map Complex.normSq).sum + (B.map Complex.normSq).sum := ⟨_, rfl⟩
    have hz' := hz
    rw [e1, e2, ← hq] at hz'
    have q0 : 0 ≤ q := by rw [hq]; linarith
    refine ⟨Real.sqrt 2 / Real.sqrt q, ?_, ?_⟩
    · have hcast : ((Real.sqrt 2 : ℝ) : ℂ) / ((Real.sqrt q : ℝ) : ℂ) = ((Real.sqrt 2 / Real.sqrt q : ℝ) : ℂ) := by push_cast; ring
      have key : ∀ X : List ℂ, hdot (cscale ((Real.sqrt 2 / Real.sqrt q : ℝ) : ℂ) X) (cscale ((Real.sqrt 2 / Real.sqrt q : ℝ) : ℂ) X) =
          ((2 / q * (X.map Complex.normSq).sum : ℝ) : ℂ) := by
        intro X
        rw [hdot_cscale_left, hdot_cscale_right, hdot_self_re, Complex.conj_ofReal, ← Complex.ofReal_mul, ← Complex.ofReal_mul]
        congr 1
        rw [← mul_assoc, div_mul_div_comm, Real.mul_self_sqrt (by norm_num), Real.mul_self_sqrt q0]
      unfold openFrom
      simp only
      rw [if_neg h0, if_neg hz, e1, e2, ← hq, hcast, key, key]
      have hq0 : q ≠ 0 := fun e => hz' (by rw [e, Real.sqrt_zero])
      rw [assertC_ok, ok_bind]
      simp only [Complex.ofReal_re, Complex.ofReal_im, abs_zero]
      have : 2 / q * (A.map Complex.normSq).sum + 2 / q * (B.map Complex.normSq).sum - 2 = 0 := by
        rw [← mul_add, ← hq]
        field_simp
        ring
      rw [this]
      cases sc <;> simp <;> norm_num
    · rw [openLength_path, length_edges _ _ (by simp [cscale, hl])]
      have hs : ∀ X : List ℂ, ((cscale ((Real.sqrt 2 / Real.sqrt q : ℝ) : ℂ) X).map Complex.normSq).sum = 2 / q * (X.map Complex.normSq).sum := by
        intro X
        induction X with
        | nil => simp [cscale]
        | cons x X ih =>
          simp only [cscale, List.map_cons, List.sum_cons] at ih ⊢
          rw [ih, Complex.normSq_mul, Complex.normSq_ofReal, div_mul_div_comm, Real.mul_self_sqrt (by norm_num), Real.mul_self_sqrt q0]
          ring
      have hq0 : q ≠ 0 := fun e => hz' (by rw [e, Real.sqrt_zero])
      rw [hs, hs, ← mul_add, ← hq]
      field_simp

end RandomPolygon

/-- **C76.** A random open polygon has one vertex more than edges, starts at the origin and has length 2. It is made unless all random
numbers are 0. -/
theorem C76_open (sc : Bool) (n : Nat) (hn : 0 < n) (Araw Braw : List ℝ) (hA : Araw.length = 2 * n) (hB : Braw.length = 2 * n) :
    (∀ vs, openPolygon sc Araw Braw = .ok (.curve vs) → vs.length = n + 1 ∧ openLength vs = 2 ∧ vs[0]? = some ⟨0, 0, 0⟩) ∧
    ((∃ a ∈ toComplex Araw, a ≠ 0) → ∃ vs, openPolygon sc Araw Braw = .ok (.curve vs)) := by
  have a := length_toComplex n _ hA
  have b := length_toComplex n _ hB
  have h0 : toComplex Araw ≠ [] := fun e => by rw [e] at a; simp at a; omega
  rcases openFrom_ok sc (a.trans b.symm) h0 with ⟨z1, z2, e⟩ | ⟨r, e1, e2⟩
  · refine ⟨fun vs h => ?_, fun ⟨x, hx, hne⟩ => absurd (z1 x hx) hne⟩
    rw [openPolygon, e] at h
    simp at h
  · refine ⟨fun vs h => ?_, fun _ => ⟨_, e1⟩⟩
    rw [openPolygon, e1] at h
    cases h
    exact ⟨by simp [length_path, edges, cscale, a, b], e2, rfl⟩

/-- **C76.** A random open plane polygon is, besides, in the plane y = 0. -/
theorem C76_open_plane (sc : Bool) (n : Nat) (hn : 0 < n) (raw : List ℝ) (hr : raw.length = 2 * n) (vs : List V3)
    (h : openPlane sc raw = .ok (.curve vs)) :
    vs.length = n + 1 ∧ openLength vs = 2 ∧ vs[0]? = some ⟨0, 0, 0⟩ ∧ ∀ v ∈ vs, v.y = 0 := by
  obtain ⟨a, b⟩ := length_evens n _ hr
  obtain ⟨r1, r2⟩ := evens_real raw
  have h0 : evens raw ≠ [] := fun e => by rw [e] at a; simp at a; omega
  rcases openFrom_ok sc (a.trans b.symm) h0 with ⟨-, -, e⟩ | ⟨r, e1, e2⟩
  · rw [openPlane, e] at h
    simp at h
  · rw [openPlane, e1] at h
    cases h
    refine ⟨by simp [length_path, edges, cscale, a, b], e2, rfl, ?_⟩
    intro v hv
    rcases List.mem_cons.mp hv with rfl | hv
    · rfl
    · exact path_flat rfl (edges_flat (cscale_real r1 r) (cscale_real r2 r)) v hv

namespace RandomPolygon

theorem sum_scaled (r : ℝ) (hr : 0 ≤ r) : ∀ A : List ℂ, ((cscale (Real.sqrt r : ℂ) A).map Complex.normSq).sum = r * (A.map Complex.normSq).sum
  | [] => by simp [cscale]
  | a :: A => by
    have ih := sum_scaled r hr A
    simp only [cscale, List.map_cons, List.sum_cons] at ih ⊢
    rw [ih, Complex.normSq_mul, Complex.normSq_ofReal, Real.mul_self_sqrt hr]
    ring

theorem norm3_scale (r : ℝ) (hr : 0 ≤ r) (v : V3) : norm3 (V3.scale r v) = r * norm3 v := by
  unfold norm3 V3.scale
  rw [show (r * v.x) * (r * v.x) + (r * v.y) * (r * v.y) + (r * v.z) * (r * v.z) = r ^ 2 * (v.x * v.x + v.y * v.y + v.z * v.z) by ring,
    Real.sqrt_mul (sq_nonneg r), Real.sqrt_sq hr]

theorem total_scaled (r : ℝ) (es : List V3) : total (es.map (V3.scale r)) = V3.scale r (total es) := by
  have h : ∀ f : V3 → ℝ, (∀ v, f (V3.scale r v) = r * f v) → ((es.map (V3.scale r)).map f).sum = r * (es.map f).sum := by
    intro f hf
    induction es with
    | nil => simp
    | cons e l ih => simp only [List.map_cons, List.sum_cons, ih, hf]; ring
  unfold total
  rw [foldl_add, foldl_add, h V3.x (fun _ => rfl), h V3.y (fun _ => rfl), h V3.z (fun _ => rfl)]
  simp [V3.scale]

theorem sum_norm_scaled (r : ℝ) (hr : 0 ≤ r) (es : List V3) : ((es.map (V3.scale r)).map norm3).sum = r * (es.map norm3).sum := by
  induction es with
  | nil => simp
  | cons e l ih => simp only [List.map_cons, List.sum_cons, ih, norm3_scale r hr]; ring

/-- The sum of the edges of a scaled frame. -/
theorem total_ftc {A B : List ℂ} (hl : A.length = B.length) (h1 : hdot A A = 1) (h2 : hdot B B = 1) (h3 : hdot A B = 0) (ell : ℝ)
    (p : 0 ≤ 1 + ell / 2) (q : 0 ≤ 1 - ell / 2) :
    total (edges (cscale (Real.sqrt (1 + ell / 2) : ℂ) A) (cscale (Real.sqrt (1 - ell / 2) : ℂ) B)) = ⟨ell, 0, 0⟩ := by
  obtain ⟨s1, s2, s3⟩ := sum_edges (cscale (Real.sqrt (1 + ell / 2) : ℂ) A) (cscale (Real.sqrt (1 - ell / 2) : ℂ) B) (by simp [cscale, hl])
  unfold total
  rw [foldl_add, s1, s2, s3]
  simp only [hdot_cscale_left, hdot_cscale_right, h1, h2, h3, Complex.conj_ofReal, mul_one, mul_zero, ← Complex.ofReal_mul,
    Real.mul_self_sqrt p, Real.mul_self_sqrt q, Complex.ofReal_re, Complex.zero_re, Complex.zero_im]
  simp

/-- The length `plc_random_ftc_internal` aims at. -/
noncomputable def aimed (length ftc : ℝ) : ℝ := if length < ftc + 1e-8 then ftc else length

theorem ftc_ok (sc : Bool) (n : Nat) (hn : 0 < n) (Araw Braw : List ℝ) (hA : Araw.length = 2 * n) (hB : Braw.length = 2 * n) (length ftc : ℝ)
    (h0 : 0 ≤ ftc) :
    (length < ftc ∧ ftcPolygon sc Araw Braw length ftc = .ok .null) ∨
    (n = 1 ∧ ftc + 1e-8 ≤ length ∧ ftcPolygon sc Araw Braw length ftc = .ok .null) ∨
    (n ≠ 1 ∧ (frame (toComplex Araw) (toComplex Braw) = none ∨ aimed length ftc = 0) ∧ ftcPolygon sc Araw Braw length ftc = .ok .nan) ∨
    ∃ vs, ftcPolygon sc Araw Braw length ftc = .ok (.curve vs) ∧ vs.length = n + 1 ∧ vs[0]? = some ⟨0, 0, 0⟩ ∧
      vs.getLast? = some ⟨ftc, 0, 0⟩ ∧ openLength vs = aimed length ftc := by
  have a := length_toComplex n _ hA
  have b := length_toComplex n _ hB
  have hne : toComplex Araw ≠ [] := fun e => by rw [e] at a; simp at a; omega
  unfold ftcPolygon
  by_cases c1 : length < ftc
  · exact .inl ⟨c1, if_pos c1⟩
  right
  rw [if_neg c1]
  simp only
  rw [if_neg hne, a]
  have haim : (if length < ftc + 1e-8 then ftc else length) = aimed length ftc := rfl
  rw [haim]
  have hge : ftc ≤ aimed length ftc := by unfold aimed; split <;> linarith
  by_cases n1 : n = 1
  · by_cases c2 : length < ftc + 1e-8
    · have e : aimed length ftc = ftc := if_pos c2
      right; right
      rw [e, if_pos ⟨n1, by simp; norm_num⟩]
      refine ⟨_, rfl, by simp [n1], rfl, rfl, ?_⟩
      simp [openLength, Real.sqrt_sq h0]
    · have e : aimed length ftc = length := if_neg c2
      left
      rw [not_lt] at c2
      have hp : (0 : ℝ) < length - ftc := by have : (0 : ℝ) < 1e-8 := by norm_num
                                             linarith
      have hb : length - ftc > 1e-10 := by
        have : (1e-10 : ℝ) < 1e-8 := by norm_num
        linarith
      refine ⟨n1, c2, ?_⟩
      rw [e, if_neg (fun h => by have := h.2; rw [abs_of_pos hp] at this; linarith), if_pos ⟨n1, by rw [abs_of_pos hp]; exact hb⟩]
  · right
    rw [if_neg (fun h => n1 h.1), if_neg (fun h => n1 h.1)]
    cases hf : frame (toComplex Araw) (toComplex Braw) with
    | none => exact .inl ⟨n1, .inl rfl, rfl⟩
    | some q =>
      obtain ⟨A, B⟩ := q
      simp only
      by_cases hz : aimed length ftc = 0
      · left
        rw [if_pos hz]
        exact ⟨n1, .inr hz, rfl⟩
      right
      have hpos : 0 < aimed length ftc := lt_of_le_of_ne (le_trans h0 hge) (Ne.symm hz)
      obtain ⟨len, hlen⟩ : ∃ x, x = aimed length ftc := ⟨_, rfl⟩
      rw [← hlen] at hz hpos hge ⊢
      obtain ⟨f1, f2, f3, f4, f5⟩ := frame_some (a.trans b.symm) hf
      have hl : A.length = B.length := by rw [f4, f5, a, b]
      obtain ⟨ell, hell⟩ : ∃ x, x = 2 * (ftc / len) := ⟨_, rfl⟩
      rw [← hell]
      have r0 : 0 ≤ ftc / len := div_nonneg h0 hpos.le
      have r1 : ftc / len ≤ 1 := (div_le_one hpos).mpr hge
      have p : 0 ≤ 1 + ell / 2 := by rw [hell]; linarith
      have q : 0 ≤ 1 - ell / 2 := by rw [hell]; linarith
      have e0 : 0 ≤ ell := by rw [hell]; linarith
      have ht := total_ftc hl f1 f2 f3 ell p q
      rw [if_neg hz, frameOk_true f1 f2 f3, assertC_ok (by simp), ok_bind, if_neg (by push Not; exact ⟨p, q⟩), ht]
      rw [assertC_ok (by
        have : norm3 ⟨ell, 0, 0⟩ = ell := by simp [norm3, Real.sqrt_mul_self e0]
        rw [this]
        cases sc <;> simp <;> norm_num), ok_bind]
      have hEl := length_edges (cscale (Real.sqrt (1 + ell / 2) : ℂ) A) (cscale (Real.sqrt (1 - ell / 2) : ℂ) B) (by simp [cscale, hl])
      refine ⟨_, rfl, ?_, rfl, ?_, ?_⟩
      · simp [length_path, edges, cscale, f4, f5, a, b]
      · rw [List.getLast?_eq_getLast_of_ne_nil (by simp), path_last]
        have := total_scaled (len / 2) (edges (cscale (Real.sqrt (1 + ell / 2) : ℂ) A) (cscale (Real.sqrt (1 - ell / 2) : ℂ) B))
        rw [total, ht] at this
        rw [this, hell]
        simp only [V3.scale, mul_zero, Option.some.injEq, V3.mk.injEq, and_true]
        field_simp
      · rw [openLength_path, sum_norm_scaled _ (by linarith), hEl, sum_scaled _ p, sum_scaled _ q]
        have g1 := f1
        have g2 := f2
        rw [hdot_self_re] at g1 g2
        have g1' : (A.map Complex.normSq).sum = 1 := by exact_mod_cast g1
        have g2' : (B.map Complex.normSq).sum = 1 := by exact_mod_cast g2
        rw [g1', g2']
        ring

end RandomPolygon

/-- **C76.** An arc of given length and failure to close goes from the origin to the point at distance `ftc` on the positive x-axis, and
has the given length, but for the lengths within 1e-8 of `ftc`, which are taken for `ftc` itself. -/
theorem C76_ftc (sc : Bool) (n : Nat) (hn : 0 < n) (Araw Braw : List ℝ) (hA : Araw.length = 2 * n) (hB : Braw.length = 2 * n) (length ftc : ℝ)
    (h0 : 0 ≤ ftc) (vs : List V3) (h : ftcPolygon sc Araw Braw length ftc = .ok (.curve vs)) :
    vs.length = n + 1 ∧ vs[0]? = some ⟨0, 0, 0⟩ ∧ vs.getLast? = some ⟨ftc, 0, 0⟩ ∧
      openLength vs = if length < ftc + 1e-8 then ftc else length := by
  rcases ftc_ok sc n hn Araw Braw hA hB length ftc h0 with ⟨-, e⟩ | ⟨-, -, e⟩ | ⟨-, -, e⟩ | ⟨ws, e, q⟩
  · rw [e] at h; simp at h
  · rw [e] at h; simp at h
  · rw [e] at h; simp at h
  · rw [e] at h
    cases h
    exact q

/-- It is made, its self check passed, for two edges or more, a positive length no less than `ftc`, and independent random vectors. With
one edge there is an arc when the length is within 1e-8 of `ftc`, and NULL otherwise. -/
theorem C76_ftc_made (sc : Bool) (n : Nat) (hn : 0 < n) (Araw Braw : List ℝ) (hA : Araw.length = 2 * n) (hB : Braw.length = 2 * n)
    (length ftc : ℝ) (h0 : 0 ≤ ftc) (hl : ftc ≤ length) :
    (n ≠ 1 → 1e-8 ≤ length → Independent (toComplex Araw) (toComplex Braw) → ∃ vs, ftcPolygon sc Araw Braw length ftc = .ok (.curve vs)) ∧
    (n = 1 → length < ftc + 1e-8 → ∃ vs, ftcPolygon sc Araw Braw length ftc = .ok (.curve vs)) ∧
    (n = 1 → ftc + 1e-8 ≤ length → ftcPolygon sc Araw Braw length ftc = .ok .null) := by
  have a := length_toComplex n _ hA
  have b := length_toComplex n _ hB
  rcases ftc_ok sc n hn Araw Braw hA hB length ftc h0 with ⟨c, -⟩ | ⟨c1, c2, e⟩ | ⟨c1, c2, e⟩ | ⟨ws, e, q1, q2, q3, q4⟩
  · linarith
  · exact ⟨fun n1 => absurd c1 n1, fun _ c => absurd c (not_lt.mpr c2), fun _ _ => e⟩
  · refine ⟨fun _ hp hI => ?_, fun n1 => absurd n1 c1, fun n1 => absurd n1 c1⟩
    rcases c2 with c2 | c2
    · exact absurd hI (frame_none (a.trans b.symm) c2)
    · exfalso
      unfold aimed at c2
      have : (0 : ℝ) < 1e-8 := by norm_num
      split at c2 <;> linarith
  · refine ⟨fun _ _ _ => ⟨_, e⟩, fun _ _ => ⟨_, e⟩, fun n1 c => ?_⟩
    exfalso
    subst n1
    match ws, q1 with
    | [p, q], _ =>
      simp only [List.getElem?_cons_zero, Option.some.injEq] at q2
      simp only [List.getLast?_cons_cons, List.getLast?_singleton, Option.some.injEq] at q3
      subst q2
      subst q3
      have : (0 : ℝ) < 1e-8 := by norm_num
      rw [aimed, if_neg (by linarith)] at q4
      simp [openLength, Real.sqrt_sq h0] at q4
      linarith

namespace RandomPolygon

/-- Random numbers meeting the hypotheses: for three edges, A = (1, 0, i), B = (1, 1, 0). -/
def Araw3 : List ℝ := [1, 0, 0, 0, 0, 1]
def Braw3 : List ℝ := [1, 0, 1, 0, 0, 0]

theorem indep3 : Independent (toComplex Araw3) (toComplex Braw3) := by
  intro z w h
  have h1 := h 1 0 1 (by simp [toComplex, Araw3, Complex.ext_iff]) (by simp [toComplex, Braw3, Complex.ext_iff])
  have h0 := h 0 1 1 (by simp [toComplex, Araw3, Complex.ext_iff]) (by simp [toComplex, Braw3, Complex.ext_iff])
  simp at h1 h0
  rw [h1] at h0
  exact ⟨by simpa using h0, h1⟩

theorem closed3 : ∃ vs, closedPolygon true Araw3 Braw3 = .ok (.curve vs) ∧ vs.length = 3 ∧ closedLength vs = 2 := by
  obtain ⟨vs, h⟩ := C76_closed_made true 3 (by omega) Araw3 Braw3 rfl rfl indep3
  obtain ⟨q1, q2, -⟩ := C76_closed true 3 (by omega) Araw3 Braw3 rfl rfl vs h
  exact ⟨vs, h, q1, q2⟩

theorem ftc3 : ∃ vs, ftcPolygon true Araw3 Braw3 5 2 = .ok (.curve vs) ∧ vs.getLast? = some ⟨2, 0, 0⟩ ∧ openLength vs = 5 := by
  obtain ⟨vs, h⟩ := (C76_ftc_made true 3 (by omega) Araw3 Braw3 rfl rfl 5 2 (by norm_num) (by norm_num)).1 (by omega) (by norm_num) indep3
  obtain ⟨-, -, q3, q4⟩ := C76_ftc true 3 (by omega) Araw3 Braw3 rfl rfl 5 2 (by norm_num) vs h
  exact ⟨vs, h, q3, by rw [q4, if_neg (by norm_num)]⟩

theorem open3 : ∃ vs, openPolygon true Araw3 Braw3 = .ok (.curve vs) ∧ openLength vs = 2 := by
  obtain ⟨h1, h2⟩ := C76_open true 3 (by omega) Araw3 Braw3 rfl rfl
  obtain ⟨vs, h⟩ := h2 ⟨1, by simp [toComplex, Araw3, Complex.ext_iff]⟩
  exact ⟨vs, h, (h1 vs h).2.1⟩

end RandomPolygon

end Plc
