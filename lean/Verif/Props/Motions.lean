import Verif.Proofs.Motions

/-! # C80: rotating, folding, translating, scaling and projecting curves -/

namespace Plc.Motions

open Plc.Core Plc.FindCrossings Plc.RandomPolygon Plc.Equilateral Plc.Cst

/-- The vertex is not within 2⁻⁵² of the axis without being on it. -/
def Clear (u p : V3) : Prop := offAxis u p = 0 ∨ 1 / 2 ^ 52 ≤ offAxis u p

/-- **C80.** `plc_rotate` around a unit vector turns every vertex by the angle, or leaves it as it is if it is nearer than 2⁻⁵² to the axis. -/
theorem C80_rotate (L : Curve) (u : V3) (t : ℝ) (hu : dotOf u u = 1) (i j : Nat) (p : V3) (hp : vertexOf L i j = some p) :
    ∃ p', vertexOf (rotate L u t) i j = some p' ∧ (Clear u p → Turned u t p p') ∧ (offAxis u p < 1 / 2 ^ 52 → p' = p) := by
  refine ⟨turn u t p, ?_, fun h => ?_, fun h => ?_⟩
  · unfold rotate
    rw [vertexOf_map, hp]; rfl
  · rw [turn_exact u t p hu h]
    exact rod_turned u t p hu
  · exact (turn_eq u t p hu).trans (if_pos h)

/-- **C80.** Rotating keeps all distances of vertices, also of different components, up to 2⁻⁵⁰, and exactly if no vertex is very near
to the axis. -/
theorem C80_rotate_rigid (L : Curve) (u : V3) (t : ℝ) (hu : dotOf u u = 1) (i j i' j' : Nat) (p q p' q' : V3)
    (hp : vertexOf L i j = some p) (hq : vertexOf L i' j' = some q) (hp' : vertexOf (rotate L u t) i j = some p')
    (hq' : vertexOf (rotate L u t) i' j' = some q') :
    |apart p' q' - apart p q| ≤ 1 / 2 ^ 50 ∧ (Clear u p → Clear u q → apart p' q' = apart p q) := by
  unfold rotate at hp' hq'
  rw [vertexOf_map, hp, Option.map_some, Option.some.injEq] at hp'
  rw [vertexOf_map, hq, Option.map_some, Option.some.injEq] at hq'
  subst hp' hq'
  refine ⟨?_, fun h1 h2 => ?_⟩
  · have := apart_near (turn_rod u t p hu) (turn_rod u t q hu)
    rw [apart_rod u t p q hu] at this
    refine this.trans (le_of_eq ?_)
    unfold eps; norm_num
  · rw [turn_exact u t p hu h1, turn_exact u t q hu h2, apart_rod u t p q hu]

/-- **C80.** Rotating keeps what is open and what is closed, the numbers of vertices, and the constraints as they are. -/
theorem C80_rotate_shape (L : Curve) (u : V3) (t : ℝ) (i : Nat) (c : Comp) (hc : L.cp[i]? = some c) (hp : Proper c) :
    (rotate L u t).cst = L.cst ∧ ∃ c', (rotate L u t).cp[i]? = some c' ∧ c'.isOpen = c.isOpen ∧ c'.vt.length = c.vt.length := by
  refine ⟨rfl, ?_⟩
  unfold rotate mapVerts
  simp only [List.getElem?_map, hc, Option.map_some]
  refine ⟨_, rfl, ?_, by simp [fixWrap]⟩
  simp only [fixWrap, List.length_map]
  cases h : c.isOpen with
  | true => rfl
  | false =>
    have := hp h
    simp; omega

/-- A matrix applied to a vector, in coordinates. -/
theorem app_eq (A : Mat) (p : V3) : A.app p = ⟨A.r0.x * p.x + A.r0.y * p.y + A.r0.z * p.z, A.r1.x * p.x + A.r1.y * p.y + A.r1.z * p.z,
    A.r2.x * p.x + A.r2.y * p.y + A.r2.z * p.z⟩ := rfl

theorem matrix_rod (u : V3) (t : ℝ) (hu : dotOf u u = 1) : ∃ A, rotationMatrix u t = .ok A ∧ ∀ p, A.app p = rod u t p := by
  have hn : norm3 u = 1 := by
    unfold norm3
    rw [show u.x * u.x + u.y * u.y + u.z * u.z = 1 from hu, Real.sqrt_one]
  have hs : V3.scale (1 / 1) u = u := by simp [V3.scale]
  unfold rotationMatrix
  rw [hn, if_neg (by intro h; have := h.1; unfold eps at this; norm_num at this)]
  simp only [hs]
  refine ⟨_, rfl, fun p => ?_⟩
  simp only [app_eq, rod, V3.sub, add, lincomb, V3.scale, V3.crossProd, V3.dot]
  refine V3.ext' ?_ ?_ ?_ <;> ring

/-- **C80.** `plc_rotation_matrix` is the same rotation. -/
theorem C80_matrix (u : V3) (t : ℝ) (hu : dotOf u u = 1) : ∃ A, rotationMatrix u t = .ok A ∧ ∀ p, Turned u t p (A.app p) := by
  obtain ⟨A, hA, h⟩ := matrix_rod u t hu
  exact ⟨A, hA, fun p => by rw [h]; exact rod_turned u t p hu⟩

theorem app_mul (A B : Mat) (p : V3) : (A.mul B).app p = A.app (B.app p) := by
  simp only [Mat.mul, Mat.app, V3.dot]
  refine V3.ext' ?_ ?_ ?_ <;> ring

theorem rod_back (u : V3) (t : ℝ) (p : V3) (hu : dotOf u u = 1) : rod u (-t) (rod u t p) = p := by
  obtain ⟨P, hP⟩ : ∃ P, P = perp u p := ⟨_, rfl⟩
  have hd : dotOf P u = 0 := by rw [hP]; exact perp_dot u p hu
  have hcs := Real.cos_sq_add_sin_sq t
  have hal := (rod_turned u t p hu).along
  have hrod : rod u t p = add (lincomb (Real.cos t) P (Real.sin t) (u.crossProd P)) (V3.scale (dotOf p u) u) := by rw [hP]; rfl
  have hp : p = add P (V3.scale (dotOf p u) u) := by
    rw [hP]; simp only [perp, add, V3.scale, dotOf]; refine V3.ext' ?_ ?_ ?_ <;> ring
  have hperp : perp u (rod u t p) = lincomb (Real.cos t) P (Real.sin t) (u.crossProd P) := by
    unfold perp
    rw [hal, hrod]
    simp only [dotOf, add, lincomb, V3.scale, V3.crossProd]
    refine V3.ext' ?_ ?_ ?_ <;> ring
  have h2 : rod u (-t) (rod u t p) = add (lincomb (Real.cos (-t)) (perp u (rod u t p)) (Real.sin (-t)) (u.crossProd (perp u (rod u t p))))
      (V3.scale (dotOf (rod u t p) u) u) := rfl
  rw [h2, hal, hperp, Real.cos_neg, Real.sin_neg]
  generalize dotOf p u = k at hp ⊢
  rw [hp]
  simp only [dotOf, add, lincomb, V3.scale, V3.crossProd] at *
  refine V3.ext' ?_ ?_ ?_
  · linear_combination P.x * hcs + (Real.sin t ^ 2 * P.x) * hu - Real.sin t ^ 2 * u.x * hd
  · linear_combination P.y * hcs + (Real.sin t ^ 2 * P.y) * hu - Real.sin t ^ 2 * u.y * hd
  · linear_combination P.z * hcs + (Real.sin t ^ 2 * P.z) * hu - Real.sin t ^ 2 * u.z * hd

/-- **C80.** Symmetries stay symmetries: if the matrix of a symmetry takes a vertex to another one, the matrix after `plc_rotate` takes
the vertex, rotated, to the other one, rotated. -/
theorem C80_symmetry (u : V3) (t : ℝ) (T : Mat) (hu : dotOf u u = 1) :
    ∃ T', rotateSym u t T = .ok T' ∧ ∀ p q : V3, T.app p = q → Clear u p → Clear u q → T'.app (turn u t p) = turn u t q := by
  obtain ⟨A, hA, h⟩ := matrix_rod u t hu
  obtain ⟨B, hB, h'⟩ := matrix_rod u (-t) hu
  refine ⟨A.mul (T.mul B), ?_, fun p q hpq h1 h2 => ?_⟩
  · unfold rotateSym
    rw [hA, ok_bind, hB, ok_bind]
  · rw [turn_exact u t p hu h1, turn_exact u t q hu h2, app_mul, app_mul, h', rod_back u t p hu, hpq, h]

/-- **C80.** `plc_rotate_vect` turns around any axis of length at least 2⁻⁵². -/
theorem C80_rotate_vect (v a : V3) (t : ℝ) (ha : 1 / 2 ^ 52 ≤ apart a ⟨0, 0, 0⟩) :
    let u : V3 := ⟨a.x / apart a ⟨0, 0, 0⟩, a.y / apart a ⟨0, 0, 0⟩, a.z / apart a ⟨0, 0, 0⟩⟩
    dotOf u u = 1 ∧ (Clear u v → Turned u t v (rotateVect v a t)) ∧ (offAxis u v < 1 / 2 ^ 52 → rotateVect v a t = v) := by
  have hn : norm3 a = apart a ⟨0, 0, 0⟩ := norm3_eq a
  have hne : norm3 a ≠ 0 := by
    rw [hn]; intro e; rw [e] at ha; norm_num at ha
  have hu := unit_scale a hne
  have e : V3.scale (1 / norm3 a) a = ⟨a.x / apart a ⟨0, 0, 0⟩, a.y / apart a ⟨0, 0, 0⟩, a.z / apart a ⟨0, 0, 0⟩⟩ := by
    rw [hn]; simp only [V3.scale]; refine V3.ext' ?_ ?_ ?_ <;> simp only <;> ring
  have hr : rotateVect v a t = turn (V3.scale (1 / norm3 a) a) t v := by
    unfold rotateVect
    rw [if_neg]
    rw [hn]
    intro h
    exact absurd h.1 (not_lt.mpr ha)
  intro u
  rw [e] at hu hr
  refine ⟨hu, fun h => ?_, fun h => ?_⟩
  · rw [hr, turn_exact u t v hu h]
    exact rod_turned u t v hu
  · rw [hr]; exact (turn_eq u t v hu).trans (if_pos h)

/-- **C80.** `plc_translate` moves every vertex by the vector, if it is not shorter than 10⁻¹⁰ (then nothing happens). -/
theorem C80_translate (L : Curve) (t : V3) (i j : Nat) (p : V3) (hp : vertexOf L i j = some p) :
    (1e-10 ≤ apart t ⟨0, 0, 0⟩ → vertexOf (translate L t) i j = some ⟨p.x + t.x, p.y + t.y, p.z + t.z⟩) ∧
      (apart t ⟨0, 0, 0⟩ < 1e-10 → translate L t = L) := by
  refine ⟨fun h => ?_, fun h => ?_⟩
  · unfold translate
    rw [norm3_eq, if_neg (not_lt.mpr h), vertexOf_map, hp]
    rfl
  · unfold translate
    rw [norm3_eq, if_pos h]

/-- **C80.** `plc_scale` multiplies every distance of vertices by the size of the factor. -/
theorem C80_scale (L : Curve) (k : ℝ) (i j i' j' : Nat) (p q : V3) (hp : vertexOf L i j = some p) (hq : vertexOf L i' j' = some q) :
    ∃ p' q', vertexOf (scale L k) i j = some p' ∧ vertexOf (scale L k) i' j' = some q' ∧ p' = ⟨k * p.x, k * p.y, k * p.z⟩ ∧
      apart p' q' = |k| * apart p q := by
  refine ⟨V3.scale k p, V3.scale k q, ?_, ?_, rfl, ?_⟩
  · unfold scale; rw [vertexOf_map, hp]; rfl
  · unfold scale; rw [vertexOf_map, hq]; rfl
  · unfold apart
    rw [← Real.sqrt_sq_eq_abs, ← Real.sqrt_mul (sq_nonneg k)]
    congr 1
    simp only [distSq, V3.scale]
    ring

theorem obeys_of_map (L : Curve) (g : V3 → V3) (h : Cst (V3 × V3) → Cst (V3 × V3)) (hr : ∀ c, (h c).vert = c.vert ∧ (h c).num = c.num ∧ (h c).cmp = c.cmp)
    (ha : ∀ c p, Allowed c p → Allowed (h c) (g p)) (hL : Obeys L) : Obeys ⟨mapVerts g L.cp, L.cst.map h⟩ := by
  intro c hc j p h1 h2 hp
  obtain ⟨c, hc', rfl⟩ := List.mem_map.mp hc
  obtain ⟨e1, e2, e3⟩ := hr c
  rw [e1] at h1 h2
  rw [e2] at h2
  rw [e3, vertexOf_map] at hp
  obtain ⟨q, hq, rfl⟩ := Option.map_eq_some_iff.mp hp
  exact ha c q (hL c hc' j q h1 h2 hq)

/-- **C80.** Translating and scaling keep constraints: a curve which obeys its constraints obeys the new ones afterwards. -/
theorem C80_translate_constraints (L : Curve) (t : V3) (h : Obeys L) : Obeys (translate L t) := by
  unfold translate
  split
  · exact h
  · refine obeys_of_map L _ _ (fun c => ?_) (fun c p hp => ?_) h
    · unfold moveCst; split <;> exact ⟨rfl, rfl, rfl⟩
    · unfold moveCst
      unfold Allowed at hp
      split <;> rename_i hk <;> rw [hk] at hp <;> unfold Allowed <;> simp only [hk] at hp ⊢
      · rw [hp]
      · obtain ⟨s, h1, h2, h3⟩ := hp
        refine ⟨s, ?_, ?_, ?_⟩ <;> simp only [add] <;> linarith
      · simp only [dotOf, add, V3.dot] at hp ⊢
        linarith

/-- See `C80_translate_constraints`. -/
theorem C80_scale_constraints (L : Curve) (k : ℝ) (h : Obeys L) : Obeys (scale L k) := by
  unfold scale
  refine obeys_of_map L _ _ (fun c => ?_) (fun c p hp => ?_) h
  · unfold scaleCst; split <;> exact ⟨rfl, rfl, rfl⟩
  · unfold scaleCst
    unfold Allowed at hp
    split <;> rename_i hk <;> rw [hk] at hp <;> unfold Allowed <;> simp only [hk] at hp ⊢
    · rw [hp]
    · obtain ⟨s, h1, h2, h3⟩ := hp
      refine ⟨k * s, ?_, ?_, ?_⟩ <;> simp only [V3.scale]
      · rw [h1]; ring
      · rw [h2]; ring
      · rw [h3]; ring
    · simp only [dotOf, V3.scale] at hp ⊢
      rw [← hp]; ring

theorem dotOf_self_nonneg (a : V3) : 0 ≤ dotOf a a := by
  simp only [dotOf]; nlinarith [sq_nonneg a.x, sq_nonneg a.y, sq_nonneg a.z]

/-- **C80.** `plc_project` moves every vertex to the nearest point of the plane through the origin with this normal vector. -/
theorem C80_project (L : Curve) (N : V3) (hN : 1 / 2 ^ 52 ≤ apart N ⟨0, 0, 0⟩) :
    ∃ L', projectTo L N = .ok L' ∧ ∀ i j p, vertexOf L i j = some p → ∃ p', vertexOf L' i j = some p' ∧ dotOf p' N = 0 ∧
      ∀ q, dotOf q N = 0 → apart p p' ≤ apart p q := by
  have hn : norm3 N = apart N ⟨0, 0, 0⟩ := norm3_eq N
  have hne : norm3 N ≠ 0 := by
    rw [hn]; intro e; rw [e] at hN; norm_num at hN
  have hu := unit_scale N hne
  unfold projectTo
  rw [if_neg (by rw [hn]; intro h; exact absurd h.1 (not_lt.mpr hN))]
  obtain ⟨u, hue⟩ : ∃ u, u = V3.scale (1 / norm3 N) N := ⟨_, rfl⟩
  simp only [← hue]
  rw [← hue] at hu
  have hNu : ∀ q, dotOf q N = norm3 N * dotOf q u := by
    intro q
    rw [hue]; simp only [dotOf, V3.scale]; field_simp
  refine ⟨_, rfl, fun i j p hp => ⟨p.sub (V3.scale (p.dot u) u), ?_, ?_, fun q hq => ?_⟩⟩
  · rw [vertexOf_map, hp]; rfl
  · rw [hNu, ← perp_eq, perp_dot u p hu, mul_zero]
  · have hq0 : dotOf q u = 0 := by
      rw [hNu] at hq
      exact (mul_eq_zero.mp hq).resolve_left hne
    refine Real.sqrt_le_sqrt ?_
    simp only [distSq, dotOf, V3.sub, V3.scale, V3.dot] at *
    have e : (p.x - q.x) ^ 2 + (p.y - q.y) ^ 2 + (p.z - q.z) ^ 2 =
      ((p.x - (p.x - (p.x * u.x + p.y * u.y + p.z * u.z) * u.x)) ^ 2 + (p.y - (p.y - (p.x * u.x + p.y * u.y + p.z * u.z) * u.y)) ^ 2 +
        (p.z - (p.z - (p.x * u.x + p.y * u.y + p.z * u.z) * u.z)) ^ 2) +
      ((p.x - (p.x * u.x + p.y * u.y + p.z * u.z) * u.x - q.x) ^ 2 + (p.y - (p.x * u.x + p.y * u.y + p.z * u.z) * u.y - q.y) ^ 2 +
        (p.z - (p.x * u.x + p.y * u.y + p.z * u.z) * u.z - q.z) ^ 2) := by
      linear_combination (-2 * (p.x * u.x + p.y * u.y + p.z * u.z) ^ 2) * hu - (2 * (p.x * u.x + p.y * u.y + p.z * u.z)) * hq0
    have h1 := sq_nonneg (p.x - (p.x * u.x + p.y * u.y + p.z * u.z) * u.x - q.x)
    have h2 := sq_nonneg (p.y - (p.x * u.x + p.y * u.y + p.z * u.z) * u.y - q.y)
    have h3 := sq_nonneg (p.z - (p.x * u.x + p.y * u.y + p.z * u.z) * u.z - q.z)
    linarith

/-- The map of `plc_random_rotate`. -/
noncomputable def rr (a p : V3) : V3 :=
  let t := Real.sqrt (1 - a.z * a.z)
  let t2 := 1 / t
  ⟨-p.x * (a.y * t2) + p.y * (a.x * t2), -p.x * (a.x * a.z * t2) - p.y * (a.y * a.z * t2) + p.z * t, p.x * a.x + p.y * a.y + p.z * a.z⟩

/-- **C80.** `plc_random_rotate` with a unit vector which is not almost vertical keeps all distances and orientation, and takes the axis
to the vertical direction. -/
theorem C80_random_rotate (L : Curve) (a : V3) (ha : dotOf a a = 1) (hz : 1 / 2 ^ 52 < Real.sqrt (1 - a.z * a.z)) :
    ∃ g : V3 → V3, (∀ i j, vertexOf (randomRotate L a) i j = (vertexOf L i j).map g) ∧ g a = ⟨0, 0, 1⟩ ∧ g ⟨0, 0, 0⟩ = ⟨0, 0, 0⟩ ∧
      (∀ p q, apart (g p) (g q) = apart p q) ∧ ∀ p q, g (crossOf p q) = crossOf (g p) (g q) := by
  have ht : 0 ≤ 1 - a.z * a.z := by
    by_contra h
    rw [Real.sqrt_eq_zero_of_nonpos (by linarith)] at hz
    norm_num at hz
  have hpos : 0 < Real.sqrt (1 - a.z * a.z) := lt_trans (by norm_num) hz
  have hsq : Real.sqrt (1 - a.z * a.z) ^ 2 = 1 - a.z * a.z := Real.sq_sqrt ht
  obtain ⟨t, hte⟩ : ∃ t, t = Real.sqrt (1 - a.z * a.z) := ⟨_, rfl⟩
  have hg : ∀ p, rr a p = ⟨(-p.x * a.y + p.y * a.x) / t, (-p.x * (a.x * a.z) - p.y * (a.y * a.z)) / t + p.z * t, p.x * a.x + p.y * a.y + p.z * a.z⟩ := by
    intro p
    unfold rr
    simp only [← hte]
    refine V3.ext' ?_ ?_ ?_ <;> simp only <;> ring
  rw [← hte] at hpos hsq
  have ha' : a.x * a.x + a.y * a.y = t ^ 2 := by rw [hsq]; simp only [dotOf] at ha; linarith
  have hne : t ≠ 0 := hpos.ne'
  have hzz : a.z * a.z = 1 - t ^ 2 := by rw [hsq]; ring
  refine ⟨rr a, fun i j => ?_, ?_, ?_, fun p q => ?_, fun p q => ?_⟩
  · unfold randomRotate
    rw [if_pos ⟨ht, hz⟩]
    exact vertexOf_map _ L i j _
  · rw [hg]
    refine V3.ext' ?_ ?_ ?_
    · simp only; rw [div_eq_zero_iff]; left; ring
    · simp only
      field_simp
      linear_combination (-a.z) * ha'
    · exact ha
  · rw [hg]; refine V3.ext' ?_ ?_ ?_ <;> simp
  · refine apart_congr ?_
    rw [hg, hg]
    simp only [distSq]
    obtain ⟨x, hx⟩ : ∃ x, x = p.x - q.x := ⟨_, rfl⟩
    obtain ⟨y, hy⟩ : ∃ y, y = p.y - q.y := ⟨_, rfl⟩
    obtain ⟨z, hz'⟩ : ∃ z, z = p.z - q.z := ⟨_, rfl⟩
    have e1 : (-p.x * a.y + p.y * a.x) / t - (-q.x * a.y + q.y * a.x) / t = (y * a.x - x * a.y) / t := by rw [hx, hy]; ring
    have e2 : (-p.x * (a.x * a.z) - p.y * (a.y * a.z)) / t + p.z * t - ((-q.x * (a.x * a.z) - q.y * (a.y * a.z)) / t + q.z * t) =
        (z * t ^ 2 - a.z * (x * a.x + y * a.y)) / t := by rw [hx, hy, hz']; field_simp; ring
    have e3 : p.x * a.x + p.y * a.y + p.z * a.z - (q.x * a.x + q.y * a.y + q.z * a.z) = x * a.x + y * a.y + z * a.z := by
      rw [hx, hy, hz']; ring
    rw [e1, e2, e3, ← hx, ← hy, ← hz', div_pow, div_pow]
    field_simp
    linear_combination ((x * a.x + y * a.y) ^ 2 + z ^ 2 * t ^ 2) * hzz + (x ^ 2 + y ^ 2) * ha'
  · rw [hg, hg, hg]
    simp only [crossOf]
    refine V3.ext' ?_ ?_ ?_
    · simp only
      field_simp
      linear_combination (-(a.x * (p.z * q.x - p.x * q.z) - a.y * (p.y * q.z - p.z * q.y))) * hzz
    · simp only
      field_simp
      linear_combination (-(p.x * q.y - p.y * q.x)) * ha'
    · simp only
      field_simp
      linear_combination (-(a.z * (p.x * q.y - p.y * q.x))) * ha'

/-- **C80.** Although it is said to turn the axis to (0,0,1), `plc_random_rotate` does nothing for (0,0,-1). -/
theorem C80_random_rotate_down (L : Curve) : randomRotate L ⟨0, 0, -1⟩ = L := by
  unfold randomRotate
  rw [if_neg]
  norm_num [eps]

/-- **C80.** `plc_rotate` leaves the constraints as they are, so a curve may obey its constraints before and not after; the segment
from (1,0,0) to (2,0,0), its first vertex fixed, turned around the vertical axis by a quarter turn. -/
theorem C80_rotate_breaks_constraints : ∃ (L : Curve) (u : V3) (t : ℝ), dotOf u u = 1 ∧ Obeys L ∧ ¬ Obeys (rotate L u t) := by
  refine ⟨⟨[⟨true, [⟨1, 0, 0⟩, ⟨2, 0, 0⟩]⟩], [⟨.fixed, (⟨1, 0, 0⟩, ⟨0, 0, 0⟩), 0, 0, 1⟩]⟩, ⟨0, 0, 1⟩, Real.pi / 2, by norm_num [dotOf], ?_, ?_⟩
  · intro c hc j p h1 h2 hp
    simp only [List.mem_singleton] at hc
    subst hc
    simp only at h1 h2 hp
    have : j = 0 := by omega
    subst this
    simp only [vertexOf, List.getElem?_cons_zero, Option.some.injEq] at hp
    subst hp
    rfl
  · intro h
    have hu : dotOf (⟨0, 0, 1⟩ : V3) ⟨0, 0, 1⟩ = 1 := by norm_num [dotOf]
    have hoff : offAxis (⟨0, 0, 1⟩ : V3) ⟨1, 0, 0⟩ = 1 := by
      unfold offAxis apart
      simp [perp, dotOf, distSq]
    have := h _ (List.mem_singleton.mpr rfl) 0 (turn ⟨0, 0, 1⟩ (Real.pi / 2) ⟨1, 0, 0⟩) (by simp) (by simp) (by
      unfold rotate; rw [vertexOf_map]; rfl)
    unfold Allowed at this
    simp only at this
    rw [turn_exact _ _ _ hu (Or.inr (by rw [hoff]; unfold eps; norm_num))] at this
    have hx := congrArg V3.x this
    simp [rod, add, lincomb, V3.scale, V3.crossProd, V3.dot, V3.sub] at hx

/-- Turning around the line through `a` along `u`. -/
noncomputable def rodAt (a u : V3) (t : ℝ) (v : V3) : V3 := add (rod u t (v.sub a)) a

theorem apart_add (a p q : V3) : apart (add p a) (add q a) = apart p q := by
  refine apart_congr ?_
  simp only [distSq, add]; ring

theorem apart_sub (a p q : V3) : apart (p.sub a) (q.sub a) = apart p q := by
  refine apart_congr ?_
  simp only [distSq, V3.sub]; ring

theorem apart_rodAt (a u : V3) (t : ℝ) (p q : V3) (hu : dotOf u u = 1) : apart (rodAt a u t p) (rodAt a u t q) = apart p q := by
  unfold rodAt
  rw [apart_add, apart_rod u t _ _ hu, apart_sub]

theorem sub_add (a v : V3) : add (v.sub a) a = v := by
  simp only [add, V3.sub]; refine V3.ext' ?_ ?_ ?_ <;> simp

theorem add_sub (a v : V3) : (add v a).sub a = v := by
  simp only [add, V3.sub]; refine V3.ext' ?_ ?_ ?_ <;> simp

theorem offAxis_scale (u : V3) (r : ℝ) (hu : dotOf u u = 1) : offAxis u (V3.scale r u) = 0 := by
  have h : perp u (V3.scale r u) = ⟨0, 0, 0⟩ := by
    simp only [perp, dotOf, V3.scale] at *
    refine V3.ext' ?_ ?_ ?_ <;> simp only
    · linear_combination (-r * u.x) * hu
    · linear_combination (-r * u.y) * hu
    · linear_combination (-r * u.z) * hu
  unfold offAxis
  rw [h, apart_self]

theorem rodAt_axis (a u : V3) (t r : ℝ) (v : V3) (hu : dotOf u u = 1) (h : v.sub a = V3.scale r u) : rodAt a u t v = v := by
  unfold rodAt
  rw [rod_axis u t _ hu (by rw [h]; exact offAxis_scale u r hu), sub_add]

/-- The vertex numbered `i`, for i from -1 to nv: -1 and nv are the other ends of the edges at 0 and nv - 1. In an open component these
edges fold back. -/
def Numbered (c : Comp) (i : Int) (p : V3) : Prop :=
  (∃ j : Nat, i = (j : Int) ∧ c.vt[j]? = some p) ∨ (i = -1 ∧ c.isOpen = false ∧ c.vt[c.vt.length - 1]? = some p) ∨
    (i = (c.vt.length : Int) ∧ c.isOpen = false ∧ c.vt[0]? = some p) ∨ (i = -1 ∧ c.isOpen = true ∧ c.vt[1]? = some p) ∨
    (i = (c.vt.length : Int) ∧ c.isOpen = true ∧ 2 ≤ c.vt.length ∧ c.vt[c.vt.length - 2]? = some p)

theorem vtAt_numbered (c : Comp) (i : Int) (p : V3) : vtAt c i = .ok p ↔ Numbered c i p := by
  unfold vtAt
  have hlt : ∀ (j : Nat) (q : V3), c.vt[j]? = some q → j < c.vt.length := fun j q h => (List.getElem?_eq_some_iff.mp h).1
  split
  · rename_i h
    constructor
    · intro h'; simp at h'
    · rintro (⟨j, e, hj⟩ | ⟨e, -⟩ | ⟨e, -⟩ | ⟨e, -⟩ | ⟨e, -⟩)
      · have := hlt j p hj; omega
      all_goals omega
  · split
    · rename_i h1 h2
      cases ho : c.isOpen with
      | true =>
        rw [if_pos rfl, rd_eq_ok]
        constructor
        · intro h; exact Or.inr (Or.inr (Or.inr (Or.inl ⟨h2, ho, h⟩)))
        · rintro (⟨j, e, hj⟩ | ⟨e, h, -⟩ | ⟨e, h, -⟩ | ⟨e, h, hh⟩ | ⟨e, h, -⟩)
          · omega
          · rw [ho] at h; simp at h
          · rw [ho] at h; simp at h
          · exact hh
          · omega
      | false =>
        rw [if_neg (by simp), rd_eq_ok]
        constructor
        · intro h; exact Or.inr (Or.inl ⟨h2, ho, h⟩)
        · rintro (⟨j, e, hj⟩ | ⟨e, h, hh⟩ | ⟨e, h, -⟩ | ⟨e, h, hh⟩ | ⟨e, h, -⟩)
          · omega
          · exact hh
          · omega
          · rw [ho] at h; simp at h
          · rw [ho] at h; simp at h
    · split
      · rename_i h1 h2 h3
        cases ho : c.isOpen with
        | true =>
          rw [if_pos rfl]
          by_cases h4 : c.vt.length < 2
          · rw [if_pos h4]
            constructor
            · intro h; simp at h
            · rintro (⟨j, e, hj⟩ | ⟨e, h, -⟩ | ⟨e, h, -⟩ | ⟨e, h, -⟩ | ⟨e, h, h5, -⟩)
              · have := hlt j p hj; omega
              · omega
              · rw [ho] at h; simp at h
              · omega
              · omega
          · rw [if_neg h4, rd_eq_ok]
            constructor
            · intro h; exact Or.inr (Or.inr (Or.inr (Or.inr ⟨h3, ho, by omega, h⟩)))
            · rintro (⟨j, e, hj⟩ | ⟨e, h, -⟩ | ⟨e, h, -⟩ | ⟨e, h, -⟩ | ⟨e, h, h5, hh⟩)
              · have := hlt j p hj; omega
              · omega
              · rw [ho] at h; simp at h
              · omega
              · exact hh
        | false =>
          rw [if_neg (by simp), rd_eq_ok]
          constructor
          · intro h; exact Or.inr (Or.inr (Or.inl ⟨h3, ho, h⟩))
          · rintro (⟨j, e, hj⟩ | ⟨e, h, -⟩ | ⟨e, h, hh⟩ | ⟨e, h, -⟩ | ⟨e, h, h5, hh⟩)
            · have := hlt j p hj; omega
            · omega
            · exact hh
            · omega
            · rw [ho] at h; simp at h
      · rename_i h1 h2 h3
        rw [rd_eq_ok]
        constructor
        · intro h; exact Or.inl ⟨i.toNat, by omega, h⟩
        · rintro (⟨j, e, hj⟩ | ⟨e, h, -⟩ | ⟨e, h, hh⟩ | ⟨e, h, -⟩ | ⟨e, h, h5, hh⟩)
          · rw [e, Int.toNat_natCast]; exact hj
          all_goals omega

/-- Whatever `plc_pfm` returns is made so. -/
theorem pfm_cases (c c' : Comp) (v0 v1 : Int) (t : ℝ) (h : pfm c v0 v1 t = .ok c') :
    ∃ a b u r, Numbered c (min v0 v1) a ∧ Numbered c (max v0 v1) b ∧ v0 ≠ v1 ∧ dotOf u u = 1 ∧ 0 < r ∧ b.sub a = V3.scale r u ∧
      c' = fixWrap { c with vt := c.vt.mapIdx fun i v => if min v0 v1 < (i : Int) ∧ (i : Int) < max v0 v1 then add (turn u t (v.sub a)) a else v } := by
  unfold pfm at h
  obtain ⟨_, -, h⟩ := bind_ok_iff.mp h
  obtain ⟨_, -, h⟩ := bind_ok_iff.mp h
  obtain ⟨a, ha, h⟩ := bind_ok_iff.mp h
  obtain ⟨b, hb, h⟩ := bind_ok_iff.mp h
  obtain ⟨_, hv, h⟩ := bind_ok_iff.mp h
  by_cases he : v0 = v1
  · subst he
    rw [ha, Except.ok.injEq] at hb
    subst hb
    have : vectEq a a = true := by
      have := eps_pos
      simp [vectEq]; linarith
    rw [this] at hv
    simp [assertC] at hv
  · rw [if_neg he] at h
    have key : ∀ (lo hi : Int) (p q : V3), (if norm3 (q.sub p) < eps ∧ -norm3 (q.sub p) < eps then Except.error Fault.die
        else
          let axis := V3.scale (1 / norm3 (q.sub p)) (q.sub p)
          Except.ok (fixWrap { c with vt := c.vt.mapIdx fun i v => if lo < (i : Int) ∧ (i : Int) < hi then add (turn axis t (v.sub p)) p else v })) = Except.ok c' →
        ∃ u r, dotOf u u = 1 ∧ 0 < r ∧ q.sub p = V3.scale r u ∧
          c' = fixWrap { c with vt := c.vt.mapIdx fun i v => if lo < (i : Int) ∧ (i : Int) < hi then add (turn u t (v.sub p)) p else v } := by
      intro lo hi p q hh
      split at hh
      · simp at hh
      · rename_i hn
        have hpos : 0 < norm3 (q.sub p) := by
          by_contra hle
          have h0 : norm3 (q.sub p) = 0 := le_antisymm (not_lt.mp hle) (norm3_nonneg _)
          apply hn
          rw [h0]
          have := eps_pos
          constructor <;> linarith
        rw [Except.ok.injEq] at hh
        refine ⟨_, norm3 (q.sub p), unit_scale _ hpos.ne', hpos, ?_, hh.symm⟩
        simp only [V3.scale]
        refine V3.ext' ?_ ?_ ?_ <;> simp only <;> field_simp
    rcases lt_or_gt_of_ne he with hl | hl
    · rw [if_neg (by omega)] at h
      obtain ⟨u, r, h1, h2, h3, h4⟩ := key v0 v1 a b h
      rw [min_eq_left hl.le, max_eq_right hl.le]
      exact ⟨a, b, u, r, (vtAt_numbered _ _ _).mp ha, (vtAt_numbered _ _ _).mp hb, he, h1, h2, h3, h4⟩
    · rw [if_pos hl] at h
      obtain ⟨u, r, h1, h2, h3, h4⟩ := key v1 v0 b a h
      rw [min_eq_right hl.le, max_eq_left hl.le]
      exact ⟨b, a, u, r, (vtAt_numbered _ _ _).mp hb, (vtAt_numbered _ _ _).mp ha, he, h1, h2, h3, h4⟩

/-- **C80.** `plc_pfm` turns the vertices strictly between the two given ones around the line through these, and no others. All edges,
the one back to the first vertex included, keep their lengths up to 2⁻⁵⁰, and exactly if no vertex is very near to the line. -/
theorem C80_fold (c c' : Comp) (v0 v1 : Int) (t : ℝ) (hc : Proper c) (h : pfm c v0 v1 t = .ok c') :
    ∃ a b u r, Numbered c (min v0 v1) a ∧ Numbered c (max v0 v1) b ∧ dotOf u u = 1 ∧ 0 < r ∧ b = ⟨a.x + r * u.x, a.y + r * u.y, a.z + r * u.z⟩ ∧
      c'.isOpen = c.isOpen ∧ c'.vt.length = c.vt.length ∧
      (∀ (i : Nat) (p : V3), c.vt[i]? = some p → ∃ p', c'.vt[i]? = some p' ∧ (¬ (min v0 v1 < (i : Int) ∧ (i : Int) < max v0 v1) → p' = p) ∧
        (min v0 v1 < (i : Int) → (i : Int) < max v0 v1 → Clear u (p.sub a) → Turned u t (p.sub a) (p'.sub a))) ∧
      ∀ (i j : Nat) (p q p' q' : V3), IsEdge c i j → c.vt[i]? = some p → c.vt[j]? = some q → c'.vt[i]? = some p' → c'.vt[j]? = some q' →
        |apart p' q' - apart p q| ≤ 1 / 2 ^ 50 ∧ (Clear u (p.sub a) → Clear u (q.sub a) → apart p' q' = apart p q) := by
  obtain ⟨a, b, u, r, ha, hb, hne, hu, hr, hab, rfl⟩ := pfm_cases c c' v0 v1 t h
  obtain ⟨lo, hlo⟩ : ∃ lo, lo = min v0 v1 := ⟨_, rfl⟩
  obtain ⟨hi, hhi⟩ : ∃ hi, hi = max v0 v1 := ⟨_, rfl⟩
  have hlh : lo < hi := by rw [hlo, hhi]; omega
  rw [← hlo] at ha ⊢
  rw [← hhi] at hb ⊢
  obtain ⟨F, hF⟩ : ∃ F : Nat → V3 → V3, F = fun (i : Nat) v => if lo < (i : Int) ∧ (i : Int) < hi then add (turn u t (v.sub a)) a else v := ⟨_, rfl⟩
  rw [← hF]
  have hget : ∀ (i : Nat), (fixWrap { c with vt := c.vt.mapIdx F }).vt[i]? = (c.vt[i]?).map (F i) := by
    intro i; simp [fixWrap]
  have hlt : ∀ (j : Nat) (q : V3), c.vt[j]? = some q → j < c.vt.length := fun j q h => (List.getElem?_eq_some_iff.mp h).1
  refine ⟨a, b, u, r, ha, hb, hu, hr, ?_, ?_, ?_, ?_, ?_⟩
  · have := congrArg (fun v => add v a) hab
    simp only [sub_add] at this
    rw [this]
    simp only [add, V3.scale]
    refine V3.ext' ?_ ?_ ?_ <;> simp only <;> ring
  · simp only [fixWrap, List.length_mapIdx]
    cases ho : c.isOpen with
    | true => rfl
    | false =>
      have := hc ho
      simp; omega
  · simp [fixWrap]
  · intro i p hp
    refine ⟨F i p, by rw [hget, hp]; rfl, fun hn => by rw [hF]; exact if_neg hn, fun h1 h2 hcl => ?_⟩
    have : F i p = add (turn u t (p.sub a)) a := by rw [hF]; exact if_pos ⟨h1, h2⟩
    rw [this, add_sub, turn_exact u t _ hu hcl]
    exact rod_turned u t _ hu
  · intro i j p q p' q' hedge hp hq hp' hq'
    rw [hget, hp, Option.map_some, Option.some.injEq] at hp'
    rw [hget, hq, Option.map_some, Option.some.injEq] at hq'
    subst hp' hq'
    -- a vertex which is moved or on the axis
    have hmoved : ∀ (i : Nat) (v : V3), lo < (i : Int) ∧ (i : Int) < hi → apart (F i v) (rodAt a u t v) ≤ 2 * eps ∧ (Clear u (v.sub a) → F i v = rodAt a u t v) := by
      intro i v hin
      have : F i v = add (turn u t (v.sub a)) a := by rw [hF]; exact if_pos hin
      rw [this]
      unfold rodAt
      rw [apart_add]
      exact ⟨turn_rod u t _ hu, fun hcl => by rw [turn_exact u t _ hu hcl]⟩
    have haxis : ∀ (i : Nat) (v : V3), (v = a ∨ v = b) → ¬ (lo < (i : Int) ∧ (i : Int) < hi) → F i v = rodAt a u t v := by
      intro i v hv hn
      have h1 : F i v = v := by rw [hF]; exact if_neg hn
      rw [h1]
      rcases hv with rfl | rfl
      · exact (rodAt_axis v u t 0 v hu (by simp [V3.sub, V3.scale])).symm
      · exact (rodAt_axis a u t r v hu hab).symm
    have hmov : ∀ (i : Nat) (v : V3), (lo < (i : Int) ∧ (i : Int) < hi) ∨ (v = a ∨ v = b) →
        apart (F i v) (rodAt a u t v) ≤ 2 * eps ∧ (Clear u (v.sub a) → F i v = rodAt a u t v) := by
      intro i v hv
      by_cases hin : lo < (i : Int) ∧ (i : Int) < hi
      · exact hmoved i v hin
      · have := haxis i v (hv.resolve_left hin) hin
        rw [this, apart_self]
        exact ⟨by linarith [eps_pos], fun _ => rfl⟩
    have both : ((lo < (i : Int) ∧ (i : Int) < hi) ∨ (p = a ∨ p = b)) → ((lo < (j : Int) ∧ (j : Int) < hi) ∨ (q = a ∨ q = b)) →
        |apart (F i p) (F j q) - apart p q| ≤ 1 / 2 ^ 50 ∧ (Clear u (p.sub a) → Clear u (q.sub a) → apart (F i p) (F j q) = apart p q) := by
      intro h1 h2
      obtain ⟨e1, f1⟩ := hmov i p h1
      obtain ⟨e2, f2⟩ := hmov j q h2
      refine ⟨?_, fun c1 c2 => by rw [f1 c1, f2 c2, apart_rodAt a u t p q hu]⟩
      have := apart_near e1 e2
      rw [apart_rodAt a u t p q hu] at this
      refine this.trans (le_of_eq ?_)
      unfold eps; norm_num
    have e : ∀ {k : Nat} {x y : V3}, c.vt[k]? = some x → c.vt[k]? = some y → x = y := by
      intro k x y h1 h2
      rw [h1, Option.some.injEq] at h2
      exact h2
    have hil := hlt i p hp
    have hjl := hlt j q hq
    by_cases hi1 : lo < (i : Int) ∧ (i : Int) < hi
    · refine both (Or.inl hi1) ?_
      by_cases hj1 : lo < (j : Int) ∧ (j : Int) < hi
      · exact Or.inl hj1
      · refine Or.inr (Or.inr ?_)
        rcases hedge.2 with ⟨hj, -⟩ | ⟨ho, hl, hj⟩
        · have hh : hi = (j : Int) := by omega
          rw [hh] at hb
          rcases hb with ⟨k, hk, hbk⟩ | ⟨hk, -⟩ | ⟨hk, -⟩ | ⟨hk, -⟩ | ⟨hk, -⟩
          · rw [show k = j by omega] at hbk; exact e hq hbk
          all_goals omega
        · rcases hb with ⟨k, hk, hbk⟩ | ⟨hk, -⟩ | ⟨hk, -, hbk⟩ | ⟨hk, h', -⟩ | ⟨hk, h', -⟩
          · have := hlt k b hbk
            omega
          · omega
          · rw [hj] at hq; exact e hq hbk
          · rw [ho] at h'; simp at h'
          · rw [ho] at h'; simp at h'
    · by_cases hj1 : lo < (j : Int) ∧ (j : Int) < hi
      · refine both ?_ (Or.inl hj1)
        refine Or.inr (Or.inl ?_)
        rcases hedge.2 with ⟨hj, -⟩ | ⟨ho, hl, hj⟩
        · have hh : lo = (i : Int) := by omega
          rw [hh] at ha
          rcases ha with ⟨k, hk, hbk⟩ | ⟨hk, -⟩ | ⟨hk, -⟩ | ⟨hk, -⟩ | ⟨hk, -⟩
          · rw [show k = i by omega] at hbk; exact e hp hbk
          all_goals omega
        · rcases ha with ⟨k, hk, hbk⟩ | ⟨hk, -, hbk⟩ | ⟨hk, -⟩ | ⟨hk, h', -⟩ | ⟨hk, h', -⟩
          · omega
          · rw [show i = c.vt.length - 1 by omega] at hp; exact e hp hbk
          · omega
          · rw [ho] at h'; simp at h'
          · rw [ho] at h'; simp at h'
      · have h1 : F i p = p := by rw [hF]; exact if_neg hi1
        have h2 : F j q = q := by rw [hF]; exact if_neg hj1
        rw [h1, h2, sub_self, abs_zero]
        exact ⟨by norm_num, fun _ _ => rfl⟩

/-- **C80.** `plc_pfm` ends well if the two vertices are apart by more than 2⁻⁵¹ in some coordinate; so it ends the program when the
two numbers are the same, although the code has a return for this. -/
theorem C80_fold_outcome (c : Comp) (v0 v1 : Int) (t : ℝ) (a b : V3) (ha : Numbered c v0 a) (hb : Numbered c v1 b) :
    ((1 / 2 ^ 51 < |a.x - b.x| ∨ 1 / 2 ^ 51 < |a.y - b.y| ∨ 1 / 2 ^ 51 < |a.z - b.z|) → ∃ c', pfm c v0 v1 t = .ok c') ∧
      (a = b → pfm c v0 v1 t = .error .die) := by
  have hr : ∀ (i : Int) (p : V3), Numbered c i p → (decide (i ≥ -1) && decide (i ≤ (c.vt.length : Int))) = true := by
    rintro i p (⟨j, e, hj⟩ | ⟨e, -⟩ | ⟨e, -⟩ | ⟨e, -⟩ | ⟨e, -⟩)
    · have := (List.getElem?_eq_some_iff.mp hj).1
      simp; omega
    all_goals simp; omega
  unfold pfm
  rw [assertC_ok (hr v0 a ha), ok_bind, assertC_ok (hr v1 b hb), ok_bind, (vtAt_numbered _ _ _).mpr ha, ok_bind,
    (vtAt_numbered _ _ _).mpr hb, ok_bind]
  refine ⟨fun h => ?_, fun h => ?_⟩
  · have h51 : (2 : ℝ) * eps = 1 / 2 ^ 51 := by unfold eps; norm_num
    have hv : vectEq a b = false := by
      unfold vectEq
      rw [h51]
      by_contra hc
      rw [Bool.not_eq_false] at hc
      simp only [Bool.and_eq_true, decide_eq_true_eq] at hc
      obtain ⟨⟨⟨⟨⟨h1, h2⟩, h3⟩, h4⟩, h5⟩, h6⟩ := hc
      rcases h with h | h | h
      · rw [lt_abs] at h; rcases h with h | h <;> linarith
      · rw [lt_abs] at h; rcases h with h | h <;> linarith
      · rw [lt_abs] at h; rcases h with h | h <;> linarith
    rw [hv, assertC_ok (by rfl), ok_bind]
    have hbig : ∀ x y z w : ℝ, 1 / 2 ^ 51 < |w| → (w ^ 2 ≤ x * x + y * y + z * z) → ¬ (Real.sqrt (x * x + y * y + z * z) < eps) := by
      intro x y z w hw hle hlt
      have h1 : |w| ≤ Real.sqrt (x * x + y * y + z * z) := by
        rw [← Real.sqrt_sq_eq_abs]; exact Real.sqrt_le_sqrt hle
      have : eps < 1 / 2 ^ 51 := by unfold eps; norm_num
      linarith
    have hn : ∀ v : V3, (v = b.sub a ∨ v = a.sub b) → ¬ (norm3 v < eps ∧ -norm3 v < eps) := by
      rintro v (rfl | rfl) ⟨hlt, -⟩
      · rcases h with h | h | h
        · exact hbig _ _ _ _ h (by simp only [V3.sub]; nlinarith [sq_nonneg (b.y - a.y), sq_nonneg (b.z - a.z)]) hlt
        · exact hbig _ _ _ _ h (by simp only [V3.sub]; nlinarith [sq_nonneg (b.x - a.x), sq_nonneg (b.z - a.z)]) hlt
        · exact hbig _ _ _ _ h (by simp only [V3.sub]; nlinarith [sq_nonneg (b.x - a.x), sq_nonneg (b.y - a.y)]) hlt
      · rcases h with h | h | h
        · exact hbig _ _ _ _ h (by simp only [V3.sub]; nlinarith [sq_nonneg (a.y - b.y), sq_nonneg (a.z - b.z)]) hlt
        · exact hbig _ _ _ _ h (by simp only [V3.sub]; nlinarith [sq_nonneg (a.x - b.x), sq_nonneg (a.z - b.z)]) hlt
        · exact hbig _ _ _ _ h (by simp only [V3.sub]; nlinarith [sq_nonneg (a.x - b.x), sq_nonneg (a.y - b.y)]) hlt
    by_cases he : v0 = v1
    · rw [if_pos he]; exact ⟨_, rfl⟩
    · rw [if_neg he]
      by_cases hl : v1 < v0
      · rw [if_pos hl]
        simp only
        rw [if_neg (hn _ (Or.inr rfl))]
        exact ⟨_, rfl⟩
      · rw [if_neg hl]
        simp only
        rw [if_neg (hn _ (Or.inl rfl))]
        exact ⟨_, rfl⟩
  · subst h
    have : vectEq a a = true := by
      have := eps_pos
      simp [vectEq]; linarith
    rw [this]
    rfl

/-- A concrete fold: a square along its diagonal, by any angle; its edges keep their length 1. -/
theorem fold_square (t : ℝ) : ∃ c', pfm ⟨false, [⟨0, 0, 0⟩, ⟨1, 0, 0⟩, ⟨1, 1, 0⟩, ⟨0, 1, 0⟩]⟩ 0 2 t = .ok c' :=
  (C80_fold_outcome _ 0 2 t ⟨0, 0, 0⟩ ⟨1, 1, 0⟩ (Or.inl ⟨0, rfl, rfl⟩) (Or.inl ⟨2, rfl, rfl⟩)).1 (Or.inl (by norm_num))

end Plc.Motions
