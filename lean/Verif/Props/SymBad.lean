import Verif.Props.SymGroup

/-! # C92, C93: cases, and where the functions do not do what they should -/

namespace Plc.Symmetry

open Plc.Core Plc.FindCrossings Plc.RandomPolygon Plc.Equilateral Plc.Motions Plc.Measure Plc.Nearest

/-- A curve of one component. -/
def oneComp (o : Bool) (vt : List V3) (b a : V3) : SCurve := ⟨0, [⟨1, o, vt, b, a⟩]⟩

theorem vert_one {o : Bool} {vt : List V3} {b a : V3} (l : Loc) (p : V3) : vert (oneComp o vt b a) l = some p ↔ l.1 = 0 ∧ vt[l.2]? = some p := by
  obtain ⟨i, j⟩ := l
  unfold vert oneComp
  rcases i with _ | i <;> simp

theorem searchable_one {o : Bool} {vt : List V3} {b a : V3} (h : vt ≠ []) (h' : vt.length < 5000) : SearchableCurve (oneComp o vt b a) := by
  refine ⟨by simp [oneComp], ?_, ?_⟩
  · intro c hc
    simp only [oneComp, List.mem_singleton] at hc
    rw [hc]; exact h
  · intro c hc hl
    simp only [oneComp, List.mem_singleton] at hc
    rw [hc] at hl
    simp only at hl
    omega

theorem apart_le {p q : V3} {d : ℝ} (h0 : 0 ≤ d) (h : distSq p q ≤ d ^ 2) : apart p q ≤ d := Real.sqrt_le_iff.mpr ⟨h0, h⟩

theorem lt_apart {p q : V3} {d : ℝ} (h0 : 0 ≤ d) (h : d ^ 2 < distSq p q) : d < apart p q := by
  unfold apart; exact Real.lt_sqrt_of_sq_lt h

theorem apart_le_apart {p q r : V3} : apart p q ≤ apart p r → distSq p q ≤ distSq p r := by
  intro h
  unfold apart at h
  have : 0 ≤ distSq p r := by unfold distSq; positivity
  exact (Real.sqrt_le_sqrt_iff this).mp h

/-- The three reflections in the coordinate planes. -/
theorem reflX : ∃ A, reflectionMatrix ⟨1, 0, 0⟩ = .ok A ∧ ∀ p, image A p = ⟨-p.x, p.y, p.z⟩ := by
  obtain ⟨A, h1, h2⟩ := reflection_mirror ⟨1, 0, 0⟩ 1 (by simp [dotOf]) (by norm_num)
  rw [show V3.scale 1 ⟨1, 0, 0⟩ = (⟨1, 0, 0⟩ : V3) by simp [V3.scale]] at h1
  refine ⟨A, h1, fun p => ?_⟩
  rw [h2]
  simp only [mirror, V3.sub, V3.scale, dotOf]
  refine V3.ext' ?_ ?_ ?_ <;> simp only <;> ring

theorem reflY : ∃ A, reflectionMatrix ⟨0, 1, 0⟩ = .ok A ∧ ∀ p, image A p = ⟨p.x, -p.y, p.z⟩ := by
  obtain ⟨A, h1, h2⟩ := reflection_mirror ⟨0, 1, 0⟩ 1 (by simp [dotOf]) (by norm_num)
  rw [show V3.scale 1 ⟨0, 1, 0⟩ = (⟨0, 1, 0⟩ : V3) by simp [V3.scale]] at h1
  refine ⟨A, h1, fun p => ?_⟩
  rw [h2]
  simp only [mirror, V3.sub, V3.scale, dotOf]
  refine V3.ext' ?_ ?_ ?_ <;> simp only <;> ring

theorem reflZ : ∃ A, reflectionMatrix ⟨0, 0, 1⟩ = .ok A ∧ ∀ p, image A p = ⟨p.x, p.y, -p.z⟩ := by
  obtain ⟨A, h1, h2⟩ := reflection_mirror ⟨0, 0, 1⟩ 1 (by simp [dotOf]) (by norm_num)
  rw [show V3.scale 1 ⟨0, 0, 1⟩ = (⟨0, 0, 1⟩ : V3) by simp [V3.scale]] at h1
  refine ⟨A, h1, fun p => ?_⟩
  rw [h2]
  simp only [mirror, V3.sub, V3.scale, dotOf]
  refine V3.ext' ?_ ?_ ?_ <;> simp only <;> ring

theorem rigid_of {A : Mat} (f : V3 → V3) (h : ∀ p, image A p = f p) (hf : ∀ p q, distSq (f p) (f q) = distSq p q) : Rigid A := by
  intro p q
  rw [h, h]
  unfold apart
  rw [hf]

theorem distSq_pos {p q : V3} (h : p ≠ q) : 0 < apart p q := by
  rw [apart_eq]
  refine dist_pos.mpr fun h' => h ?_
  have h0 := congrArg (fun v => v 0) h'
  have h1 := congrArg (fun v => v 1) h'
  have h2 := congrArg (fun v => v 2) h'
  simp only [toE] at h0 h1 h2
  exact V3.ext' h0 h1 h2

/-- An exact symmetry of a curve of one component with distinct vertices, few enough. -/
theorem build_one (qs : QSort) {big : ℝ} (hbig : 0 < big) (A : Mat) (hA : Rigid A) {o : Bool} {vt : List V3} {b a : V3} (hn : vt.Nodup) (h : vt ≠ []) (h' : vt.length < 5000)
    (τ : Nat → Nat) (hτ : ∀ i p, vt[i]? = some p → vt[τ i]? = some (image A p)) :
    ∃ s, buildSymmetry qs big A (oneComp o vt b a) = .ok (some s) ∧ s.transform = A ∧
      ∀ i p, vt[i]? = some p → rd2 s.target (0, i) = .ok (0, τ i) := by
  obtain ⟨s, h1, h2, h3⟩ := C93_exact qs big 0 A (oneComp o vt b a) (searchable_one h h') hA (by simpa using hbig) (fun l => (0, τ l.2))
    (by
      intro l p hp
      obtain ⟨hp1, hp2⟩ := (vert_one l p).mp hp
      exact ⟨_, (vert_one _ _).mpr ⟨rfl, hτ _ _ hp2⟩, by rw [apart_self]⟩)
    (by
      intro l m p q hp hq hlm
      obtain ⟨hp1, hp2⟩ := (vert_one l p).mp hp
      obtain ⟨hq1, hq2⟩ := (vert_one m q).mp hq
      have : p ≠ q := by
        rintro rfl
        obtain ⟨i1, i2⟩ := List.getElem?_eq_some_iff.mp hp2
        obtain ⟨j1, j2⟩ := List.getElem?_eq_some_iff.mp hq2
        have := (List.Nodup.getElem_inj_iff hn).mp (i2.trans j2.symm)
        exact hlm (Prod.ext (by rw [hp1, hq1]) this)
      have := distSq_pos this
      linarith)
  exact ⟨s, h1, h2, fun i p hp => rd2_sent (h3 (0, i) ⟨p, (vert_one _ _).mpr ⟨rfl, hp⟩⟩)⟩

theorem rigid_id : Rigid identityMatrix := rigid_of id (fun p => image_identity p) (fun _ _ => rfl)

/-- **C93, finding.** `plc_coordplanes_reflection_group` looks only at the first two of its four symmetries (443): it can return a group
with a NULL symmetry in it, and `plc_symmetrize` then uses the NULL pointer. -/
theorem C93_coordplanes_null (qs : QSort) : ∃ (L : SCurve) (G : SymGroup), SearchableCurve L ∧ coordplanesGroup qs 100 L = .ok (some G) ∧
    G.sym[2]? = some none ∧ symmetrize L (some G) = .error .ub := by
  obtain ⟨L, hL⟩ : ∃ L, L = oneComp true [⟨0, 1, 0⟩, ⟨0, 2, 0⟩] ⟨0, 0, 0⟩ ⟨0, 0, 0⟩ := ⟨_, rfl⟩
  have hne : ([⟨0, 1, 0⟩, ⟨0, 2, 0⟩] : List V3) ≠ [] := by simp
  have hnd : ([⟨0, 1, 0⟩, ⟨0, 2, 0⟩] : List V3).Nodup := by simp
  have hv : ∀ (i : Nat) (p : V3), ([⟨0, 1, 0⟩, ⟨0, 2, 0⟩] : List V3)[i]? = some p → (i = 0 ∧ p = ⟨0, 1, 0⟩) ∨ (i = 1 ∧ p = ⟨0, 2, 0⟩) := by
    intro i p h
    rcases i with _ | _ | i
    · exact .inl ⟨rfl, by simpa using h.symm⟩
    · exact .inr ⟨rfl, by simpa using h.symm⟩
    · simp at h
  have hvert : ∀ l p, vert L l = some p → (l = (0, 0) ∧ p = ⟨0, 1, 0⟩) ∨ (l = (0, 1) ∧ p = ⟨0, 2, 0⟩) := by
    intro l p h
    rw [hL] at h
    obtain ⟨h1, h2⟩ := (vert_one l p).mp h
    rcases hv _ _ h2 with h | h
    · exact .inl ⟨Prod.ext h1 h.1, h.2⟩
    · exact .inr ⟨Prod.ext h1 h.1, h.2⟩
  have v0 : vert L (0, 0) = some ⟨0, 1, 0⟩ := by rw [hL]; exact (vert_one _ _).mpr ⟨rfl, rfl⟩
  have v1 : vert L (0, 1) = some ⟨0, 2, 0⟩ := by rw [hL]; exact (vert_one _ _).mpr ⟨rfl, rfl⟩
  obtain ⟨A, hA1, hA2⟩ := reflX
  obtain ⟨B, hB1, hB2⟩ := reflY
  obtain ⟨C, hC1, hC2⟩ := reflZ
  have hS : SearchableCurve L := by rw [hL]; exact searchable_one hne (by simp)
  obtain ⟨s0, a1, a2, a3⟩ := build_one qs (by norm_num : (0 : ℝ) < 100) identityMatrix rigid_id (o := true) (b := ⟨0, 0, 0⟩) (a := ⟨0, 0, 0⟩) hnd hne (by simp) id
    (by intro i p h; rw [image_identity]; exact h)
  obtain ⟨s1, b1, b2, b3⟩ := build_one qs (by norm_num : (0 : ℝ) < 100) A (rigid_of _ hA2 (by intro p q; simp only [distSq]; ring)) (o := true) (b := ⟨0, 0, 0⟩) (a := ⟨0, 0, 0⟩) hnd hne (by simp) id
    (by intro i p h; rw [hA2]; rcases hv i p h with ⟨rfl, rfl⟩ | ⟨rfl, rfl⟩ <;> simp)
  obtain ⟨s3, c1, c2, c3⟩ := build_one qs (by norm_num : (0 : ℝ) < 100) C (rigid_of _ hC2 (by intro p q; simp only [distSq]; ring)) (o := true) (b := ⟨0, 0, 0⟩) (a := ⟨0, 0, 0⟩) hnd hne (by simp) id
    (by intro i p h; rw [hC2]; rcases hv i p h with ⟨rfl, rfl⟩ | ⟨rfl, rfl⟩ <;> simp)
  rw [← hL] at a1 b1 c1
  have hB : buildSymmetry qs 100 B L = .ok none := by
    rcases C93_build qs 100 B L hS (by
      intro l p hp
      refine ⟨(0, 0), _, v0, ?_⟩
      rcases hvert l p hp with ⟨rfl, rfl⟩ | ⟨rfl, rfl⟩ <;> rw [hB2] <;> norm_num [distSq]) with ⟨s, τ, _, _, h, hu⟩ | h
    · exfalso
      have key : ∀ l p, vert L l = some p → τ l = (0, 0) := by
        intro l p hp
        obtain ⟨_, w, hw, hall⟩ := h l p hp
        rcases hvert _ w hw with ⟨e, _⟩ | ⟨e, rfl⟩
        · exact e
        · have := apart_le_apart (hall _ _ v0)
          rcases hvert l p hp with ⟨_, rfl⟩ | ⟨_, rfl⟩ <;> rw [hB2] at this <;> norm_num [distSq] at this
      obtain ⟨x, _, hx⟩ := hu (0, 0) ⟨_, v0⟩
      have h0 := hx (0, 0) ⟨⟨_, v0⟩, key _ _ v0⟩
      have h1 := hx (0, 1) ⟨⟨_, v1⟩, key _ _ v1⟩
      rw [← h1] at h0
      simp at h0
    · exact h.1
  refine ⟨L, ⟨[some s0, some s1, none, some s3], [0, 1, 2, 3]⟩, hS, ?_, rfl, ?_⟩
  · unfold coordplanesGroup
    rw [a1, ok_bind, hA1, ok_bind, b1, ok_bind, hB1, ok_bind, hB, ok_bind, hC1, ok_bind, c1, ok_bind]
    rfl
  · have hloc : L.locs = [(0, 0), (0, 1)] := by rw [hL]; rfl
    have hnum : L.num (0, 0) = .ok 0 := by rw [hL]; rfl
    have hsz : L.size = 2 := by rw [hL]; rfl
    have g0 : L.get (0, 0) = .ok ⟨0, 1, 0⟩ := get_eq v0
    have t0 := a3 0 _ rfl
    have t1 := b3 0 _ rfl
    simp only [id] at t0 t1
    have at0 : SymGroup.at ⟨[some s0, some s1, none, some s3], [0, 1, 2, 3]⟩ 0 = .ok s0 := rfl
    have at1 : SymGroup.at ⟨[some s0, some s1, none, some s3], [0, 1, 2, 3]⟩ 1 = .ok s1 := rfl
    have at2 : SymGroup.at ⟨[some s0, some s1, none, some s3], [0, 1, 2, 3]⟩ 2 = .error .ub := rfl
    have i0 : rd [0, 1, 2, 3] 0 = .ok 0 := rfl
    have i1 : rd [0, 1, 2, 3] 1 = .ok 1 := rfl
    have u0 : rd [false, false] 0 = .ok false := rfl
    show symLoop _ SCurve.get SCurve.set L.num L.locs L (List.replicate L.size false) = _
    rw [hloc, hsz, show List.replicate 2 false = [false, false] from rfl]
    unfold symLoop
    rw [hnum, ok_bind, u0, ok_bind, if_neg (by simp), show [some s0, some s1, none, some s3].length = 4 from rfl]
    simp only [avgLoop, at0, at1, at2, t0, t1, i0, i1, g0, ok_bind, error_bind]

/-- **C93, finding.** The identity and the three reflections are not closed under composition, and averaging over them need not give a
symmetric result: of the variation that moves one corner of a square in the direction of the first axis, `plc_symmetrize_variation` makes
one that is not mirrored by the reflection in the first axis. -/
theorem C93_coordplanes_no_group (qs : QSort) : ∃ (L : SCurve) (G : SymGroup) (s : Sym) (buf : List V3), SearchableCurve L ∧
    coordplanesGroup qs 1 L = .ok (some G) ∧
    symmetrizeVariation L [⟨1, 0, 0⟩, ⟨0, 0, 0⟩, ⟨0, 0, 0⟩, ⟨0, 0, 0⟩] (some G) = .ok buf ∧
    G.sym[1]? = some (some s) ∧ Plc.sent s (0, 0) = some (0, 1) ∧ buf[0]? = some ⟨1 / 2, 0, 0⟩ ∧ buf[1]? = some ⟨-1 / 4, 0, 0⟩ ∧
    image s.transform ⟨1 / 2, 0, 0⟩ = ⟨-1 / 2, 0, 0⟩ := by
  obtain ⟨vt, hvt⟩ : ∃ vt : List V3, vt = [⟨1, 1, 0⟩, ⟨-1, 1, 0⟩, ⟨-1, -1, 0⟩, ⟨1, -1, 0⟩] := ⟨_, rfl⟩
  obtain ⟨L, hL⟩ : ∃ L, L = oneComp true vt ⟨0, 0, 0⟩ ⟨0, 0, 0⟩ := ⟨_, rfl⟩
  have hne : vt ≠ [] := by rw [hvt]; simp
  have hlen : vt.length < 5000 := by rw [hvt]; simp
  have hnd : vt.Nodup := by rw [hvt]; norm_num
  have w0 : vt[0]? = some ⟨1, 1, 0⟩ := by rw [hvt]; rfl
  have w1 : vt[1]? = some ⟨-1, 1, 0⟩ := by rw [hvt]; rfl
  have w2 : vt[2]? = some ⟨-1, -1, 0⟩ := by rw [hvt]; rfl
  have w3 : vt[3]? = some ⟨1, -1, 0⟩ := by rw [hvt]; rfl
  have hv : ∀ (i : Nat) (p : V3), vt[i]? = some p → (i = 0 ∧ p = ⟨1, 1, 0⟩) ∨ (i = 1 ∧ p = ⟨-1, 1, 0⟩) ∨ (i = 2 ∧ p = ⟨-1, -1, 0⟩) ∨ (i = 3 ∧ p = ⟨1, -1, 0⟩) := by
    intro i p h
    rw [hvt] at h
    rcases i with _ | _ | _ | _ | i
    · exact .inl ⟨rfl, by simpa using h.symm⟩
    · exact .inr (.inl ⟨rfl, by simpa using h.symm⟩)
    · exact .inr (.inr (.inl ⟨rfl, by simpa using h.symm⟩))
    · exact .inr (.inr (.inr ⟨rfl, by simpa using h.symm⟩))
    · simp at h
  obtain ⟨A, hA1, hA2⟩ := reflX
  obtain ⟨B, hB1, hB2⟩ := reflY
  obtain ⟨C, hC1, hC2⟩ := reflZ
  have hS : SearchableCurve L := by rw [hL]; exact searchable_one hne hlen
  obtain ⟨s0, a1, a2, a3⟩ := build_one qs (by norm_num : (0 : ℝ) < 1) identityMatrix rigid_id (o := true) (b := ⟨0, 0, 0⟩) (a := ⟨0, 0, 0⟩) hnd hne hlen id
    (by intro i p h; rw [image_identity]; exact h)
  obtain ⟨s1, b1, b2, b3⟩ := build_one qs (by norm_num : (0 : ℝ) < 1) A (rigid_of _ hA2 (by intro p q; simp only [distSq]; ring)) (o := true) (b := ⟨0, 0, 0⟩) (a := ⟨0, 0, 0⟩) hnd hne hlen
    (fun i => if i = 0 then 1 else if i = 1 then 0 else if i = 2 then 3 else 2)
    (by intro i p h; rw [hA2]; rcases hv i p h with ⟨rfl, rfl⟩ | ⟨rfl, rfl⟩ | ⟨rfl, rfl⟩ | ⟨rfl, rfl⟩ <;> simp [hvt])
  obtain ⟨s2, d1, d2, d3⟩ := build_one qs (by norm_num : (0 : ℝ) < 1) B (rigid_of _ hB2 (by intro p q; simp only [distSq]; ring)) (o := true) (b := ⟨0, 0, 0⟩) (a := ⟨0, 0, 0⟩) hnd hne hlen
    (fun i => if i = 0 then 3 else if i = 1 then 2 else if i = 2 then 1 else 0)
    (by intro i p h; rw [hB2]; rcases hv i p h with ⟨rfl, rfl⟩ | ⟨rfl, rfl⟩ | ⟨rfl, rfl⟩ | ⟨rfl, rfl⟩ <;> simp [hvt])
  obtain ⟨s3, c1, c2, c3⟩ := build_one qs (by norm_num : (0 : ℝ) < 1) C (rigid_of _ hC2 (by intro p q; simp only [distSq]; ring)) (o := true) (b := ⟨0, 0, 0⟩) (a := ⟨0, 0, 0⟩) hnd hne hlen id
    (by intro i p h; rw [hC2]; rcases hv i p h with ⟨rfl, rfl⟩ | ⟨rfl, rfl⟩ | ⟨rfl, rfl⟩ | ⟨rfl, rfl⟩ <;> simp [hvt])
  rw [← hL] at a1 b1 c1 d1
  have at0 : SymGroup.at ⟨[some s0, some s1, some s2, some s3], [0, 1, 2, 3]⟩ 0 = .ok s0 := rfl
  have at1 : SymGroup.at ⟨[some s0, some s1, some s2, some s3], [0, 1, 2, 3]⟩ 1 = .ok s1 := rfl
  have at2 : SymGroup.at ⟨[some s0, some s1, some s2, some s3], [0, 1, 2, 3]⟩ 2 = .ok s2 := rfl
  have at3 : SymGroup.at ⟨[some s0, some s1, some s2, some s3], [0, 1, 2, 3]⟩ 3 = .ok s3 := rfl
  have n0 : L.num (0, 0) = .ok 0 := by rw [hL, hvt]; rfl
  have n1 : L.num (0, 1) = .ok 1 := by rw [hL, hvt]; rfl
  have n2 : L.num (0, 2) = .ok 2 := by rw [hL, hvt]; rfl
  have n3 : L.num (0, 3) = .ok 3 := by rw [hL, hvt]; rfl
  have m0 : ∀ p, s0.transform.app p = p := by intro p; rw [a2, app_image, image_identity]
  have m1 : ∀ p, s1.transform.app p = ⟨-p.x, p.y, p.z⟩ := by intro p; rw [b2, app_image, hA2]
  have m2 : ∀ p, s2.transform.app p = ⟨p.x, -p.y, p.z⟩ := by intro p; rw [d2, app_image, hB2]
  have m3 : ∀ p, s3.transform.app p = ⟨p.x, p.y, -p.z⟩ := by intro p; rw [c2, app_image, hC2]
  have t00 := a3 0 _ w0
  have t02 := a3 2 _ w2
  have t10 := b3 0 _ w0
  have t12 := b3 2 _ w2
  have t20 := d3 0 _ w0
  have t22 := d3 2 _ w2
  have t30 := c3 0 _ w0
  have t32 := c3 2 _ w2
  simp at t00 t02 t10 t12 t20 t22 t30 t32
  refine ⟨L, ⟨[some s0, some s1, some s2, some s3], [0, 1, 2, 3]⟩, s1, [⟨1 / 2, 0, 0⟩, ⟨-1 / 4, 0, 0⟩, ⟨-1 / 4, 0, 0⟩, ⟨1 / 4, 0, 0⟩], hS, ?_, ?_, rfl, ?_, rfl, rfl, ?_⟩
  · unfold coordplanesGroup
    rw [a1, ok_bind, hA1, ok_bind, b1, ok_bind, hB1, ok_bind, d1, ok_bind, hC1, ok_bind, c1, ok_bind]
    rfl
  · have hloc : L.locs = [(0, 0), (0, 1), (0, 2), (0, 3)] := by rw [hL, hvt]; rfl
    have hsz : L.size = 4 := by rw [hL, hvt]; rfl
    show symLoop _ (bufGet L) (bufSet L) L.num L.locs _ (List.replicate L.size false) = _
    rw [hloc, hsz, show List.replicate 4 false = [false, false, false, false] from rfl]
    have r0 : ∀ {α : Type} (a b c d : α), rd [a, b, c, d] 0 = .ok a := fun _ _ _ _ => rfl
    have r1 : ∀ {α : Type} (a b c d : α), rd [a, b, c, d] 1 = .ok b := fun _ _ _ _ => rfl
    have r2 : ∀ {α : Type} (a b c d : α), rd [a, b, c, d] 2 = .ok c := fun _ _ _ _ => rfl
    have r3 : ∀ {α : Type} (a b c d : α), rd [a, b, c, d] 3 = .ok d := fun _ _ _ _ => rfl
    have x0 : ∀ {α : Type} (a b c d v : α), wr [a, b, c, d] 0 v = .ok [v, b, c, d] := fun _ _ _ _ _ => rfl
    have x1 : ∀ {α : Type} (a b c d v : α), wr [a, b, c, d] 1 v = .ok [a, v, c, d] := fun _ _ _ _ _ => rfl
    have x2 : ∀ {α : Type} (a b c d v : α), wr [a, b, c, d] 2 v = .ok [a, b, v, d] := fun _ _ _ _ _ => rfl
    have x3 : ∀ {α : Type} (a b c d v : α), wr [a, b, c, d] 3 v = .ok [a, b, c, v] := fun _ _ _ _ _ => rfl
    simp only [symLoop, avgLoop, pushLoop, bufGet, bufSet, n0, n1, n2, n3, at0, at1, at2, at3, t00, t02, t10, t12, t20, t22, t30, t32, r0, r1, r2, r3,
      x0, x1, x2, x3, ok_bind, m0, m1, m2, m3, List.length_cons, List.length_nil, if_true, Bool.false_eq_true, if_false, Nat.zero_add, Nat.reduceAdd]
    norm_num [add, V3.scale]
  · have h := b3 0 _ w0
    obtain ⟨row, h1, h2⟩ := bind_ok_iff.mp h
    have h1' := rd_eq_ok.mp h1
    have h2' := rd_eq_ok.mp h2
    unfold Plc.sent
    rw [h1', Option.bind_some, h2']
    rfl
  · rw [b2, hA2]
    refine V3.ext' ?_ ?_ ?_ <;> norm_num

/-- **C92, finding.** `plc_symmetrize` does not renew the copies `vt[-1]` and `vt[nv]` (no call of `plc_fix_wrap`): a closed curve with the
right copies can have wrong ones afterwards. -/
theorem C92_stale_copies (qs : QSort) : ∃ (L : SCurve) (G : SymGroup) (L' : SCurve) (c c' : SComp),
    reflectionGroup qs 1 L ⟨1, 0, 0⟩ = .ok (some G) ∧ symmetrize L (some G) = .ok L' ∧ L.cp = [c] ∧ L'.cp = [c'] ∧ c.isOpen = false ∧
    c'.isOpen = false ∧ c.vt[0]? = some c.after ∧ c.vt.getLast? = some c.before ∧ c'.vt[0]? ≠ some c'.after := by
  obtain ⟨L, hL⟩ : ∃ L, L = oneComp false [⟨1, 0, 0⟩, ⟨-11 / 10, 0, 0⟩, ⟨0, 1, 0⟩] ⟨0, 1, 0⟩ ⟨1, 0, 0⟩ := ⟨_, rfl⟩
  have hS : SearchableCurve L := by rw [hL]; exact searchable_one (by simp) (by simp)
  have hvert : ∀ l p, vert L l = some p → (l = (0, 0) ∧ p = ⟨1, 0, 0⟩) ∨ (l = (0, 1) ∧ p = ⟨-11 / 10, 0, 0⟩) ∨ (l = (0, 2) ∧ p = ⟨0, 1, 0⟩) := by
    rintro ⟨i, j⟩ p h
    rw [hL] at h
    obtain ⟨h1, h2⟩ := (vert_one _ p).mp h
    simp only at h1 h2
    subst h1
    rcases j with _ | _ | _ | j
    · exact .inl ⟨rfl, by simpa using h2.symm⟩
    · exact .inr (.inl ⟨rfl, by simpa using h2.symm⟩)
    · exact .inr (.inr ⟨rfl, by simpa using h2.symm⟩)
    · simp at h2
  have v0 : vert L (0, 0) = some ⟨1, 0, 0⟩ := by rw [hL]; exact (vert_one _ _).mpr ⟨rfl, rfl⟩
  have v1 : vert L (0, 1) = some ⟨-11 / 10, 0, 0⟩ := by rw [hL]; exact (vert_one _ _).mpr ⟨rfl, rfl⟩
  have v2 : vert L (0, 2) = some ⟨0, 1, 0⟩ := by rw [hL]; exact (vert_one _ _).mpr ⟨rfl, rfl⟩
  have hfar : ∀ l m p q, vert L l = some p → vert L m = some q → l ≠ m → 2 * (1 / 10 : ℝ) < apart p q := by
    intro l m p q hp hq hlm
    refine lt_apart (by norm_num) ?_
    rcases hvert l p hp with ⟨rfl, rfl⟩ | ⟨rfl, rfl⟩ | ⟨rfl, rfl⟩ <;> rcases hvert m q hq with ⟨rfl, rfl⟩ | ⟨rfl, rfl⟩ | ⟨rfl, rfl⟩ <;>
      first | exact absurd rfl hlm | norm_num [distSq]
  obtain ⟨A, hA1, hA2⟩ := reflX
  obtain ⟨s0, a1, a2, a3⟩ := C93_exact qs 1 (1 / 10) identityMatrix L hS rigid_id (by norm_num) id
    (by intro l p hp; exact ⟨p, hp, by rw [image_identity, apart_self]; norm_num⟩) hfar
  obtain ⟨s1, b1, b2, b3⟩ := C93_exact qs 1 (1 / 10) A L hS (rigid_of _ hA2 (by intro p q; simp only [distSq]; ring)) (by norm_num)
    (fun l => if l = (0, 0) then (0, 1) else if l = (0, 1) then (0, 0) else (0, 2))
    (by
      intro l p hp
      rw [hA2]
      rcases hvert l p hp with ⟨rfl, rfl⟩ | ⟨rfl, rfl⟩ | ⟨rfl, rfl⟩
      · exact ⟨_, v1, apart_le (by norm_num) (by norm_num [distSq])⟩
      · exact ⟨_, v0, apart_le (by norm_num) (by norm_num [distSq])⟩
      · exact ⟨_, v2, apart_le (by norm_num) (by norm_num [distSq])⟩) hfar
  have m0 : ∀ p, s0.transform.app p = p := by intro p; rw [a2, app_image, image_identity]
  have m1 : ∀ p, s1.transform.app p = ⟨-p.x, p.y, p.z⟩ := by intro p; rw [b2, app_image, hA2]
  have t00 := rd2_sent (a3 (0, 0) ⟨_, v0⟩)
  have t02 := rd2_sent (a3 (0, 2) ⟨_, v2⟩)
  have t10 := rd2_sent (b3 (0, 0) ⟨_, v0⟩)
  have t12 := rd2_sent (b3 (0, 2) ⟨_, v2⟩)
  simp at t00 t02 t10 t12
  have at0 : SymGroup.at ⟨[some s0, some s1], [0, 1]⟩ 0 = .ok s0 := rfl
  have at1 : SymGroup.at ⟨[some s0, some s1], [0, 1]⟩ 1 = .ok s1 := rfl
  have i0 : rd [0, 1] 0 = .ok 0 := rfl
  have i1 : rd [0, 1] 1 = .ok 1 := rfl
  have n0 : L.num (0, 0) = .ok 0 := by rw [hL]; rfl
  have n1 : L.num (0, 1) = .ok 1 := by rw [hL]; rfl
  have n2 : L.num (0, 2) = .ok 2 := by rw [hL]; rfl
  refine ⟨L, ⟨[some s0, some s1], [0, 1]⟩, oneComp false [⟨21 / 20, 0, 0⟩, ⟨-21 / 20, 0, 0⟩, ⟨0, 1, 0⟩] ⟨0, 1, 0⟩ ⟨1, 0, 0⟩, 
    ⟨1, false, [⟨1, 0, 0⟩, ⟨-11 / 10, 0, 0⟩, ⟨0, 1, 0⟩], ⟨0, 1, 0⟩, ⟨1, 0, 0⟩⟩, ⟨1, false, [⟨21 / 20, 0, 0⟩, ⟨-21 / 20, 0, 0⟩, ⟨0, 1, 0⟩], ⟨0, 1, 0⟩, ⟨1, 0, 0⟩⟩,
    ?_, ?_, by rw [hL]; rfl, rfl, rfl, rfl, rfl, rfl, by norm_num⟩
  · unfold reflectionGroup
    rw [a1, ok_bind, hA1, ok_bind, b1, ok_bind]
    rfl
  · have hloc : L.locs = [(0, 0), (0, 1), (0, 2)] := by rw [hL]; rfl
    have hsz : L.size = 3 := by rw [hL]; rfl
    show symLoop _ SCurve.get SCurve.set L.num L.locs L (List.replicate L.size false) = _
    rw [hloc, hsz, show List.replicate 3 false = [false, false, false] from rfl]
    have r0 : ∀ {α : Type} (a b c : α), rd [a, b, c] 0 = .ok a := fun _ _ _ => rfl
    have r1 : ∀ {α : Type} (a b c : α), rd [a, b, c] 1 = .ok b := fun _ _ _ => rfl
    have r2 : ∀ {α : Type} (a b c : α), rd [a, b, c] 2 = .ok c := fun _ _ _ => rfl
    have x0 : ∀ {α : Type} (a b c v : α), wr [a, b, c] 0 v = .ok [v, b, c] := fun _ _ _ _ => rfl
    have x1 : ∀ {α : Type} (a b c v : α), wr [a, b, c] 1 v = .ok [a, v, c] := fun _ _ _ _ => rfl
    have x2 : ∀ {α : Type} (a b c v : α), wr [a, b, c] 2 v = .ok [a, b, v] := fun _ _ _ _ => rfl
    have g0 : ∀ (o : Bool) (a b c p q : V3), (oneComp o [a, b, c] p q).get (0, 0) = .ok a := fun _ _ _ _ _ _ => rfl
    have g1 : ∀ (o : Bool) (a b c p q : V3), (oneComp o [a, b, c] p q).get (0, 1) = .ok b := fun _ _ _ _ _ _ => rfl
    have g2 : ∀ (o : Bool) (a b c p q : V3), (oneComp o [a, b, c] p q).get (0, 2) = .ok c := fun _ _ _ _ _ _ => rfl
    have y0 : ∀ (o : Bool) (a b c p q v : V3), (oneComp o [a, b, c] p q).set (0, 0) v = .ok (oneComp o [v, b, c] p q) := fun _ _ _ _ _ _ _ => rfl
    have y1 : ∀ (o : Bool) (a b c p q v : V3), (oneComp o [a, b, c] p q).set (0, 1) v = .ok (oneComp o [a, v, c] p q) := fun _ _ _ _ _ _ _ => rfl
    have y2 : ∀ (o : Bool) (a b c p q v : V3), (oneComp o [a, b, c] p q).set (0, 2) v = .ok (oneComp o [a, b, v] p q) := fun _ _ _ _ _ _ _ => rfl
    obtain ⟨num, hnum⟩ : ∃ num, num = L.num := ⟨_, rfl⟩
    rw [← hnum] at n0 n1 n2 ⊢
    rw [hL]
    simp only [symLoop, avgLoop, pushLoop, n0, n1, n2, at0, at1, t00, t02, t10, t12, i0, i1, r0, r1, r2, x0, x1, x2, ok_bind, m0, m1,
      List.length_cons, List.length_nil, if_true, Bool.false_eq_true, if_false, Nat.zero_add, Nat.reduceAdd, g0, g1, g2, y0, y1, y2]
    norm_num [add, V3.scale]

/-- Two points that a half turn around the third axis swaps up to 1/10: `C93_rotation_symmetrized` applies, with a group of two elements. -/
example (qs : QSort) : ∃ G L', rotationGroup qs 1 (oneComp true [⟨1, 0, 0⟩, ⟨-11 / 10, 0, 0⟩] ⟨0, 0, 0⟩ ⟨0, 0, 0⟩) (V3.scale 3 ⟨0, 0, 1⟩) 2 = .ok (some G) ∧
    symmetrize (oneComp true [⟨1, 0, 0⟩, ⟨-11 / 10, 0, 0⟩] ⟨0, 0, 0⟩ ⟨0, 0, 0⟩) (some G) = .ok L' ∧
    ∀ l p, vert L' l = some p → ∃ m q, vert L' m = some q ∧ Turned ⟨0, 0, 1⟩ Real.pi p q := by
  obtain ⟨L, hL⟩ : ∃ L, L = oneComp true [⟨1, 0, 0⟩, ⟨-11 / 10, 0, 0⟩] ⟨0, 0, 0⟩ ⟨0, 0, 0⟩ := ⟨_, rfl⟩
  rw [← hL]
  have hS : SearchableCurve L := by rw [hL]; exact searchable_one (by simp) (by simp)
  have hvert : ∀ l p, vert L l = some p → (l = (0, 0) ∧ p = ⟨1, 0, 0⟩) ∨ (l = (0, 1) ∧ p = ⟨-11 / 10, 0, 0⟩) := by
    rintro ⟨i, j⟩ p h
    rw [hL] at h
    obtain ⟨h1, h2⟩ := (vert_one _ p).mp h
    simp only at h1 h2
    subst h1
    rcases j with _ | _ | j
    · exact .inl ⟨rfl, by simpa using h2.symm⟩
    · exact .inr ⟨rfl, by simpa using h2.symm⟩
    · simp at h2
  have v0 : vert L (0, 0) = some ⟨1, 0, 0⟩ := by rw [hL]; exact (vert_one _ _).mpr ⟨rfl, rfl⟩
  have v1 : vert L (0, 1) = some ⟨-11 / 10, 0, 0⟩ := by rw [hL]; exact (vert_one _ _).mpr ⟨rfl, rfl⟩
  have turn : ∀ p p', Turned ⟨0, 0, 1⟩ Real.pi p p' → p' = ⟨-p.x, -p.y, p.z⟩ := by
    intro p p' h
    have h1 := h.along
    have h2 := h.size
    have h3 := h.cosine
    rw [Real.cos_pi] at h3
    simp only [dotOf, perp] at h1 h2 h3
    have e : (p'.x + p.x) ^ 2 + (p'.y + p.y) ^ 2 = 0 := by nlinarith
    have ex : p'.x + p.x = 0 := by nlinarith [sq_nonneg (p'.x + p.x), sq_nonneg (p'.y + p.y)]
    have ey : p'.y + p.y = 0 := by nlinarith [sq_nonneg (p'.x + p.x), sq_nonneg (p'.y + p.y)]
    exact V3.ext' (by simp only; linarith) (by simp only; linarith) (by simp only; linarith)
  obtain ⟨G, L', h1, h2, _, _, h3⟩ := C93_rotation_symmetrized qs 1 (1 / 10) L hS ⟨0, 0, 1⟩ 3 (by simp [dotOf]) (by norm_num) 2 (by norm_num) (by norm_num)
    (by norm_num)
    (by
      intro k k0 k2 l p hp
      have : k = 1 := by omega
      subst this
      rcases hvert l p hp with ⟨rfl, rfl⟩ | ⟨rfl, rfl⟩
      · refine ⟨_, _, v1, fun p' h => ?_⟩
        rw [show ((1 : Nat) : ℝ) * (2 * Real.pi / ((2 : Nat) : ℝ)) = Real.pi by push_cast; ring] at h
        rw [turn _ _ h]
        exact apart_le (by norm_num) (by norm_num [distSq])
      · refine ⟨_, _, v0, fun p' h => ?_⟩
        rw [show ((1 : Nat) : ℝ) * (2 * Real.pi / ((2 : Nat) : ℝ)) = Real.pi by push_cast; ring] at h
        rw [turn _ _ h]
        exact apart_le (by norm_num) (by norm_num [distSq]))
    (by
      intro l m p q hp hq hlm
      refine lt_apart (by norm_num) ?_
      rcases hvert l p hp with ⟨rfl, rfl⟩ | ⟨rfl, rfl⟩ <;> rcases hvert m q hq with ⟨rfl, rfl⟩ | ⟨rfl, rfl⟩ <;>
        first | exact absurd rfl hlm | norm_num [distSq])
  refine ⟨G, L', h1, h2, ?_⟩
  intro l p hp
  obtain ⟨m, q, hm, ht⟩ := h3 1 (by norm_num) l p hp
  rw [show ((1 : Nat) : ℝ) * (2 * Real.pi / ((2 : Nat) : ℝ)) = Real.pi by push_cast; ring] at ht
  exact ⟨m, q, hm, ht⟩

end Plc.Symmetry
