import Verif.Proofs.FindCrossings2
import Verif.Props.FromCurve

/-! # C75: the crossings of a projection are found -/

namespace Plc

open Plc.Core Plc.FromCurve Plc.FindCrossings

/-- **C75.** Every crossing in the list is a real one, and none is listed twice. This needs nothing about the curve. -/
theorem C75_real (qs : QSort) (L : List Strand3) (cc : List (Crossing ℝ)) (h : findCrossings qs L = .ok (some cc)) :
    (∀ x ∈ cc, RealCrossing L x ∧ x.upperCmp < L.length ∧ x.lowerCmp < L.length) ∧
    cc.Pairwise (fun x y => ¬ AtStrands x y.upperCmp y.upperS y.lowerCmp y.lowerS) := by
  have ho : ∀ s ∈ L, s.1 = false := by
    intro s hs
    by_contra hc
    unfold findCrossings at h
    rw [if_pos (List.any_eq_true.mpr ⟨s, hs, by simpa using hc⟩)] at h
    simp at h
  rcases find_ok qs ho with ⟨-, e⟩ | ⟨c0, cs, e1, e2, hp⟩
  · rw [h] at e; simp at e
  · rw [h] at e2
    simp only [Except.ok.injEq, Option.some.injEq] at e2
    subst e2
    obtain ⟨s1, s2⟩ := collect_spec e1
    refine ⟨?_, (hp.pairwise_iff (fun {x y} hxy e => hxy (atStrands_symm e))).mpr s2⟩
    intro x hx
    obtain ⟨p, hpp, hv⟩ := (s1 x).mp (hp.mem_iff.mp hx)
    obtain ⟨t, u, E⟩ := entry_of hpp hv
    obtain ⟨i, j, t', u', a, b, -, -, -, -, -, -, h1, h2, _⟩ := E.real.places
    exact ⟨E.real, nv_lt (pointAt_iff h1).1, nv_lt (pointAt_iff h2).1⟩

/-- **C75.** All crossings are in the list: for a curve which passes the test of `make_zprojection_generic`, wherever two edges without
common vertices have points above each other, the list has an entry for these two points. -/
theorem C75_complete (qs : QSort) (L : List Strand3) (ho : ∀ s ∈ L, s.1 = false) (hc : (pairs L).any (bad L) = false) :
    ∃ cc, findCrossings qs L = .ok (some cc) ∧
      ∀ (c i d j : Nat) (t u : ℝ) (a b : V3), ApartEdges L c i d j → 0 ≤ t → t ≤ 1 → 0 ≤ u → u ≤ 1 → PointAt L c i t a → PointAt L d j u b →
        a.x = b.x → a.y = b.y → ∃ x ∈ cc, AtStrands x c (i + t) d (j + u) := by
  rw [List.any_eq_false] at hc
  have hc' : ∀ p ∈ pairs L, bad L p = false := fun p hp => by simpa using hc p hp
  rcases find_ok qs ho with ⟨e, -⟩ | ⟨c0, cs, e1, e2, hp⟩
  · obtain ⟨cc, hcc⟩ := some_collect (fun p hp => visit_clean (hc' p hp))
    rw [hcc] at e
    simp at e
  refine ⟨cs, e2, ?_⟩
  obtain ⟨s1, -⟩ := collect_spec e1
  have main : ∀ (c i d j : Nat) (t u : ℝ) (a b : V3), ((c, i), (d, j)) ∈ pairs L → 0 ≤ t → t ≤ 1 → 0 ≤ u → u ≤ 1 → PointAt L c i t a →
      PointAt L d j u b → a.x = b.x → a.y = b.y → ∃ x ∈ cs, AtStrands x c (i + t) d (j + u) := by
    intro c i d j t u a b hpp t0 t1 u0 u1 ha hb hx hy
    obtain ⟨w, hw⟩ := visit_clean (hc' _ hpp)
    rcases visit_some hpp hw with ⟨rfl, -⟩ | ⟨x, t', u', rfl, E⟩
    · exact (clean_separated hpp (hc' _ hpp) hw t0 t1 u0 u1 ha hb hx hy).elim
    · obtain ⟨rfl, rfl⟩ := E.only t u a b ha hb hx hy
      exact ⟨x, hp.mem_iff.mpr ((s1 x).mpr ⟨_, hpp, hw⟩), E.strands⟩
  intro c i d j t u a b hap t0 t1 u0 u1 ha hb hx hy
  rcases apart_pairs (pointAt_iff ha).1 (pointAt_iff hb).1 hap with h | h
  · exact main c i d j t u a b h t0 t1 u0 u1 ha hb hx hy
  · obtain ⟨x, hx, hs⟩ := main d j c i u t b a h u0 u1 t0 t1 hb ha hx.symm hy.symm
    refine ⟨x, hx, ?_⟩
    rcases hs with h | h
    · exact .inr h
    · exact .inl h

/-- All crossings are in the list for a curve in general position, too: if no vertex is near the line through an edge it does not belong
to, and the list could be made. -/
theorem C75_complete_generic (qs : QSort) (L : List Strand3) (hg : GenericProjection L) (cc : List (Crossing ℝ))
    (h : findCrossings qs L = .ok (some cc)) (c i d j : Nat) (t u : ℝ) (a b : V3) (hap : ApartEdges L c i d j) (t0 : 0 ≤ t) (t1 : t ≤ 1)
    (u0 : 0 ≤ u) (u1 : u ≤ 1) (ha : PointAt L c i t a) (hb : PointAt L d j u b) (hx : a.x = b.x) (hy : a.y = b.y) :
    ∃ x ∈ cc, AtStrands x c (i + t) d (j + u) := by
  have ho : ∀ s ∈ L, s.1 = false := by
    intro s hs
    by_contra hc
    unfold findCrossings at h
    rw [if_pos (List.any_eq_true.mpr ⟨s, hs, by simpa using hc⟩)] at h
    simp at h
  rcases find_ok qs ho with ⟨-, e⟩ | ⟨c0, cs, e1, e2, hp⟩
  · rw [h] at e; simp at e
  rw [h] at e2
  simp only [Except.ok.injEq, Option.some.injEq] at e2
  subst e2
  obtain ⟨s1, -⟩ := collect_spec e1
  obtain ⟨v1, -⟩ := collect_some e1
  -- areas are not small
  have hbig : ∀ (c i d j : Nat), i < nv L c → j < nv L d → ApartEdges L c i d j →
      (side (project (vtx L c i)) (project (vtx L c (i + 1))) (project (vtx L d j)) *
        side (project (vtx L c i)) (project (vtx L c (i + 1))) (project (vtx L d (j + 1))) = 1 ∨
      side (project (vtx L c i)) (project (vtx L c (i + 1))) (project (vtx L d j)) *
        side (project (vtx L c i)) (project (vtx L c (i + 1))) (project (vtx L d (j + 1))) = -1) := by
    intro c i d j hi hj hap
    obtain ⟨s, g1, g2, g3, -⟩ := vtx_spec hi
    obtain ⟨s', k1, k2, k3, -⟩ := vtx_spec hj
    obtain ⟨b1, b2⟩ := hg c i d j s s' _ _ _ _ g1 g2 g3 k1 k2 k3 hap
    rcases side_cases (vtx L c i) (vtx L c (i + 1)) (vtx L d j) with ⟨e, -⟩ | ⟨e, -⟩ | ⟨-, e⟩ <;>
    rcases side_cases (vtx L c i) (vtx L c (i + 1)) (vtx L d (j + 1)) with ⟨e', -⟩ | ⟨e', -⟩ | ⟨-, e'⟩
    all_goals first
      | (rw [e, e']; decide)
      | (exfalso; unfold area at e; linarith)
      | (exfalso; unfold area at e'; linarith)
  have main : ∀ (c i d j : Nat) (t u : ℝ) (a b : V3), ((c, i), (d, j)) ∈ pairs L → 0 ≤ t → t ≤ 1 → 0 ≤ u → u ≤ 1 → PointAt L c i t a →
      PointAt L d j u b → a.x = b.x → a.y = b.y → ∃ x ∈ cc, AtStrands x c (i + t) d (j + u) := by
    intro c i d j t u a b hpp t0 t1 u0 u1 ha hb hx hy
    obtain ⟨w, hw⟩ := v1 _ hpp
    rcases visit_some hpp hw with ⟨rfl, hn⟩ | ⟨x, t', u', rfl, E⟩
    · exfalso
      obtain ⟨hi, p1, p2⟩ := pointAt_iff ha
      obtain ⟨hj, q1, q2⟩ := pointAt_iff hb
      rw [p1, q1] at hx
      rw [p2, q2] at hy
      rcases hbig c i d j hi hj (pairs_apart hpp) with k1 | k1
      · exact separated (sameSide k1) u0 u1 hx hy
      · rcases hbig d j c i hj hi (apart_symm (pairs_apart hpp)) with k2 | k2
        · exact separated (sameSide k2) t0 t1 hx.symm hy.symm
        · exact hn ⟨k1, k2⟩
    · obtain ⟨rfl, rfl⟩ := E.only t u a b ha hb hx hy
      exact ⟨x, hp.mem_iff.mpr ((s1 x).mpr ⟨_, hpp, hw⟩), E.strands⟩
  rcases apart_pairs (pointAt_iff ha).1 (pointAt_iff hb).1 hap with h | h
  · exact main c i d j t u a b h t0 t1 u0 u1 ha hb hx hy
  · obtain ⟨x, hx, hs⟩ := main d j c i u t b a h u0 u1 t0 t1 hb ha hx.symm hy.symm
    refine ⟨x, hx, ?_⟩
    rcases hs with h | h
    · exact .inr h
    · exact .inl h

/-- A component which is not closed ends the program. -/
theorem C75_open (qs : QSort) (L : List Strand3) (s : Strand3) (hs : s ∈ L) (ho : s.1 = true) : findCrossings qs L = .error .die := by
  unfold findCrossings
  rw [if_pos (List.any_eq_true.mpr ⟨s, hs, ho⟩)]

namespace FindCrossings

theorem shape_move (L : List Strand3) (c i : Nat) (d : V3) :
    (moveVertex L c i d).map (fun s => (s.1, s.2.length)) = L.map (fun s => (s.1, s.2.length)) := by
  unfold moveVertex
  apply List.ext_getElem?
  intro k
  rw [List.getElem?_map, List.getElem?_map, List.getElem?_modify]
  cases L[k]? with
  | none => rfl
  | some s =>
    by_cases h : c = k
    · simp [h]
    · simp [h]

theorem shape_shake (rnd : Nat → V3) : ∀ (l : List ((Nat × Nat) × (Nat × Nat))) (k : Nat) (L : List Strand3),
    (shake rnd l k L).2.map (fun s => (s.1, s.2.length)) = L.map (fun s => (s.1, s.2.length))
  | [], _, _ => rfl
  | p :: l, k, L => by
    unfold shake
    rw [shape_shake rnd l, shape_move, shape_move, shape_move, shape_move]

theorem passes_some (thin : List Strand3 → Bool) (rnd : Nat → V3) : ∀ (fuel k : Nat) (L : List Strand3) (k' : Nat) (G : List Strand3),
    passes thin rnd fuel k L = (k', some G) →
    (pairs G).any (bad G) = false ∧ thin G = false ∧ G.map (fun s => (s.1, s.2.length)) = L.map (fun s => (s.1, s.2.length))
  | 0, k, L, k', G, h => by simp [passes] at h
  | fuel + 1, k, L, k', G, h => by
    unfold passes at h
    split at h
    · simp at h
    · next ht =>
      split at h
      · obtain ⟨h1, h2, h3⟩ := passes_some thin rnd fuel _ _ k' G h
        exact ⟨h1, h2, by rw [h3, shape_shake]⟩
      · next hb =>
        simp only [Prod.mk.injEq, Option.some.injEq] at h
        obtain ⟨-, rfl⟩ := h
        exact ⟨by simpa using hb, by simpa using ht, rfl⟩

theorem makeGeneric_clean {thin : List Strand3 → Bool} (rnd : Nat → V3) (k : Nat) {L : List Strand3} (ht : thin L = false)
    (hc : (pairs L).any (bad L) = false) : makeGeneric thin rnd k L = (k, some L) := by
  unfold makeGeneric passes
  rw [ht, hc]
  rfl

end FindCrossings

/-- What `make_zprojection_generic` returns passes its own test, so all crossings of it are found, and it has the components and the
numbers of vertices of the curve; a curve which passes the test is returned as it is. -/
theorem C75_made_generic (thin : List Strand3 → Bool) (rnd : Nat → V3) (k : Nat) (L : List Strand3) :
    (∀ k' G, makeGeneric thin rnd k L = (k', some G) →
      (pairs G).any (bad G) = false ∧ G.map (fun s => (s.1, s.2.length)) = L.map (fun s => (s.1, s.2.length))) ∧
    (thin L = false → (pairs L).any (bad L) = false → makeGeneric thin rnd k L = (k, some L)) :=
  ⟨fun k' G h => ⟨(passes_some thin rnd 5 k L k' G h).1, (passes_some thin rnd 5 k L k' G h).2.2⟩, makeGeneric_clean rnd k⟩

/-- The random axes have no effect: the curve which is rotated is not the one which is projected. -/
theorem C75_rotation_unused (qs : QSort) (thin : List Strand3 → Bool) (axis axis' : Nat → V3) (rnd : Nat → V3) (L : List Strand3) :
    fromPlCurve qs thin axis rnd L = fromPlCurve qs thin axis' rnd L := by
  have key : ∀ (fuel n k : Nat) (w w' : List Strand3), attempts qs thin axis rnd L fuel n k w = attempts qs thin axis' rnd L fuel n k w' := by
    intro fuel
    induction fuel with
    | zero => intro n k w w'; rfl
    | succ fuel ih =>
      intro n k w w'
      unfold attempts
      simp only
      cases makeGeneric thin rnd k L with
      | mk k2 G =>
        cases G with
        | none => exact ih ..
        | some G =>
          simp only
          cases findCrossings qs G with
          | error e => rfl
          | ok o =>
            cases o with
            | none => exact ih ..
            | some cc =>
              simp only [ok_bind]
              cases fromCrossings nearR qs G.length (0.33, 0.66) cc with
              | error e => rfl
              | ok r =>
                cases r with
                | none => exact ih ..
                | some pd => rfl
  exact key 9 0 0 L L

/-- For a curve which passes the test of `make_zprojection_generic`, neither the random axes nor the number of attempts matter: all
attempts look at the same projection along the z axis and do the same. If the first one does not make a diagram, because two strands
are at the same place, none of them does. -/
theorem C75_attempts_alike (qs : QSort) (thin : List Strand3 → Bool) (axis : Nat → V3) (rnd : Nat → V3) (L : List Strand3)
    (ho : ∀ s ∈ L, s.1 = false) (ht : thin L = false) (hc : (pairs L).any (bad L) = false) :
    ∃ cc, findCrossings qs L = .ok (some cc) ∧ fromPlCurve qs thin axis rnd L = fromCrossings nearR qs L.length (0.33, 0.66) cc := by
  obtain ⟨cc, hcc, -⟩ := C75_complete qs L ho hc
  refine ⟨cc, hcc, ?_⟩
  have key : ∀ (fuel n k : Nat) (w : List Strand3), 0 < fuel →
      attempts qs thin axis rnd L fuel n k w = fromCrossings nearR qs L.length (0.33, 0.66) cc := by
    intro fuel
    induction fuel with
    | zero => intro n k w h; omega
    | succ fuel ih =>
      intro n k w _
      unfold attempts
      simp only
      rw [makeGeneric_clean rnd k ht hc]
      simp only
      rw [hcc]
      simp only [ok_bind]
      cases hr : fromCrossings nearR qs L.length (0.33, 0.66) cc with
      | error e => rfl
      | ok r =>
        simp only [ok_bind]
        cases r with
        | some pd => rfl
        | none =>
          simp only
          by_cases h0 : fuel = 0
          · subst h0
            rfl
          · rw [ih _ _ _ (by omega), hr]
  exact key 9 0 0 L (by omega)

/-- **C75.** The diagram of a curve: if the crossings of its projection along the z axis are apart from each other, on every component,
and can be drawn in the plane, then `pd_code_from_plCurve` returns a diagram which passes `pd_ok` and shows these crossings. -/
theorem C75_diagram (qs : QSort) (thin : List Strand3 → Bool) (axis : Nat → V3) (rnd : Nat → V3) (L : List Strand3)
    (ho : ∀ s ∈ L, s.1 = false) (ht : thin L = false) (hc : (pairs L).any (bad L) = false) (cc : List (Crossing ℝ))
    (hcc : findCrossings qs L = .ok (some cc)) (hS : Spread nearR L.length cc)
    (inn0 : Nat × Bool → Nat) (cross0 : List Cross) (edge0 : List Edge) (hD : Draws cc inn0 cross0 edge0) (hP : PlaneDiagram cross0 edge0)
    (hsmall : 4 * cc.length < 2 ^ 31) :
    ∃ caps pd σ inn out, fromPlCurve qs thin axis rnd L = .ok (some (caps, pd)) ∧ Shows L.length cc pd σ inn out ∧
      PlaneDiagram pd.cross pd.edge ∧ ∀ q, Ok.pdOk q caps pd = .ok true := by
  have hr : ∀ a, nearR a a = true := fun a => by
    unfold nearR
    rw [sub_self, abs_zero]
    exact decide_eq_true (by norm_num)
  obtain ⟨cc', h1, h2⟩ := C75_attempts_alike qs thin axis rnd L ho ht hc
  rw [hcc] at h1
  cases h1
  rw [h2]
  exact C74_from_crossings nearR hr qs L.length (0.33, 0.66) cc hS inn0 cross0 edge0 hD hP hsmall

/-- A curve of one component whose projection has no crossings gets the loop. -/
theorem C75_no_crossings (qs : QSort) (thin : List Strand3 → Bool) (axis : Nat → V3) (rnd : Nat → V3) (vs : List V3)
    (ht : thin [(false, vs)] = false) (hc : (pairs [(false, vs)]).any (bad [(false, vs)]) = false)
    (hno : ∀ (i j : Nat) (t u : ℝ) (a b : V3), ApartEdges [(false, vs)] 0 i 0 j → 0 ≤ t → t ≤ 1 → 0 ≤ u → u ≤ 1 →
      PointAt [(false, vs)] 0 i t a → PointAt [(false, vs)] 0 j u b → ¬ (a.x = b.x ∧ a.y = b.y)) :
    ∃ caps pd σ inn out, fromPlCurve qs thin axis rnd [(false, vs)] = .ok (some (caps, pd)) ∧
      Shows 1 [⟨0, 0, (0.33 : ℝ), 0.66, 1⟩] pd σ inn out ∧ PlaneDiagram pd.cross pd.edge ∧ ∀ q, Ok.pdOk q caps pd = .ok true := by
  have hr : ∀ a, nearR a a = true := fun a => by
    unfold nearR
    rw [sub_self, abs_zero]
    exact decide_eq_true (by norm_num)
  obtain ⟨cc, h1, h2⟩ := C75_attempts_alike qs thin axis rnd [(false, vs)] (by simp) ht hc
  have hnil : cc = [] := by
    rw [List.eq_nil_iff_forall_not_mem]
    intro x hx
    obtain ⟨r1, -⟩ := C75_real qs _ cc h1
    obtain ⟨⟨i, j, t, u, a, b, -, t0, t1, -, u0, u1, pa, pb, hx, hy, -, hap, -⟩, c1, c2⟩ := r1 x hx
    have e1 : x.upperCmp = 0 := by simpa using c1
    have e2 : x.lowerCmp = 0 := by simpa using c2
    rw [e1] at pa hap
    rw [e2] at pb hap
    exact hno i j t u a b hap t0.le t1.le u0.le u1.le pa pb ⟨hx, hy⟩
  subst hnil
  rw [h2]
  have n1 : nearR 0.33 0.66 = false := by
    unfold nearR
    rw [decide_eq_false_iff_not]
    rw [not_lt, le_abs]
    right
    norm_num
  have n2 : nearR 0.66 0.33 = false := by
    unfold nearR
    rw [decide_eq_false_iff_not]
    rw [not_lt, le_abs]
    left
    norm_num
  exact C74_no_crossings nearR hr qs ((0.33 : ℝ), (0.66 : ℝ)) n1 n2 (by norm_num)

/-! ### A curve with one crossing -/

namespace FindCrossings

/-- A closed curve with four vertices whose first and third edges cross in the projection. -/
noncomputable def bow : List Strand3 := [(false, [⟨0, 0, 0⟩, ⟨2, 2, 0⟩, ⟨0, 2, 1⟩, ⟨2, 0, 1⟩])]

theorem bow_pairs : pairs bow = [((0, 0), (0, 2)), ((0, 1), (0, 3))] := rfl

theorem arg_44 : Complex.arg ⟨4, 4⟩ = Real.pi / 4 := by
  have h : (⟨4, 4⟩ : ℂ) = ((4 * Real.sqrt 2 : ℝ) : ℂ) * (Complex.cos ((Real.pi / 4 : ℝ) : ℂ) + Complex.sin ((Real.pi / 4 : ℝ) : ℂ) * Complex.I) := by
    rw [← Complex.ofReal_cos, ← Complex.ofReal_sin, Real.cos_pi_div_four, Real.sin_pi_div_four]
    have h2 : Real.sqrt 2 * Real.sqrt 2 = 2 := Real.mul_self_sqrt (by norm_num)
    apply Complex.ext
    · simp
      linarith
    · simp
      linarith
  rw [h]
  exact Complex.arg_mul_cos_add_sin_mul_I (by positivity) ⟨by linarith [Real.pi_pos], by linarith [Real.pi_pos]⟩

theorem far (x y : ℝ) (h : 1 ≤ x ^ 2 + y ^ 2) : ¬ (Real.sqrt (x ^ 2 + y ^ 2) < 1e-8) := by
  have : (1 : ℝ) ≤ Real.sqrt (x ^ 2 + y ^ 2) := by
    rw [Real.one_le_sqrt]
    exact h
  intro hc
  have : (1e-8 : ℝ) < 1 := by norm_num
  linarith

theorem angle_44 {a b : V3} (ha : a.z = 0) (hb : b.z = 0) (h1 : a.x * b.x + a.y * b.y = 4) (h2 : |a.x * b.y - a.y * b.x| = 4) :
    angle a b = (Real.pi / 4, true) := by
  apply Prod.ext
  · rw [angle_flat ha hb, h1, h2, arg_44]
  · unfold angle V3.dot
    simp only [ha, hb, mul_zero, add_zero]
    rw [h1]
    exact decide_eq_true (.inr (by norm_num))

theorem bow_locate : (locate (project ⟨0, 0, 0⟩) (project ⟨2, 2, 0⟩) (project ⟨0, 2, 1⟩) (project ⟨2, 0, 1⟩)).isNone = false := by
  have a1 : angle ((project ⟨0, 0, 0⟩).sub (project ⟨2, 0, 1⟩)) ((project ⟨0, 2, 1⟩).sub (project ⟨2, 0, 1⟩)) = (Real.pi / 4, true) :=
    angle_44 (by simp [project_eq, V3.sub]) (by simp [project_eq, V3.sub]) (by simp [project_eq, V3.sub]; norm_num)
      (by simp [project_eq, V3.sub]; norm_num)
  have a3 : angle ((project ⟨2, 0, 1⟩).sub (project ⟨0, 0, 0⟩)) ((project ⟨2, 2, 0⟩).sub (project ⟨0, 0, 0⟩)) = (Real.pi / 4, true) :=
    angle_44 (by simp [project_eq, V3.sub]) (by simp [project_eq, V3.sub]) (by simp [project_eq, V3.sub]; norm_num)
      (by simp [project_eq, V3.sub]; norm_num)
  have hpi := Real.two_le_pi
  have k : ¬ (Real.pi / 4 < 1e-8) := by
    rw [not_lt]
    norm_num
    linarith
  have k2 : ¬ (Real.pi - Real.pi / 4 - Real.pi / 4 < 1e-8) := by
    rw [not_lt]
    norm_num
    linarith
  have d : ¬ (dist3 (project ⟨0, 0, 0⟩) (project ⟨2, 0, 1⟩) < 1e-8) := by
    rw [dist3_flat (by rw [project_eq]) (by rw [project_eq])]
    simp only [project_eq]
    exact far _ _ (by norm_num)
  unfold locate
  rw [a1, a3]
  simp only
  rw [if_neg (by simp), if_neg (by rintro (h | h) <;> exact k h), if_neg (by rintro (h | h); exacts [d h, k2 h])]
  rfl

theorem side_pos {A B C : V3} (h : 1e-10 < area A B C) : side (project A) (project B) (project C) = 1 := by
  rcases side_cases A B C with ⟨e, -⟩ | ⟨-, e⟩ | ⟨-, e⟩
  · exact e
  · linarith
  · linarith [le_abs_self (area A B C)]

theorem side_neg {A B C : V3} (h : area A B C < -1e-10) : side (project A) (project B) (project C) = -1 := by
  rcases side_cases A B C with ⟨-, e⟩ | ⟨e, -⟩ | ⟨-, e⟩
  · linarith
  · exact e
  · linarith [neg_abs_le (area A B C)]

theorem flat_far {A B : V3} (h : 1 ≤ (A.x - B.x) ^ 2 + (A.y - B.y) ^ 2) : ¬ (dist3 (project A) (project B) < 1e-8) := by
  rw [dist3_flat (by rw [project_eq]) (by rw [project_eq])]
  simp only [project_eq]
  exact far _ _ h

theorem bow_sides : side (project ⟨0, 0, 0⟩) (project ⟨2, 2, 0⟩) (project ⟨0, 2, 1⟩) * side (project ⟨0, 0, 0⟩) (project ⟨2, 2, 0⟩) (project ⟨2, 0, 1⟩) = -1 ∧
    side (project ⟨0, 2, 1⟩) (project ⟨2, 0, 1⟩) (project ⟨0, 0, 0⟩) * side (project ⟨0, 2, 1⟩) (project ⟨2, 0, 1⟩) (project ⟨2, 2, 0⟩) = -1 := by
  rw [side_pos (by unfold area; norm_num), side_neg (by unfold area; norm_num), side_neg (by unfold area; norm_num),
    side_pos (by unfold area; norm_num)]
  decide

theorem bow_sides' : side (project ⟨2, 2, 0⟩) (project ⟨0, 2, 1⟩) (project ⟨2, 0, 1⟩) * side (project ⟨2, 2, 0⟩) (project ⟨0, 2, 1⟩) (project ⟨0, 0, 0⟩) = 1 := by
  rw [side_pos (by unfold area; norm_num), side_pos (by unfold area; norm_num)]
  decide

theorem bow_clean : (pairs bow).any (bad bow) = false := by
  rw [bow_pairs]
  have b1 : bad bow ((0, 0), (0, 2)) = false := by
    show trouble (project ⟨0, 0, 0⟩) (project ⟨2, 2, 0⟩) (project ⟨0, 2, 1⟩) (project ⟨2, 0, 1⟩) = false
    unfold trouble
    rw [if_neg, if_neg]
    · simp only
      rw [if_pos bow_sides]
      exact bow_locate
    · rintro (h | h | h | h) <;> exact flat_far (by norm_num) h
    · rintro (h | h) <;> exact flat_far (by norm_num) h
  have b2 : bad bow ((0, 1), (0, 3)) = false := by
    show trouble (project ⟨2, 2, 0⟩) (project ⟨0, 2, 1⟩) (project ⟨2, 0, 1⟩) (project ⟨0, 0, 0⟩) = false
    unfold trouble
    rw [if_neg, if_neg]
    · simp only
      rw [bow_sides', if_neg (fun h => absurd h.1 (by decide))]
      rw [decide_eq_false_iff_not]
      rintro (h | h)
      · exact absurd h.1 (by decide)
      · exact h.1 rfl
    · rintro (h | h | h | h) <;> exact flat_far (by norm_num) h
    · rintro (h | h) <;> exact flat_far (by norm_num) h
  simp [b1, b2]

/-- Its crossing: the first edge is the lower one, both strands are in the middle of their edges, and the sign is positive. -/
theorem bow_found (qs : QSort) : findCrossings qs bow = .ok (some [⟨0, 0, 1 / 2, 5 / 2, 1⟩]) := by
  have ho : ∀ s ∈ bow, s.1 = false := by simp [bow]
  obtain ⟨cc, hcc, hall⟩ := C75_complete qs bow ho bow_clean
  rcases find_ok qs ho with ⟨-, e⟩ | ⟨c0, cs, e1, e2, hp⟩
  · rw [hcc] at e; simp at e
  obtain ⟨v1, v2⟩ := collect_some e1
  rw [bow_pairs] at v1 v2
  have w2 : visit bow ((0, 1), (0, 3)) = some [] := by
    unfold visit
    show (if side (project ⟨2, 2, 0⟩) (project ⟨0, 2, 1⟩) (project ⟨2, 0, 1⟩) * side (project ⟨2, 2, 0⟩) (project ⟨0, 2, 1⟩) (project ⟨0, 0, 0⟩) = -1 ∧ _
      then _ else _) = _
    exact if_neg (fun h => absurd (bow_sides'.symm.trans h.1) (by decide))
  have w1 : visit bow ((0, 0), (0, 2)) = some [⟨0, 0, 1 / 2, 5 / 2, 1⟩] := by
    unfold visit
    show (if side (project ⟨0, 0, 0⟩) (project ⟨2, 2, 0⟩) (project ⟨0, 2, 1⟩) * side (project ⟨0, 0, 0⟩) (project ⟨2, 2, 0⟩) (project ⟨2, 0, 1⟩) = -1 ∧
      side (project ⟨0, 2, 1⟩) (project ⟨2, 0, 1⟩) (project ⟨0, 0, 0⟩) * side (project ⟨0, 2, 1⟩) (project ⟨2, 0, 1⟩) (project ⟨2, 2, 0⟩) = -1
      then (match locate (project ⟨0, 0, 0⟩) (project ⟨2, 2, 0⟩) (project ⟨0, 2, 1⟩) (project ⟨2, 0, 1⟩) with
        | none => none
        | some (sA, sB) => if (1 - sA) * 0 + sA * 0 > (1 - sB) * 1 + sB * 1 then _ else
          some [Crossing.mk 0 0 (((0 : Nat) : ℝ) + sA) (((2 : Nat) : ℝ) + sB)
            (if (((project ⟨2, 0, 1⟩).sub (project ⟨0, 2, 1⟩)).crossProd ((project ⟨2, 2, 0⟩).sub (project ⟨0, 0, 0⟩))).z > 0 then 1 else -1)])
      else _) = _
    rw [if_pos bow_sides]
    cases hl : locate (project ⟨0, 0, 0⟩) (project ⟨2, 2, 0⟩) (project ⟨0, 2, 1⟩) (project ⟨2, 0, 1⟩) with
    | none =>
      have := bow_locate
      rw [hl] at this
      simp at this
    | some q =>
      obtain ⟨sA, sB⟩ := q
      obtain ⟨-, -, -, -, -, -, -, hu⟩ := locate_meets bow_sides.1 bow_sides.2 hl
      obtain ⟨rfl, rfl⟩ := hu (1 / 2) (1 / 2) (by norm_num) (by norm_num)
      simp only
      rw [if_neg (by norm_num), if_pos (by simp only [project_eq, V3.sub, V3.crossProd]; norm_num)]
      norm_num
  have : c0 = [⟨0, 0, 1 / 2, 5 / 2, 1⟩] := by
    rw [v2]
    simp [w1, w2]
  rw [this] at hp
  rw [e2, List.perm_singleton.mp hp]

/-- The diagram of this curve is a loop, for any random numbers. -/
theorem bow_diagram (qs : QSort) (thin : List Strand3 → Bool) (ht : thin bow = false) (axis rnd : Nat → V3) :
    ∃ caps pd σ inn out, fromPlCurve qs thin axis rnd bow = .ok (some (caps, pd)) ∧ Shows 1 [⟨0, 0, (1 / 2 : ℝ), 5 / 2, 1⟩] pd σ inn out ∧
      PlaneDiagram pd.cross pd.edge ∧ ∀ q, Ok.pdOk q caps pd = .ok true := by
  obtain ⟨hS, hD, hP⟩ := FromCurve.one_loop nearR ((1 / 2 : ℝ), (5 / 2 : ℝ))
    (by
      unfold nearR
      rw [decide_eq_false_iff_not, not_lt, le_abs]
      right
      norm_num)
    (by
      unfold nearR
      rw [decide_eq_false_iff_not, not_lt, le_abs]
      left
      norm_num) (by norm_num)
  exact C75_diagram qs thin axis rnd bow (by simp [bow]) ht bow_clean _ (bow_found qs) hS _ _ _ hD hP (by simp)

/-- It is in general position. -/
theorem bow_generic : GenericProjection bow := by
  intro c i d j s s' a b v w h1 h2 h3 h4 h5 h6 h7
  have hc : c = 0 := by
    have := (List.getElem?_eq_some_iff.mp h1).1
    simpa [bow] using this
  have hd : d = 0 := by
    have := (List.getElem?_eq_some_iff.mp h4).1
    simpa [bow] using this
  subst hc hd
  rcases h7 with h | ⟨s0, g0, g1, g2, g3⟩
  · exact absurd rfl h
  rw [h1] at g0
  cases g0
  simp only [bow, List.getElem?_cons_zero, Option.some.injEq] at h1 h4
  subst h1 h4
  have hi := (List.getElem?_eq_some_iff.mp h2).1
  have hj := (List.getElem?_eq_some_iff.mp h5).1
  simp only [List.length_cons, List.length_nil] at hi hj g2 g3 h3 h6
  have hcase : (i = 0 ∧ j = 2) ∨ (i = 2 ∧ j = 0) ∨ (i = 1 ∧ j = 3) ∨ (i = 3 ∧ j = 1) := by omega
  rcases hcase with ⟨rfl, rfl⟩ | ⟨rfl, rfl⟩ | ⟨rfl, rfl⟩ | ⟨rfl, rfl⟩ <;>
  · simp only [List.getElem?_cons_zero, List.getElem?_cons_succ, Option.some.injEq, Nat.reduceAdd, Nat.reduceMod] at h2 h3 h5 h6
    subst h2 h3 h5 h6
    norm_num [abs_of_nonneg, abs_of_nonpos]

theorem triangle_pairs (a b c : V3) : pairs [(false, [a, b, c])] = [] := rfl

end FindCrossings

/-- A triangle has no crossings, so it gets the loop. -/
example (qs : QSort) (thin : List Strand3 → Bool) (axis rnd : Nat → V3) (a b c : V3) (ht : thin [(false, [a, b, c])] = false) :
    ∃ caps pd σ inn out, fromPlCurve qs thin axis rnd [(false, [a, b, c])] = .ok (some (caps, pd)) ∧
      Shows 1 [⟨0, 0, (0.33 : ℝ), 0.66, 1⟩] pd σ inn out ∧ PlaneDiagram pd.cross pd.edge ∧ ∀ q, Ok.pdOk q caps pd = .ok true :=
  C75_no_crossings qs thin axis rnd [a, b, c] ht (by rw [triangle_pairs]; rfl)
    (by
      intro i j t u p q hap _ _ _ _ hp hq _
      have h := apart_pairs (pointAt_iff hp).1 (pointAt_iff hq).1 hap
      rw [triangle_pairs] at h
      simp at h)

/-- The crossing of `bow` is found from its points. -/
example (qs : QSort) : ∃ x ∈ ([⟨0, 0, 1 / 2, 5 / 2, 1⟩] : List (Crossing ℝ)), AtStrands x 0 ((0 : Nat) + 1 / 2) 0 ((2 : Nat) + 1 / 2) :=
  C75_complete_generic qs bow bow_generic _ (bow_found qs) 0 0 0 2 (1 / 2) (1 / 2) _ _ (pairs_apart (by rw [bow_pairs]; simp))
    (by norm_num) (by norm_num) (by norm_num) (by norm_num) (pointAt (by decide) _) (pointAt (by decide) _)
    (by norm_num [vtx, bow]) (by norm_num [vtx, bow])

/-- An arc is refused. -/
example (qs : QSort) : findCrossings qs [(true, [⟨0, 0, 0⟩, ⟨1, 0, 0⟩])] = .error .die := C75_open qs _ _ (List.mem_singleton.mpr rfl) rfl

end Plc
