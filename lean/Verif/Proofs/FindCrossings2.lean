import Verif.Proofs.FindCrossings

/-! The entries of the list of crossings. -/

namespace Plc.FindCrossings

open Plc.Core Plc.FromCurve

theorem pointAt {L : List Strand3} {c i : Nat} (h : i < nv L c) (t : ℝ) :
    PointAt L c i t ⟨(1 - t) * (vtx L c i).x + t * (vtx L c (i + 1)).x, (1 - t) * (vtx L c i).y + t * (vtx L c (i + 1)).y,
      (1 - t) * (vtx L c i).z + t * (vtx L c (i + 1)).z⟩ := by
  obtain ⟨s, h1, h2, h3, -⟩ := vtx_spec h
  exact ⟨s, _, _, h1, h2, h3, rfl, rfl, rfl⟩

theorem pointAt_iff {L : List Strand3} {c i : Nat} {t : ℝ} {p : V3} (h : PointAt L c i t p) : i < nv L c ∧
    p.x = (1 - t) * (vtx L c i).x + t * (vtx L c (i + 1)).x ∧ p.y = (1 - t) * (vtx L c i).y + t * (vtx L c (i + 1)).y := by
  obtain ⟨s, a, b, h1, h2, h3, h4, h5, -⟩ := h
  have hi : i < nv L c := by
    unfold nv
    rw [h1]
    exact (List.getElem?_eq_some_iff.mp h2).1
  obtain ⟨s', g1, g2, g3, -⟩ := vtx_spec hi
  rw [h1] at g1
  cases g1
  rw [h2] at g2
  cases g2
  rw [h3] at g3
  cases g3
  exact ⟨hi, h4, h5⟩

theorem direction {L : List Strand3} {c i : Nat} (h : i < nv L c) :
    Direction L c i ((vtx L c (i + 1)).x - (vtx L c i).x) ((vtx L c (i + 1)).y - (vtx L c i).y) := by
  obtain ⟨s, h1, h2, h3, -⟩ := vtx_spec h
  exact ⟨s, _, _, h1, h2, h3, rfl, rfl⟩

/-- The two strands given by a pair of edges and two fractions. -/
structure EntryFor (L : List Strand3) (p : (Nat × Nat) × (Nat × Nat)) (x : Crossing ℝ) (t u : ℝ) : Prop where
  real : RealCrossing L x
  t0 : 0 < t
  t1 : t < 1
  u0 : 0 < u
  u1 : u < 1
  strands : AtStrands x p.1.1 (p.1.2 + t) p.2.1 (p.2.2 + u)
  only : ∀ t' u' a b, PointAt L p.1.1 p.1.2 t' a → PointAt L p.2.1 p.2.2 u' b → a.x = b.x → a.y = b.y → t' = t ∧ u' = u

theorem visit_some {L : List Strand3} {p : (Nat × Nat) × (Nat × Nat)} {c : List (Crossing ℝ)} (hp : p ∈ pairs L) (h : visit L p = some c) :
    (c = [] ∧ ¬ (side (project (vtx L p.1.1 p.1.2)) (project (vtx L p.1.1 (p.1.2 + 1))) (project (vtx L p.2.1 p.2.2)) *
        side (project (vtx L p.1.1 p.1.2)) (project (vtx L p.1.1 (p.1.2 + 1))) (project (vtx L p.2.1 (p.2.2 + 1))) = -1 ∧
      side (project (vtx L p.2.1 p.2.2)) (project (vtx L p.2.1 (p.2.2 + 1))) (project (vtx L p.1.1 p.1.2)) *
        side (project (vtx L p.2.1 p.2.2)) (project (vtx L p.2.1 (p.2.2 + 1))) (project (vtx L p.1.1 (p.1.2 + 1))) = -1)) ∨
    ∃ x t u, c = [x] ∧ EntryFor L p x t u := by
  obtain ⟨⟨a, i⟩, b, j⟩ := p
  have hap := pairs_apart hp
  obtain ⟨-, -, hi, hj, -⟩ := mem_pairs.mp hp
  unfold visit at h
  simp only at h ⊢
  by_cases hc : side (project (vtx L a i)) (project (vtx L a (i + 1))) (project (vtx L b j)) *
        side (project (vtx L a i)) (project (vtx L a (i + 1))) (project (vtx L b (j + 1))) = -1 ∧
      side (project (vtx L b j)) (project (vtx L b (j + 1))) (project (vtx L a i)) *
        side (project (vtx L b j)) (project (vtx L b (j + 1))) (project (vtx L a (i + 1))) = -1
  · right
    rw [if_pos hc] at h
    cases hl : locate (project (vtx L a i)) (project (vtx L a (i + 1))) (project (vtx L b j)) (project (vtx L b (j + 1))) with
    | none => rw [hl] at h; simp at h
    | some q =>
      obtain ⟨t, u⟩ := q
      rw [hl] at h
      simp only at h
      obtain ⟨t0, t1, u0, u1, hx, hy, hd, hu⟩ := locate_meets hc.1 hc.2 hl
      have honly : ∀ t' u' p q, PointAt L a i t' p → PointAt L b j u' q → p.x = q.x → p.y = q.y → t' = t ∧ u' = u := by
        intro t' u' p q hp hq ex ey
        obtain ⟨-, p1, p2⟩ := pointAt_iff hp
        obtain ⟨-, q1, q2⟩ := pointAt_iff hq
        exact hu t' u' (by rw [← p1, ← q1, ex]) (by rw [← p2, ← q2, ey])
      split at h
      · next hz =>
        simp only [Option.some.injEq] at h
        refine ⟨_, t, u, h.symm, ?_⟩
        refine ⟨⟨i, j, t, u, _, _, rfl, t0, t1, rfl, u0, u1, pointAt hi t, pointAt hj u, hx, hy, le_of_lt hz, hap, _, _, _, _, direction hi,
          direction hj, ?_⟩, t0, t1, u0, u1, .inl ⟨rfl, rfl, rfl, rfl⟩, honly⟩
        simp only [project_eq, V3.sub, V3.crossProd]
        rcases lt_or_gt_of_ne hd with hlt | hgt
        · exact .inr ⟨hlt, if_neg (not_lt.mpr hlt.le)⟩
        · exact .inl ⟨hgt, if_pos hgt⟩
      · next hz =>
        simp only [Option.some.injEq] at h
        refine ⟨_, t, u, h.symm, ?_⟩
        refine ⟨⟨j, i, u, t, _, _, rfl, u0, u1, rfl, t0, t1, pointAt hj u, pointAt hi t, hx.symm, hy.symm, not_lt.mp hz, apart_symm hap, _, _, _, _,
          direction hj, direction hi, ?_⟩, t0, t1, u0, u1, .inr ⟨rfl, rfl, rfl, rfl⟩, honly⟩
        simp only [project_eq, V3.sub, V3.crossProd]
        rcases lt_or_gt_of_ne hd with hlt | hgt
        · exact .inl ⟨by linarith, if_pos (by linarith)⟩
        · exact .inr ⟨by linarith, if_neg (by linarith)⟩
  · rw [if_neg hc] at h
    simp only [Option.some.injEq] at h
    exact .inl ⟨h.symm, hc⟩

theorem atStrands_symm {x y : Crossing ℝ} (h : AtStrands x y.upperCmp y.upperS y.lowerCmp y.lowerS) :
    AtStrands y x.upperCmp x.upperS x.lowerCmp x.lowerS := by
  rcases h with ⟨a, b, c, d⟩ | ⟨a, b, c, d⟩
  · exact .inl ⟨a.symm, b.symm, c.symm, d.symm⟩
  · exact .inr ⟨c.symm, d.symm, a.symm, b.symm⟩

theorem floor_eq {i j : Nat} {t u : ℝ} (t0 : 0 < t) (t1 : t < 1) (u0 : 0 < u) (u1 : u < 1) (h : (i : ℝ) + t = j + u) : i = j := by
  rcases Nat.lt_trichotomy i j with hlt | h | hgt
  · have : (i : ℝ) + 1 ≤ j := by exact_mod_cast hlt
    linarith
  · exact h
  · have : (j : ℝ) + 1 ≤ i := by exact_mod_cast hgt
    linarith

theorem entry_pair {L : List Strand3} {p q : (Nat × Nat) × (Nat × Nat)} {x y : Crossing ℝ} {t u t' u' : ℝ} (hp : p ∈ pairs L) (hq : q ∈ pairs L)
    (h : EntryFor L p x t u) (h' : EntryFor L q y t' u') (e : AtStrands x y.upperCmp y.upperS y.lowerCmp y.lowerS) : p = q := by
  obtain ⟨⟨a, i⟩, b, j⟩ := p
  obtain ⟨⟨c, k⟩, d, l⟩ := q
  obtain ⟨p1, p2, p3, p4, p5⟩ := mem_pairs.mp hp
  obtain ⟨q1, q2, q3, q4, q5⟩ := mem_pairs.mp hq
  have key : (a = c ∧ (i : ℝ) + t = k + t' ∧ b = d ∧ (j : ℝ) + u = l + u') ∨ (a = d ∧ (i : ℝ) + t = l + u' ∧ b = c ∧ (j : ℝ) + u = k + t') := by
    have s1 := h.strands
    have s2 := h'.strands
    simp only [AtStrands] at s1 s2 e
    rcases s1 with ⟨a1, a2, a3, a4⟩ | ⟨a1, a2, a3, a4⟩ <;> rcases s2 with ⟨b1, b2, b3, b4⟩ | ⟨b1, b2, b3, b4⟩ <;>
      rcases e with ⟨c1, c2, c3, c4⟩ | ⟨c1, c2, c3, c4⟩ <;> rw [a1, a2, a3, a4, b1, b2, b3, b4] at * <;> simp_all
  rcases key with ⟨k1, k2, k3, k4⟩ | ⟨k1, k2, k3, k4⟩
  · rw [k1, k3, floor_eq h.t0 h.t1 h'.t0 h'.t1 k2, floor_eq h.u0 h.u1 h'.u0 h'.u1 k4]
  · have e1 := floor_eq h.t0 h.t1 h'.u0 h'.u1 k2
    have e2 := floor_eq h.u0 h.u1 h'.t0 h'.t1 k4
    subst k1 k3 e1 e2
    have hab : a = b := by omega
    have := p5 hab
    have := q5 hab.symm
    omega

/-- The list before sorting. -/
theorem collect_spec {L : List Strand3} {cc : List (Crossing ℝ)} (h : collect L (pairs L) = some cc) :
    (∀ x, x ∈ cc ↔ ∃ p ∈ pairs L, visit L p = some [x]) ∧ cc.Pairwise (fun x y => ¬ AtStrands x y.upperCmp y.upperS y.lowerCmp y.lowerS) := by
  obtain ⟨h1, h2⟩ := collect_some h
  have hmem : ∀ p ∈ pairs L, ∀ x, x ∈ (visit L p).getD [] ↔ visit L p = some [x] := by
    intro p hp x
    obtain ⟨c, hc⟩ := h1 p hp
    rcases visit_some hp hc with ⟨e, -⟩ | ⟨y, -, -, e, -⟩
    · rw [hc, e]; simp
    · rw [hc, e]; simp [eq_comm]
  constructor
  · intro x
    rw [h2, List.mem_flatMap]
    exact ⟨fun ⟨p, hp, hx⟩ => ⟨p, hp, (hmem p hp x).mp hx⟩, fun ⟨p, hp, hx⟩ => ⟨p, hp, (hmem p hp x).mpr hx⟩⟩
  · rw [h2, List.pairwise_flatMap]
    constructor
    · intro p hp
      obtain ⟨c, hc⟩ := h1 p hp
      rcases visit_some hp hc with ⟨e, -⟩ | ⟨y, -, -, e, -⟩
      · rw [hc, e]; simp
      · rw [hc, e]; simp
    · have hnd := pairs_nodup L
      refine List.Pairwise.imp_of_mem ?_ hnd
      intro p q hp hq hpq x hx y hy e
      have hx' := (hmem p hp x).mp hx
      have hy' := (hmem q hq y).mp hy
      rcases visit_some hp hx' with ⟨e, -⟩ | ⟨x', t, u, e1, E1⟩
      · simp at e
      rcases visit_some hq hy' with ⟨e, -⟩ | ⟨y', t', u', e2, E2⟩
      · simp at e
      cases e1
      cases e2
      exact hpq (entry_pair hp hq E1 E2 e)

theorem entry_of {L : List Strand3} {p : (Nat × Nat) × (Nat × Nat)} {x : Crossing ℝ} (hp : p ∈ pairs L) (h : visit L p = some [x]) :
    ∃ t u, EntryFor L p x t u := by
  rcases visit_some hp h with ⟨e, -⟩ | ⟨x', t, u, e1, E⟩
  · simp at e
  · cases e1
    exact ⟨t, u, E⟩

/-- The parameters of an entry are positive. -/
theorem key_pos {L : List Strand3} {x : Crossing ℝ} (h : RealCrossing L x) : 0 < (sortKey x).2 := by
  obtain ⟨i, j, t, u, -, -, h1, h2, -, h3, h4, -⟩ := h.places
  have a1 : (0 : ℝ) ≤ i := Nat.cast_nonneg i
  have a2 : (0 : ℝ) ≤ j := Nat.cast_nonneg j
  unfold sortKey
  split
  · show 0 < x.lowerS
    rw [h3]; linarith
  · show 0 < x.upperS
    rw [h1]; linarith

theorem find_ok (qs : QSort) {L : List Strand3} (ho : ∀ s ∈ L, s.1 = false) :
    (collect L (pairs L) = none ∧ findCrossings qs L = .ok none) ∨
    ∃ cc cs, collect L (pairs L) = some cc ∧ findCrossings qs L = .ok (some cs) ∧ cs.Perm cc := by
  have e : L.any (fun s => s.1) = false := by
    rw [List.any_eq_false]
    intro s hs
    simp [ho s hs]
  unfold findCrossings
  rw [e]
  cases hc : collect L (pairs L) with
  | none => exact .inl ⟨rfl, by simp⟩
  | some cc =>
    refine .inr ⟨cc, qs.sort (fun x y => decide (0 < crossingCmp y x)) cc, rfl, ?_, qs.perm ..⟩
    have hall : cc.all (fun x => decide ((sortKey x).2 > 0)) = true := by
      rw [List.all_eq_true]
      intro x hx
      obtain ⟨p, hp, hv⟩ := ((collect_spec hc).1 x).mp hx
      obtain ⟨t, u, E⟩ := entry_of hp hv
      exact decide_eq_true (key_pos E.real)
    simp only [Bool.false_eq_true, if_false]
    rw [hall]
    rfl

/-- A pair of edges which is no trouble is handled. -/
theorem visit_clean {L : List Strand3} {p : (Nat × Nat) × (Nat × Nat)} (h : bad L p = false) : ∃ c, visit L p = some c := by
  unfold bad trouble at h
  unfold visit
  simp only at h ⊢
  split at h
  · simp at h
  split at h
  · simp at h
  split
  · next hc =>
    rw [if_pos hc] at h
    cases hl : locate (project (vtx L p.1.1 p.1.2)) (project (vtx L p.1.1 (p.1.2 + 1))) (project (vtx L p.2.1 p.2.2)) (project (vtx L p.2.1 (p.2.2 + 1))) with
    | none => rw [hl] at h; simp at h
    | some q =>
      simp only
      split <;> exact ⟨_, rfl⟩
  · exact ⟨_, rfl⟩

/-- If it is not listed, the edges do not meet. -/
theorem clean_separated {L : List Strand3} {p : (Nat × Nat) × (Nat × Nat)} (hp : p ∈ pairs L) (h : bad L p = false) (hv : visit L p = some [])
    {t u : ℝ} {a b : V3} (t0 : 0 ≤ t) (t1 : t ≤ 1) (u0 : 0 ≤ u) (u1 : u ≤ 1) (ha : PointAt L p.1.1 p.1.2 t a) (hb : PointAt L p.2.1 p.2.2 u b)
    (hx : a.x = b.x) (hy : a.y = b.y) : False := by
  rcases visit_some hp hv with ⟨-, hc⟩ | ⟨x, t, u, e, -⟩
  · unfold bad trouble at h
    simp only at h
    split at h
    · simp at h
    split at h
    · simp at h
    rw [decide_eq_false_iff_not] at h
    obtain ⟨-, p1, p2⟩ := pointAt_iff ha
    obtain ⟨-, q1, q2⟩ := pointAt_iff hb
    rw [p1, q1] at hx
    rw [p2, q2] at hy
    have key : side (project (vtx L p.1.1 p.1.2)) (project (vtx L p.1.1 (p.1.2 + 1))) (project (vtx L p.2.1 p.2.2)) *
        side (project (vtx L p.1.1 p.1.2)) (project (vtx L p.1.1 (p.1.2 + 1))) (project (vtx L p.2.1 (p.2.2 + 1))) = 1 ∨
      side (project (vtx L p.2.1 p.2.2)) (project (vtx L p.2.1 (p.2.2 + 1))) (project (vtx L p.1.1 p.1.2)) *
        side (project (vtx L p.2.1 p.2.2)) (project (vtx L p.2.1 (p.2.2 + 1))) (project (vtx L p.1.1 (p.1.2 + 1))) = 1 := by
      revert hc h
      rcases side_cases (vtx L p.1.1 p.1.2) (vtx L p.1.1 (p.1.2 + 1)) (vtx L p.2.1 p.2.2) with ⟨e1, -⟩ | ⟨e1, -⟩ | ⟨e1, -⟩ <;>
      rcases side_cases (vtx L p.1.1 p.1.2) (vtx L p.1.1 (p.1.2 + 1)) (vtx L p.2.1 (p.2.2 + 1)) with ⟨e2, -⟩ | ⟨e2, -⟩ | ⟨e2, -⟩ <;>
      rcases side_cases (vtx L p.2.1 p.2.2) (vtx L p.2.1 (p.2.2 + 1)) (vtx L p.1.1 p.1.2) with ⟨e3, -⟩ | ⟨e3, -⟩ | ⟨e3, -⟩ <;>
      rcases side_cases (vtx L p.2.1 p.2.2) (vtx L p.2.1 (p.2.2 + 1)) (vtx L p.1.1 (p.1.2 + 1)) with ⟨e4, -⟩ | ⟨e4, -⟩ | ⟨e4, -⟩ <;>
      rw [e1, e2, e3, e4] <;> decide
    rcases key with k | k
    · exact separated (sameSide k) u0 u1 hx hy
    · exact separated (sameSide k) t0 t1 hx.symm hy.symm
  · simp at e

end Plc.FindCrossings
