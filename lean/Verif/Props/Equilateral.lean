import Verif.Proofs.Equilateral

/-! # C77: random equilateral polygons -/

namespace Plc

open Plc.Core Plc.FindCrossings Plc.RandomPolygon Plc.Equilateral

namespace Equilateral

theorem distSq_comm (a b : V3) : distSq a b = distSq b a := by unfold distSq; ring

theorem apart_of {a b : V3} {r : ℝ} (hr : 0 ≤ r) (h : distSq a b = r ^ 2) : apart a b = r := by
  unfold apart; rw [h, Real.sqrt_sq hr]

theorem apart_zero_of {q : V3} {b : ℝ} (hb : 0 ≤ b) (h : q.dot q = b ^ 2) : apart q ⟨0, 0, 0⟩ = b := by
  rw [apart_zero, h, Real.sqrt_sq hb]

end Equilateral

/-- **C77.** From lengths of diagonals satisfying the triangle inequalities and any dihedral angles, the assembled polygon is closed with
all edges of length 1; its diagonals have the given lengths and the triangles at them the given angles. No assertion fails. -/
theorem C77_fan (n : Nat) (hn : 3 ≤ n) (theta d : List ℝ) (hd : Diagonals d) (hdl : d.length = n - 1) (htl : theta.length = n - 3)
    (h0 : d[0]? = some 1) (h1 : d[n - 2]? = some 1) :
    ∃ vs, fan n theta d = .ok vs ∧ vs.length = n ∧ vs[0]? = some ⟨0, 0, 0⟩ ∧ ClosedEdges 1 vs ∧
      (∀ (i : Nat) (q : V3) (b : ℝ), vs[i + 1]? = some q → d[i]? = some b → apart q ⟨0, 0, 0⟩ = b) ∧
      (∀ (i : Nat) (p q r : V3) (t : ℝ), vs[i + 1]? = some p → vs[i + 2]? = some q → vs[i + 3]? = some r → theta[i]? = some t →
        DihedralAngle p q r t) := by
  obtain ⟨l, hl, hlen, M⟩ := fanLoop_ok n theta d hd hdl htl (n - 2) 1 ⟨1, 0, 0⟩ ⟨0, 0, 1⟩ 1 le_rfl (by omega) (by simpa using h0)
    (by simp [V3.dot]) (by simp [V3.dot]) (by simp [V3.dot])
  have hdiag : ∀ (i : Nat) (q : V3), ((⟨0, 0, 0⟩ : V3) :: ⟨1, 0, 0⟩ :: l)[i + 1]? = some q → ∃ b, 0 < b ∧ d[i]? = some b ∧ q.dot q = b ^ 2 := by
    intro i q hq
    rw [List.getElem?_cons_succ] at hq
    cases i with
    | zero =>
      simp only [List.getElem?_cons_zero, Option.some.injEq] at hq
      subst hq
      exact ⟨1, one_pos, h0, by simp [V3.dot]⟩
    | succ i =>
      rw [List.getElem?_cons_succ] at hq
      obtain ⟨b, e1, e2⟩ := M.lens i q hq
      rw [Nat.add_comm] at e1
      exact ⟨b, lt_of_lt_of_le (by norm_num) (hd.1 b (List.mem_of_getElem? e1)), e1, e2⟩
  obtain ⟨last, hlast⟩ : ∃ q, ((⟨0, 0, 0⟩ : V3) :: ⟨1, 0, 0⟩ :: l)[n - 1]? = some q :=
    ⟨_, List.getElem?_eq_getElem (by simp [hlen]; omega)⟩
  obtain ⟨b, hb0, hb, hq⟩ := hdiag (n - 2) last (by rw [show n - 2 + 1 = n - 1 by omega]; exact hlast)
  rw [h1, Option.some.injEq] at hb
  subst hb
  have hclose : apart last ⟨0, 0, 0⟩ = 1 := apart_zero_of zero_le_one hq
  refine ⟨(⟨0, 0, 0⟩ : V3) :: ⟨1, 0, 0⟩ :: l, ?_, by simp [hlen]; omega, rfl, ?_, ?_, ?_⟩
  · unfold fan
    rw [if_neg (by omega), hl, ok_bind]
    simp only
    rw [rd_of hlast, ok_bind, assertC_ok, ok_bind]
    have : dist3 ⟨0, 0, 0⟩ last = 1 := by
      rw [← hclose]
      unfold dist3 apart distSq V3.sub V3.dot
      congr 1; ring
    rw [this]
    simp
    norm_num
  · intro i a b ha hb
    have hlv : ((⟨0, 0, 0⟩ : V3) :: ⟨1, 0, 0⟩ :: l).length = n := by simp [hlen]; omega
    rw [hlv] at hb
    have hi : i < n := by rw [← hlv]; exact (List.getElem?_eq_some_iff.mp ha).1
    by_cases e : i = n - 1
    · subst e
      rw [show (n - 1 + 1) % n = 0 by rw [show n - 1 + 1 = n by omega, Nat.mod_self]] at hb
      rw [hlast, Option.some.injEq] at ha
      simp only [List.getElem?_cons_zero, Option.some.injEq] at hb
      subst ha hb
      exact hclose
    · rw [Nat.mod_eq_of_lt (by omega)] at hb
      cases i with
      | zero =>
        simp only [List.getElem?_cons_zero, List.getElem?_cons_succ, Option.some.injEq] at ha hb
        subst ha hb
        exact apart_of zero_le_one (by simp [distSq])
      | succ i =>
        rw [List.getElem?_cons_succ] at ha
        rw [List.getElem?_cons_succ, List.getElem?_cons_succ] at hb
        exact apart_of zero_le_one (by rw [M.edges i a b ha hb]; norm_num)
  · intro i q b hq' hb'
    obtain ⟨b'', p1, p2, p3⟩ := hdiag i q hq'
    rw [hb', Option.some.injEq] at p2
    subst p2
    exact apart_zero_of p1.le p3
  · intro i p q r t hp hq' hr ht
    rw [List.getElem?_cons_succ] at hp
    rw [List.getElem?_cons_succ, List.getElem?_cons_succ] at hq' hr
    exact M.angles i p q r t hp hq' hr (by simpa using ht)

namespace Equilateral

/-- The distances made of random numbers: from 1 on, each step is a random number from -1 to 1. -/
noncomputable def walk (u : Nat → ℝ) (pos : Nat) (prev : ℝ) : Nat → ℝ
  | 0 => prev
  | i + 1 => walk u pos prev i + (2 * u (pos + i) - 1)

theorem walk_shift (u : Nat → ℝ) (pos : Nat) (prev : ℝ) : ∀ i, walk u pos prev (i + 1) = walk u (pos + 1) (prev + (2 * u pos - 1)) i
  | 0 => by simp [walk]
  | i + 1 => by rw [walk, walk_shift u pos prev i, walk, show pos + (i + 1) = pos + 1 + i by omega]

/-- A step is good: the triangle with these sides exists and the side is not tiny. -/
def Good (x y : ℝ) : Prop := 1 ≤ y + x ∧ 1e-12 ≤ y

theorem genDist_ok (u : Nat → ℝ) : ∀ (k pos : Nat) (prev : ℝ),
    ((∀ i < k, Good (walk u pos prev i) (walk u pos prev (i + 1))) →
      (genDist u k pos prev).2 = (true, pos + k)) ∧
    ((genDist u k pos prev).2.1 = true →
      (∀ i < k, Good (walk u pos prev i) (walk u pos prev (i + 1))) ∧ (genDist u k pos prev).1.length = k ∧
      ∀ i < k, (genDist u k pos prev).1[i]? = some (walk u pos prev (i + 1)))
  | 0, pos, prev => ⟨fun _ => by simp [genDist], fun _ => ⟨fun i h => by omega, by simp [genDist], fun i h => by omega⟩⟩
  | k + 1, pos, prev => by
    obtain ⟨h1, h2⟩ := genDist_ok u k (pos + 1) (prev + (2 * u pos - 1))
    rw [genDist]
    simp only
    by_cases hg : prev + (2 * u pos - 1) + prev < 1 ∨ prev + (2 * u pos - 1) < 1e-12
    · rw [if_pos hg]
      refine ⟨fun h => ?_, fun h => by simp at h⟩
      have := h 0 (by omega)
      simp only [walk, Good, add_zero] at this
      rcases hg with hg | hg
      · linarith [this.1]
      · linarith [this.2]
    · rw [if_neg hg]
      rw [not_or, not_lt, not_lt] at hg
      simp only
      constructor
      · intro h
        rw [h1 (fun i hi => by rw [← walk_shift, ← walk_shift]; exact h (i + 1) (by omega))]
        simp only [Prod.mk.injEq, true_and]
        omega
      · intro h
        obtain ⟨g1, g2, g3⟩ := h2 h
        refine ⟨fun i hi => ?_, by simp [g2], fun i hi => ?_⟩
        · cases i with
          | zero => simpa [walk, Good] using hg
          | succ i => rw [walk_shift, walk_shift]; exact g1 i (by omega)
        · cases i with
          | zero => simp [walk]
          | succ i => rw [List.getElem?_cons_succ, walk_shift]; exact g3 i (by omega)

theorem walk_step (u : Nat → ℝ) (hu : ∀ i, 0 ≤ u i ∧ u i ≤ 1) (pos : Nat) (prev : ℝ) (i : Nat) :
    |walk u pos prev i - walk u pos prev (i + 1)| ≤ 1 := by
  rw [walk, abs_le]
  obtain ⟨h1, h2⟩ := hu (pos + i)
  constructor <;> linarith

/-- A good attempt. -/
def GoodAttempt (u : Nat → ℝ) (n pos : Nat) : Prop :=
  (∀ i < n - 3, Good (walk u pos 1 i) (walk u pos 1 (i + 1))) ∧ 0 ≤ walk u pos 1 (n - 3) ∧ walk u pos 1 (n - 3) ≤ 2

theorem attempt_iff (u : Nat → ℝ) (n pos : Nat) :
    ((genDist u (n - 3) pos 1).2.1 = true ∧ ¬ ((1 :: (genDist u (n - 3) pos 1).1).getLast (by simp) < 0 ∨
      (1 :: (genDist u (n - 3) pos 1).1).getLast (by simp) > 2)) ↔ GoodAttempt u n pos := by
  obtain ⟨h1, h2⟩ := genDist_ok u (n - 3) pos 1
  have hlast : (genDist u (n - 3) pos 1).2.1 = true → (1 :: (genDist u (n - 3) pos 1).1).getLast (by simp) = walk u pos 1 (n - 3) := by
    intro h
    obtain ⟨-, g2, g3⟩ := h2 h
    rw [List.getLast_eq_getElem]
    have : (1 :: (genDist u (n - 3) pos 1).1)[n - 3]? = some (walk u pos 1 (n - 3)) := by
      cases hk : n - 3 with
      | zero => simp [walk]
      | succ m =>
        rw [hk] at g3
        rw [List.getElem?_cons_succ]
        exact g3 m (by omega)
    have hh := (List.getElem?_eq_some_iff.mp this).2
    simpa [g2] using hh
  constructor
  · rintro ⟨a, b⟩
    rw [hlast a, not_or, not_lt, gt_iff_lt, not_lt] at b
    exact ⟨(h2 a).1, b.1, b.2⟩
  · rintro ⟨a, b, c⟩
    have := h1 a
    have e : (genDist u (n - 3) pos 1).2.1 = true := by rw [this]
    refine ⟨e, ?_⟩
    rw [hlast e, not_or, not_lt, gt_iff_lt, not_lt]
    exact ⟨b, c⟩

theorem accept_ok (u : Nat → ℝ) (n : Nat) : ∀ (f pos : Nat),
    (accept u n f pos = .error .die) ∨
    ∃ p l, accept u n f pos = .ok (1 :: l, p + (n - 3)) ∧ GoodAttempt u n p ∧ l.length = n - 3 ∧ ∀ i < n - 3, l[i]? = some (walk u p 1 (i + 1))
  | 0, pos => .inl rfl
  | f + 1, pos => by
    rw [accept]
    by_cases h : GoodAttempt u n pos
    · rw [if_pos ((attempt_iff u n pos).mpr h)]
      by_cases hf : f = 0
      · exact .inl (if_pos hf)
      · right
        obtain ⟨a, -⟩ := (attempt_iff u n pos).mpr h
        obtain ⟨h1, h2⟩ := genDist_ok u (n - 3) pos 1
        obtain ⟨-, g2, g3⟩ := h2 a
        refine ⟨pos, (genDist u (n - 3) pos 1).1, ?_, h, g2, g3⟩
        rw [if_neg hf, h1 h.1]
    · rw [if_neg (fun q => h ((attempt_iff u n pos).mp q))]
      exact accept_ok u n f _

theorem closed_of_accept (u : Nat → ℝ) (hu : ∀ i, 0 ≤ u i ∧ u i ≤ 1) (n : Nat) (hn : 3 ≤ n) (hn' : n ≤ 3000) (p : Nat) (l : List ℝ)
    (ha : accept u n 10000 0 = .ok (1 :: l, p + (n - 3))) (hg : GoodAttempt u n p) (hl : l.length = n - 3)
    (hw : ∀ i < n - 3, l[i]? = some (walk u p 1 (i + 1))) :
    ∃ vs, closedEquilateral u n = .ok vs ∧ vs.length = n ∧ vs[0]? = some ⟨0, 0, 0⟩ ∧ ClosedEdges 1 vs ∧
      (∀ (i : Nat) (q : V3), i ≤ n - 3 → vs[i + 1]? = some q → apart q ⟨0, 0, 0⟩ = walk u p 1 i) ∧
      (∀ (i : Nat) (a b c : V3), i < n - 3 → vs[i + 1]? = some a → vs[i + 2]? = some b → vs[i + 3]? = some c →
        DihedralAngle a b c (6.2831853071795864769 * u (p + (n - 3) + i))) := by
  obtain ⟨hg1, hg2, hg3⟩ := hg
  have hD : ∀ i ≤ n - 3, (1 :: l ++ [1])[i]? = some (walk u p 1 i) := by
    intro i hi
    rw [List.getElem?_append_left (by simp [hl]; omega)]
    cases i with
    | zero => simp [walk]
    | succ i => rw [List.getElem?_cons_succ]; exact hw i (by omega)
  have hE : (1 :: l ++ [1])[n - 2]? = some 1 := by
    rw [List.getElem?_append_right (by simp [hl]; omega)]
    simp only [List.length_cons, hl]
    rw [show n - 2 - (n - 3 + 1) = 0 by omega]
    rfl
  have hlen : (1 :: l ++ [1]).length = n - 1 := by simp [hl]; omega
  have hmin : ∀ i ≤ n - 3, 1e-12 ≤ walk u p 1 i := by
    intro i hi
    cases i with
    | zero => simp [walk]; norm_num
    | succ i => exact (hg1 i (by omega)).2
  have hDiag : Diagonals (1 :: l ++ [1]) := by
    constructor
    · intro x hx
      obtain ⟨i, hi⟩ := List.mem_iff_getElem?.mp hx
      have hlt := (List.getElem?_eq_some_iff.mp hi).1
      rw [hlen] at hlt
      by_cases e : i = n - 2
      · rw [e, hE, Option.some.injEq] at hi
        rw [← hi]; norm_num
      · rw [hD i (by omega), Option.some.injEq] at hi
        rw [← hi]
        exact hmin i (by omega)
    · intro i a b h1 h2
      have hlt := (List.getElem?_eq_some_iff.mp h2).1
      rw [hlen] at hlt
      rw [hD i (by omega), Option.some.injEq] at h1
      by_cases e : i + 1 = n - 2
      · rw [e, hE, Option.some.injEq] at h2
        have e' : i = n - 3 := by omega
        subst e'
        rw [← h1, ← h2]
        have := hmin (n - 3) le_rfl
        exact ⟨by rw [abs_le]; constructor <;> linarith, by linarith⟩
      · rw [hD (i + 1) (by omega), Option.some.injEq] at h2
        rw [← h1, ← h2]
        refine ⟨walk_step u hu p 1 i, ?_⟩
        have := (hg1 i (by omega)).1
        linarith
  obtain ⟨vs, v1, v2, v3, v4, v5, v6⟩ := C77_fan n hn ((List.range (n - 3)).map (fun i => 6.2831853071795864769 * u (p + (n - 3) + i))) (1 :: l ++ [1])
    hDiag hlen (by simp) rfl hE
  refine ⟨vs, ?_, v2, v3, v4, fun i q hi hq => v5 i q _ hq (hD i hi), fun i a b c hi h1 h2 h3 => v6 i a b c _ h1 h2 h3 ?_⟩
  · unfold closedEquilateral
    rw [if_neg (by omega), if_neg (by omega), if_neg (by omega), ha, ok_bind]
    exact v1
  · rw [List.getElem?_map, List.getElem?_range hi]
    rfl

end Equilateral

/-- **C77.** A random equilateral closed polygon has the requested number of vertices and all its edges, the closing one included, have
length 1. -/
theorem C77_closed (u : Nat → ℝ) (hu : ∀ i, 0 ≤ u i ∧ u i ≤ 1) (n : Nat) (vs : List V3) (h : closedEquilateral u n = .ok vs) :
    vs.length = n ∧ ClosedEdges 1 vs ∧ vs[0]? = some ⟨0, 0, 0⟩ := by
  have hn : 3 ≤ n ∧ n ≤ 3000 := by
    unfold closedEquilateral at h
    by_contra hc
    split at h
    · simp at h
    · split at h
      · simp at h
      · split at h
        · simp at h
        · omega
  rcases accept_ok u n 10000 0 with e | ⟨p, l, e, e1, e2, e3⟩
  · unfold closedEquilateral at h
    rw [if_neg (by omega), if_neg (by omega), if_neg (by omega), e] at h
    simp [bind, Except.bind] at h
  · obtain ⟨vs', v1, v2, v3, v4, -⟩ := closed_of_accept u hu n hn.1 hn.2 p l e e1 e2 e3
    rw [v1] at h
    cases h
    exact ⟨v2, v4, v3⟩

/-- From 3 to 3000 edges there is always an orderly end: a polygon, or (after 10000 attempts in vain) the assertion which says so. None of
the assertions in `fantriangulation_action_angle` ever fails, nothing is divided by 0 and no root taken of a negative number. -/
theorem C77_outcome (u : Nat → ℝ) (hu : ∀ i, 0 ≤ u i ∧ u i ≤ 1) (n : Nat) (hn : 3 ≤ n) (hn' : n ≤ 3000) :
    (∃ vs, closedEquilateral u n = .ok vs) ∨ (closedEquilateral u n = .error .die ∧ accept u n 10000 0 = .error .die) := by
  rcases accept_ok u n 10000 0 with e | ⟨p, l, e, e1, e2, e3⟩
  · right
    refine ⟨?_, e⟩
    unfold closedEquilateral
    rw [if_neg (by omega), if_neg (by omega), if_neg (by omega), e]
    rfl
  · obtain ⟨vs', v1, -⟩ := closed_of_accept u hu n hn hn' p l e e1 e2 e3
    exact .inl ⟨vs', v1⟩

/-- The random numbers are the coordinates: if the first n - 3 of them make a good sequence of distances (from 1, each number x giving a
step of 2x - 1, always at least 1e-12, two neighbours together at least 1, the last at most 2), the polygon has these distances as
diagonals from its first vertex, and the next n - 3 numbers as dihedral angles, 1 being the full turn. -/
theorem C77_coordinates (u : Nat → ℝ) (hu : ∀ i, 0 ≤ u i ∧ u i ≤ 1) (n : Nat) (hn : 3 ≤ n) (hn' : n ≤ 3000) (dist : Nat → ℝ)
    (h0 : dist 0 = 1) (hs : ∀ i, dist (i + 1) = dist i + (2 * u i - 1)) (hg : ∀ i < n - 3, 1e-12 ≤ dist (i + 1) ∧ 1 ≤ dist i + dist (i + 1))
    (hl : dist (n - 3) ≤ 2) :
    ∃ vs, closedEquilateral u n = .ok vs ∧ vs.length = n ∧ ClosedEdges 1 vs ∧
      (∀ (i : Nat) (q : V3), i ≤ n - 3 → vs[i + 1]? = some q → apart q ⟨0, 0, 0⟩ = dist i) ∧
      (∀ (i : Nat) (a b c : V3), i < n - 3 → vs[i + 1]? = some a → vs[i + 2]? = some b → vs[i + 3]? = some c →
        DihedralAngle a b c (6.2831853071795864769 * u (n - 3 + i))) := by
  have hw : ∀ i, walk u 0 1 i = dist i := by
    intro i
    induction i with
    | zero => rw [h0]; rfl
    | succ i ih => rw [walk, ih, hs, Nat.zero_add]
  have hG : GoodAttempt u n 0 := by
    refine ⟨fun i hi => ?_, ?_, ?_⟩
    · rw [hw, hw]
      exact ⟨by linarith [(hg i hi).2], (hg i hi).1⟩
    · rw [hw]
      cases hk : n - 3 with
      | zero => rw [h0]; norm_num
      | succ m => have := (hg m (by omega)).1
                  exact le_trans (by norm_num) this
    · rw [hw]; exact hl
  obtain ⟨g1, g2⟩ := genDist_ok u (n - 3) 0 1
  have hgd := g1 hG.1
  obtain ⟨-, k2, k3⟩ := g2 (by rw [hgd])
  have ha : accept u n 10000 0 = .ok (1 :: (genDist u (n - 3) 0 1).1, 0 + (n - 3)) := by
    rw [accept]
    rw [if_pos ((attempt_iff u n 0).mpr hG), if_neg (by omega), hgd]
  obtain ⟨vs, v1, v2, v3, v4, v5, v6⟩ := closed_of_accept u hu n hn hn' 0 _ ha hG k2 k3
  refine ⟨vs, v1, v2, v4, fun i q hi hq => by rw [v5 i q hi hq, hw], fun i a b c hi h1 h2 h3 => ?_⟩
  have := v6 i a b c hi h1 h2 h3
  rwa [Nat.zero_add] at this

/-- So a polygon is made for every number of edges from 3 to 3000 by some random numbers, here all 1/2. -/
theorem C77_reachable (n : Nat) (hn : 3 ≤ n) (hn' : n ≤ 3000) : ∃ vs, closedEquilateral (fun _ => 1 / 2) n = .ok vs := by
  obtain ⟨vs, h, -⟩ := C77_coordinates (fun _ => 1 / 2) (fun _ => by norm_num) n hn hn' (fun _ => 1) rfl (fun _ => by norm_num)
    (fun _ _ => by norm_num) (by norm_num)
  exact ⟨vs, h⟩

/-- With fewer than three edges there is no check: with one or two the buffer of distances is accessed outside of its bounds. -/
theorem C77_few_edges (u : Nat → ℝ) : closedEquilateral u 1 = .error .ub ∧ closedEquilateral u 2 = .error .ub := by
  constructor <;> simp [closedEquilateral]

/-- **C77.** A random equilateral open polygon with n edges starts at the origin, and all its edges have length 2/n (so the length is 2,
not n: the edges have unit length only in the closed version). -/
theorem C77_open (dirs : List V3) (h0 : dirs ≠ []) (hd : ∀ e ∈ dirs, e.x ^ 2 + e.y ^ 2 + e.z ^ 2 = 1) :
    (openEquilateral dirs).length = dirs.length + 1 ∧ (openEquilateral dirs)[0]? = some ⟨0, 0, 0⟩ ∧
      OpenEdges (2 / dirs.length) (openEquilateral dirs) ∧ openLength (openEquilateral dirs) = 2 := by
  have hpos : (0 : ℝ) < dirs.length := by
    have : 0 < dirs.length := List.length_pos_iff.mpr h0
    exact_mod_cast this
  have hr : (0 : ℝ) ≤ 2 / dirs.length := by positivity
  have key : ∀ (es : List V3) (p : V3), (∀ e ∈ es, e.x ^ 2 + e.y ^ 2 + e.z ^ 2 = 1) →
      OpenEdges (2 / dirs.length) (p :: path p (es.map (V3.scale (2 / dirs.length)))) := by
    intro es
    induction es with
    | nil => intro p _ i a b _ h; simp [path] at h
    | cons e es ih =>
      intro p he i a b ha hb
      rw [List.map_cons, path] at ha hb
      cases i with
      | zero =>
        simp only [List.getElem?_cons_zero, List.getElem?_cons_succ, Option.some.injEq] at ha hb
        subst ha hb
        refine apart_of hr ?_
        have := he e (List.mem_cons_self ..)
        simp only [distSq, add, V3.scale]
        linear_combination (2 / (dirs.length : ℝ)) ^ 2 * this
      | succ i =>
        rw [List.getElem?_cons_succ] at ha hb
        exact ih _ (fun x hx => he x (List.mem_cons_of_mem _ hx)) i a b ha hb
  refine ⟨by simp [openEquilateral, length_path], rfl, key dirs _ hd, ?_⟩
  unfold openEquilateral
  rw [openLength_path]
  have hs : ∀ es : List V3, (∀ e ∈ es, e.x ^ 2 + e.y ^ 2 + e.z ^ 2 = 1) →
      ((es.map (V3.scale (2 / dirs.length))).map norm3).sum = es.length * (2 / dirs.length) := by
    intro es
    induction es with
    | nil => simp
    | cons e es ih =>
      intro he
      rw [List.map_cons, List.map_cons, List.sum_cons, ih (fun x hx => he x (List.mem_cons_of_mem _ hx))]
      have : norm3 (V3.scale (2 / dirs.length) e) = 2 / dirs.length := by
        refine norm3_of_dot hr ?_
        have := he e (List.mem_cons_self ..)
        simp only [V3.dot, V3.scale]
        linear_combination (2 / (dirs.length : ℝ)) ^ 2 * this
      rw [this, List.length_cons]
      push_cast
      ring
  rw [hs dirs hd]
  field_simp

end Plc
