import Verif.Proofs.Minrad

/-! # C85: the minimal radius of a curve and where it is attained -/

namespace Plc.Minrad

open Plc.Core Plc.FindCrossings Plc.RandomPolygon Plc.Equilateral Plc.Motions Plc.Measure

/-- `octrope_minrad` returns the least of the radii of all bends of the curve, or `DBL_MAX` if none is smaller. -/
theorem C85_minrad (big cutoff eps : ℝ) (size : Option Nat) (L : Curve) (h : ∀ c ∈ L.cp, 2 ≤ c.vt.length ∧ Proper c) :
    ∃ (r : ℝ) (l : List Loc), minrad big cutoff eps size L = .ok (r, l) ∧ r ≤ big ∧
      (∀ (i v : Nat) (s : Int) (m : ℝ), BendOf L i v s m → r ≤ m) ∧ (r = big ∨ ∃ (i v : Nat) (s : Int), BendOf L i v s r) := by
  obtain ⟨r, l, h1, h2, h3, h4, _⟩ := minrad_ok big cutoff eps size L h
  refine ⟨r, l, h1, h2, ?_, ?_⟩
  · intro i v s m hb
    exact h3 ⟨i, v, s, m⟩ ((mem_cands L (fun c hc => (h c hc).2) _).mpr hb)
  · rcases h4 with h4 | ⟨x, hx, hr⟩
    · exact .inl h4
    · exact .inr ⟨x.comp, x.vert, x.svert, by rw [hr]; exact (mem_cands L (fun c hc => (h c hc).2) x).mp hx⟩

/-- The locations returned are bends of the curve within the bound: below the cutoff, or, without one, at most `eps` above the minimum;
and there are not more of them than there is room for. -/
theorem C85_locations_sound (big cutoff eps : ℝ) (n : Nat) (L : Curve) (h : ∀ c ∈ L.cp, 2 ≤ c.vt.length ∧ Proper c) :
    ∃ (r : ℝ) (l : List Loc), minrad big cutoff eps (some n) L = .ok (r, l) ∧ l.length ≤ n ∧
      ∀ x ∈ l, BendOf L x.comp x.vert x.svert x.mr ∧ x.mr ≤ (if 0 < cutoff then cutoff else r + eps) := by
  obtain ⟨r, l, h1, _, _, _, h5, _, h7⟩ := minrad_ok big cutoff eps (some n) L h
  refine ⟨r, l, h1, (h7 n rfl).1, ?_⟩
  intro x hx
  obtain ⟨hx1, hx2⟩ := h5 x hx
  exact ⟨(mem_cands L (fun c hc => (h c hc).2) x).mp hx1, hx2⟩

/-- With room for two locations per vertex, the locations returned are all bends within the bound, each once. -/
theorem C85_locations_complete (big cutoff eps : ℝ) (n : Nat) (L : Curve) (h : ∀ c ∈ L.cp, 2 ≤ c.vt.length ∧ Proper c)
    (hn : 2 * (L.cp.map fun c => c.vt.length).sum ≤ n) :
    ∃ (r : ℝ) (l : List Loc), minrad big cutoff eps (some n) L = .ok (r, l) ∧ l.Nodup ∧
      ∀ x, x ∈ l ↔ BendOf L x.comp x.vert x.svert x.mr ∧ x.mr ≤ (if 0 < cutoff then cutoff else r + eps) := by
  obtain ⟨r, l, h1, _, _, _, _, _, h7⟩ := minrad_ok big cutoff eps (some n) L h
  have hperm := (h7 n rfl).2 (by have := allCorners_length L.cp 0; omega)
  refine ⟨r, l, h1, hperm.nodup_iff.mpr ((cands_nodup L.cp).filter _), ?_⟩
  intro x
  rw [hperm.mem_iff, List.mem_filter, mem_cands L (fun c hc => (h c hc).2) x]
  simp only [good, decide_eq_true_eq]
  rfl

/-! ## Where the radius is not what is expected -/

/-- An edge and the same edge back: it turns by π, where the radius should be 0, but such a vertex is left out. -/
def hairpin : Curve := ⟨[⟨true, [⟨0, 0, 0⟩, ⟨1, 0, 0⟩, ⟨0, 0, 0⟩]⟩], []⟩

theorem hairpin_angle : IsAngle ((⟨1, 0, 0⟩ : V3).sub ⟨0, 0, 0⟩) ((⟨0, 0, 0⟩ : V3).sub ⟨1, 0, 0⟩) Real.pi := by
  refine ⟨Real.pi_pos.le, le_refl _, ?_⟩
  rw [apart_sub_zero, apart_sub_zero, apart_of (⟨0, 0, 0⟩ : V3) ⟨1, 0, 0⟩ 1 (by norm_num) (by norm_num [distSq]),
    apart_of (⟨1, 0, 0⟩ : V3) ⟨0, 0, 0⟩ 1 (by norm_num) (by norm_num [distSq]), Real.cos_pi]
  norm_num [dotOf, V3.sub]

/-- A curve which folds back onto itself is reported to have the radius `DBL_MAX`. -/
theorem C85_fold_left_out (big cutoff eps : ℝ) (size : Option Nat) : ∃ l, minrad big cutoff eps size hairpin = .ok (big, l) := by
  obtain ⟨r, l, h1, _, _, h4, _⟩ := minrad_ok big cutoff eps size hairpin (by
    intro c hc
    have : c = ⟨true, [⟨0, 0, 0⟩, ⟨1, 0, 0⟩, ⟨0, 0, 0⟩]⟩ := by simpa [hairpin] using hc
    subst this
    exact ⟨by simp, fun h => by simp at h⟩)
  refine ⟨l, ?_⟩
  rcases h4 with h4 | ⟨x, hx, _⟩
  · rw [h1, h4]
  · exfalso
    have hz : norm3 (((⟨1, 0, 0⟩ : V3).sub ⟨0, 0, 0⟩).crossProd ((⟨0, 0, 0⟩ : V3).sub ⟨1, 0, 0⟩)) = 0 := by
      norm_num [norm3, V3.crossProd, V3.sub]
    have : cands (allCorners 0 hairpin.cp) = [] := by
      simp only [cands, allCorners, hairpin, cornersOf, walk, if_true, corners, List.append_nil, List.flatMap_cons, List.flatMap_nil]
      unfold Corner.locs
      rw [if_neg]
      simp only [Corner.counts, decide_eq_true_eq, not_le]
      rw [hz]; norm_num
    rw [this] at hx
    simp at hx

/-! ## An example -/

/-- A square with edges of length 2. -/
def square : Curve := ⟨[⟨false, [⟨0, 0, 0⟩, ⟨2, 0, 0⟩, ⟨2, 2, 0⟩, ⟨0, 2, 0⟩]⟩], []⟩

theorem square_fine : ∀ c ∈ square.cp, 2 ≤ c.vt.length ∧ Proper c := by
  intro c hc
  have : c = ⟨false, [⟨0, 0, 0⟩, ⟨2, 0, 0⟩, ⟨2, 2, 0⟩, ⟨0, 2, 0⟩]⟩ := by simpa [square] using hc
  subst this
  exact ⟨by simp, fun _ => by simp⟩

/-- It bends at every vertex with the radius 1, that of its inscribed circle: here at vertex 1. -/
theorem square_bend : BendOf square 0 1 0 1 := by
  have e1 : apart (⟨0, 0, 0⟩ : V3) ⟨2, 0, 0⟩ = 2 := apart_of _ _ _ (by norm_num) (by norm_num [distSq])
  have e2 : apart (⟨2, 0, 0⟩ : V3) ⟨2, 2, 0⟩ = 2 := apart_of _ _ _ (by norm_num) (by norm_num [distSq])
  refine ⟨_, rfl, ⟨0, 0, 0⟩, ⟨2, 0, 0⟩, ⟨2, 2, 0⟩, Real.pi / 2, by simp, ?_, ⟨by positivity, by linarith [Real.pi_pos], ?_⟩, ?_, .inl ⟨by norm_num, ?_⟩⟩
  · unfold Neighbours
    simp
  · rw [Real.cos_pi_div_two]; norm_num [dotOf, V3.sub]
  · rw [e1, e2, Real.sin_pi_div_two]; norm_num
  · rw [e1, show Real.pi / 2 / 2 = Real.pi / 4 by ring, Real.tan_pi_div_four]; norm_num

example : ∃ (r : ℝ) (l : List Loc), minrad (10 ^ 308) 0 (1 / 10) (some 8) square = .ok (r, l) ∧ r ≤ 1 := by
  obtain ⟨r, l, h1, _, h3, _⟩ := C85_minrad (10 ^ 308) 0 (1 / 10) (some 8) square square_fine
  exact ⟨r, l, h1, h3 0 1 0 1 square_bend⟩

end Plc.Minrad
