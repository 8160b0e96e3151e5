import Verif.Spec.Struts
import Verif.Proofs.Nearest
import Verif.Props.Poca

/-! # The struts of a curve: lemmas about boxes and pairs of edges -/

namespace Plc.Struts

open Plc.Core Plc.FindCrossings Plc.RandomPolygon Plc.Equilateral Plc.Motions Plc.Measure Plc.Poca

theorem weighted_eq (s : ℝ) (a b : V3) : weighted s a b = along a b s := by
  unfold weighted along
  congr 1 <;> ring

/-! ## What `find_poca` says of any two edges -/

/-- What holds of the points found on any two edges. -/
structure Facts (d1 d2 d12 : V3) (s t d : ℝ) : Prop where
  s0 : 0 ≤ s
  s1 : s ≤ 1
  t0 : 0 ≤ t
  t1 : t ≤ 1
  dist : d = gap d1 d2 d12 s t
  fwd : s ≠ 0 → d1.dot d1 * s - d1.dot d2 * t - d1.dot d12 ≤ 0
  bwd : s ≠ 0 → s ≠ 1 → 0 ≤ d1.dot d1 * s - d1.dot d2 * t - d1.dot d12
  mid : t ≠ 0 → t ≠ 1 → d2.dot d2 * t - d1.dot d2 * s + d2.dot d12 = 0
  pos2 : 0 < d2.dot d2
  pos1 : s ≠ 0 → 0 < d1.dot d1

theorem dot_self_nonneg (a : V3) : 0 ≤ a.dot a := by
  unfold V3.dot; exact add_nonneg (add_nonneg (mul_self_nonneg _) (mul_self_nonneg _)) (mul_self_nonneg _)

theorem clamp_facts {d1 d2 d12 : V3} {u s t d : ℝ} (h2 : 0 < d2.dot d2) (hu : u = 0 ∨ u = 1)
    (h : (do let T' ← ratio (u * d1.dot d2 + d1.dot d12) (d1.dot d1); some (clamp T', u, gap d1 d2 d12 (clamp T') u)) = some (s, t, d)) :
    Facts d1 d2 d12 s t d := by
  unfold ratio at h
  split at h
  · simp at h
  · rename_i hne
    have h1 : 0 < d1.dot d1 := lt_of_le_of_ne (dot_self_nonneg _) (Ne.symm hne)
    simp only [Option.bind_eq_bind, Option.bind_some, Option.some.injEq, Prod.mk.injEq] at h
    obtain ⟨rfl, rfl, rfl⟩ := h
    obtain ⟨c0, c1, _, _⟩ := clamp_spec ((u * d1.dot d2 + d1.dot d12) / d1.dot d1)
    obtain ⟨lo, hi⟩ := clamp_mul (a := u * d1.dot d2 + d1.dot d12) h1
    refine ⟨c0, c1, by rcases hu with rfl | rfl <;> norm_num, by rcases hu with rfl | rfl <;> norm_num, rfl, fun h => by have := lo h; linarith,
      fun _ h => by have := hi h; linarith, fun a b => ?_, h2, fun _ => h1⟩
    rcases hu with rfl | rfl
    · exact absurd rfl a
    · exact absurd rfl b

theorem finish_facts {d1 d2 d12 : V3} {T s t d : ℝ} (T0 : 0 ≤ T) (T1 : T ≤ 1)
    (lo : T ≠ 0 → T * (d1.dot d1 * d2.dot d2 - d1.dot d2 * d1.dot d2) ≤ d1.dot d12 * d2.dot d2 - d2.dot d12 * d1.dot d2)
    (hi : T ≠ 0 → T ≠ 1 → d1.dot d12 * d2.dot d2 - d2.dot d12 * d1.dot d2 ≤ T * (d1.dot d1 * d2.dot d2 - d1.dot d2 * d1.dot d2))
    (hp : T ≠ 0 → 0 < d1.dot d1) (h : finish d1 d2 d12 T = some (s, t, d)) : Facts d1 d2 d12 s t d := by
  unfold finish at h
  by_cases hne : d2.dot d2 = 0
  · simp [ratio, hne] at h
  have h2 : 0 < d2.dot d2 := lt_of_le_of_ne (dot_self_nonneg _) (Ne.symm hne)
  obtain ⟨U, hU⟩ : ∃ x, x = (T * d1.dot d2 - d2.dot d12) / d2.dot d2 := ⟨_, rfl⟩
  have hUm : U * d2.dot d2 = T * d1.dot d2 - d2.dot d12 := by rw [hU]; exact div_mul_cancel₀ _ h2.ne'
  have e0 : ratio (T * d1.dot d2 - d2.dot d12) (d2.dot d2) = some U := by unfold ratio; rw [if_neg hne, hU]
  rw [e0] at h
  simp only [Option.bind_eq_bind, Option.bind_some] at h
  split at h
  · exact clamp_facts h2 (.inr rfl) (by simpa only [Option.bind_eq_bind] using h)
  · split at h
    · exact clamp_facts h2 (.inl rfl) (by simpa only [Option.bind_eq_bind] using h)
    · rename_i c1 c2
      simp only [Option.some.injEq, Prod.mk.injEq] at h
      obtain ⟨rfl, rfl, rfl⟩ := h
      have e : d2.dot d2 * (d1.dot d1 * T - d1.dot d2 * U - d1.dot d12) =
          T * (d1.dot d1 * d2.dot d2 - d1.dot d2 * d1.dot d2) - (d1.dot d12 * d2.dot d2 - d2.dot d12 * d1.dot d2) := by
        linear_combination (-d1.dot d2) * hUm
      refine ⟨T0, T1, not_lt.mp c2, not_lt.mp c1, rfl, fun a => ?_, fun a b => ?_, fun _ _ => by linear_combination hUm, h2, hp⟩
      · have := lo a
        by_contra hc
        have : 0 < d2.dot d2 * (d1.dot d1 * T - d1.dot d2 * U - d1.dot d12) := mul_pos h2 (not_le.mp hc)
        linarith
      · have := hi a b
        by_contra hc
        have : d2.dot d2 * (d1.dot d1 * T - d1.dot d2 * U - d1.dot d12) < 0 := mul_neg_of_pos_of_neg h2 (not_le.mp hc)
        linarith

theorem findPoca_facts {A0 A1 B0 B1 : V3} {s t d : ℝ} (h : findPoca A0 A1 B0 B1 = some (s, t, d)) :
    Facts (A1.sub A0) (B1.sub B0) (B0.sub A0) s t d := by
  unfold findPoca at h
  simp only at h
  have zero : ∀ {s t d : ℝ}, finish (A1.sub A0) (B1.sub B0) (B0.sub A0) 0 = some (s, t, d) → Facts (A1.sub A0) (B1.sub B0) (B0.sub A0) s t d := by
    intro s t d h
    exact finish_facts (le_refl _) (by norm_num) (fun h => absurd rfl h) (fun h => absurd rfl h) (fun h => absurd rfl h) h
  have main : ¬ ((A1.sub A0).dot (A1.sub A0) * (B1.sub B0).dot (B1.sub B0) - (A1.sub A0).dot (B1.sub B0) * (A1.sub A0).dot (B1.sub B0) < 1e-25) →
      finish (A1.sub A0) (B1.sub B0) (B0.sub A0) (clamp (((A1.sub A0).dot (B0.sub A0) * (B1.sub B0).dot (B1.sub B0) -
        (B1.sub B0).dot (B0.sub A0) * (A1.sub A0).dot (B1.sub B0)) /
        ((A1.sub A0).dot (A1.sub A0) * (B1.sub B0).dot (B1.sub B0) - (A1.sub A0).dot (B1.sub B0) * (A1.sub A0).dot (B1.sub B0)))) = some (s, t, d) →
      Facts (A1.sub A0) (B1.sub B0) (B0.sub A0) s t d := by
    intro hc h
    have hp : 0 < (A1.sub A0).dot (A1.sub A0) * (B1.sub B0).dot (B1.sub B0) - (A1.sub A0).dot (B1.sub B0) * (A1.sub A0).dot (B1.sub B0) :=
      lt_of_lt_of_le (by norm_num) (not_lt.mp hc)
    obtain ⟨a, b, _, _⟩ := clamp_spec (((A1.sub A0).dot (B0.sub A0) * (B1.sub B0).dot (B1.sub B0) -
        (B1.sub B0).dot (B0.sub A0) * (A1.sub A0).dot (B1.sub B0)) /
        ((A1.sub A0).dot (A1.sub A0) * (B1.sub B0).dot (B1.sub B0) - (A1.sub A0).dot (B1.sub B0) * (A1.sub A0).dot (B1.sub B0)))
    obtain ⟨lo, hi⟩ := clamp_mul (a := (A1.sub A0).dot (B0.sub A0) * (B1.sub B0).dot (B1.sub B0) - (B1.sub B0).dot (B0.sub A0) * (A1.sub A0).dot (B1.sub B0)) hp
    refine finish_facts a b lo (fun _ => hi) (fun _ => ?_) h
    rcases (dot_self_nonneg (A1.sub A0)).lt_or_eq with x | x
    · exact x
    · rw [← x] at hp
      have := mul_self_nonneg ((A1.sub A0).dot (B1.sub B0))
      linarith
  split at h
  · split at h
    · exact zero h
    · rename_i hc
      exact main hc h
  · rename_i hc
    exact main (fun hx => hc (lt_trans hx (by norm_num))) h

/-! ## Boxes -/

theorem inBox_along {B : Box} {a b : V3} (ha : InBox B a) (hb : InBox B b) {t : ℝ} (t0 : 0 ≤ t) (t1 : t ≤ 1) : InBox B (along a b t) := by
  obtain ⟨a1, a2, a3, a4, a5, a6⟩ := ha
  obtain ⟨b1, b2, b3, b4, b5, b6⟩ := hb
  unfold InBox Plc.along
  refine ⟨?_, ?_, ?_, ?_, ?_, ?_⟩ <;> simp only <;> nlinarith

theorem corners (B : Box) (p q r : Bool) : ∃ k < 8, corner B k = ⟨if p then B.hi.x else B.lo.x, if q then B.hi.y else B.lo.y, if r then B.hi.z else B.lo.z⟩ := by
  cases p <;> cases q <;> cases r
  · exact ⟨0, by omega, by simp [corner]⟩
  · exact ⟨4, by omega, by simp [corner]⟩
  · exact ⟨2, by omega, by simp [corner]⟩
  · exact ⟨6, by omega, by simp [corner]⟩
  · exact ⟨7, by omega, by simp [corner]⟩
  · exact ⟨3, by omega, by simp [corner]⟩
  · exact ⟨5, by omega, by simp [corner]⟩
  · exact ⟨1, by omega, by simp [corner]⟩

/-- A linear function is nowhere in the box smaller than at one of the corners. -/
theorem corner_below {B : Box} {y : V3} (h : InBox B y) (n v : V3) : ∃ k < 8, n.dot ((corner B k).sub v) ≤ n.dot (y.sub v) := by
  obtain ⟨h1, h2, h3, h4, h5, h6⟩ := h
  obtain ⟨k, hk, e⟩ := corners B (decide (n.x < 0)) (decide (n.y < 0)) (decide (n.z < 0))
  refine ⟨k, hk, ?_⟩
  rw [e]
  have one : ∀ {m lo hi y : ℝ}, lo ≤ y → y ≤ hi → m * (if decide (m < 0) = true then hi else lo) ≤ m * y := by
    intro m lo hi y a b
    by_cases hm : m < 0
    · simp only [hm, decide_true, if_true]; nlinarith
    · simp only [hm, decide_false, Bool.false_eq_true, if_false]
      exact mul_le_mul_of_nonneg_left a (not_lt.mp hm)
  have a := one (m := n.x) h1 h2
  have b := one (m := n.y) h3 h4
  have c := one (m := n.z) h5 h6
  simp only [V3.dot, V3.sub, mul_sub]
  linarith

theorem corner_above {B : Box} {y : V3} (h : InBox B y) (n v : V3) : ∃ k < 8, n.dot (y.sub v) ≤ n.dot ((corner B k).sub v) := by
  obtain ⟨k, hk, e⟩ := corner_below h ⟨-n.x, -n.y, -n.z⟩ v
  refine ⟨k, hk, ?_⟩
  simp only [V3.dot, V3.sub] at e ⊢
  linarith

theorem rampCheck_values (v0 v1 v2 p : V3) (last : Bool) : rampCheck v0 v1 v2 p last = 1 ∨ rampCheck v0 v1 v2 p last = 2 ∨ rampCheck v0 v1 v2 p last = 8 ∨
    rampCheck v0 v1 v2 p last = 4 := by
  unfold rampCheck
  simp only
  split
  · exact .inl rfl
  · split
    · exact .inr (.inl rfl)
    · split
      · exact .inr (.inr (.inl rfl))
      · exact .inr (.inr (.inr rfl))

theorem cornerLoop_false {v0 v1 v2 : V3} {B : Box} {last : Bool} : ∀ (k cnt status : Nat), status = 1 ∨ status = 8 →
    cornerLoop v0 v1 v2 B last k cnt status = false → ∀ c, cnt ≤ c → c < cnt + k → rampCheck v0 v1 v2 (corner B c) last = status
  | 0, _, _, _, _, c, h1, h2 => by omega
  | k + 1, cnt, status, hs, h, c, h1, h2 => by
    unfold cornerLoop at h
    simp only at h
    have key : rampCheck v0 v1 v2 (corner B cnt) last = status ∧ cornerLoop v0 v1 v2 B last k (cnt + 1) status = false := by
      rcases rampCheck_values v0 v1 v2 (corner B cnt) last with e | e | e | e <;> rw [e] at h ⊢ <;> rcases hs with rfl | rfl <;> simp at h ⊢ <;> exact h
    rcases Nat.eq_or_lt_of_le h1 with rfl | hlt
    · exact key.1
    · exact cornerLoop_false k (cnt + 1) status hs key.2 c (by omega) (by omega)

theorem boxIntersects_false {v0 v1 v2 : V3} {B : Box} {last : Bool} (h : boxIntersects v0 v1 v2 B last = false) :
    (∀ k < 8, rampCheck v0 v1 v2 (corner B k) last = 1) ∨ (∀ k < 8, rampCheck v0 v1 v2 (corner B k) last = 8) := by
  unfold boxIntersects at h
  simp only at h
  rcases rampCheck_values v0 v1 v2 (corner B 0) last with e | e | e | e <;> rw [e] at h <;> simp at h
  · left
    intro k hk
    rcases Nat.eq_zero_or_pos k with rfl | hp
    · exact e
    · exact cornerLoop_false 7 1 1 (.inl rfl) h k hp (by omega)
  · right
    intro k hk
    rcases Nat.eq_zero_or_pos k with rfl | hp
    · exact e
    · exact cornerLoop_false 7 1 8 (.inr rfl) h k hp (by omega)

theorem rampCheck_one {v0 v1 v2 p : V3} {last : Bool} (h : rampCheck v0 v1 v2 p last = 1) :
    last = false ∧ norm3 (v2.sub v1) < (v2.sub v1).dot (p.sub v1) / norm3 (v2.sub v1) := by
  unfold rampCheck at h
  simp only at h
  split at h
  · assumption
  · split at h
    · simp at h
    · split at h <;> simp at h

theorem rampCheck_eight {v0 v1 v2 p : V3} {last : Bool} (h : rampCheck v0 v1 v2 p last = 8) :
    (v2.sub v1).dot (p.sub v1) / norm3 (v2.sub v1) ≤ 0 ∧ 0 < (v0.sub v1).dot (p.sub v1) / norm3 (v0.sub v1) := by
  unfold rampCheck at h
  simp only at h
  split at h
  · simp at h
  · split at h
    · simp at h
    · rename_i h2
      split at h
      · rename_i h3
        exact ⟨not_lt.mp h2, h3⟩
      · simp at h

theorem norm3_sq (a : V3) : norm3 a * norm3 a = a.dot a := by
  unfold norm3
  rw [Real.mul_self_sqrt]
  · rfl
  · exact dot_self_nonneg a

theorem norm3_nonneg (a : V3) : 0 ≤ norm3 a := Real.sqrt_nonneg _

/-! ## Pairs of edges -/

/-- The conditions for a strut but for its length (1440-1442). -/
noncomputable def passes (v0 v1 v2 e0 e1 e2 : V3) (last tlast : Bool) (s t : ℝ) : Prop :=
  (s < 1 ∨ last = true) ∧ (t < 1 ∨ tlast = true) ∧ (0 < s ∨ wedgeCheck v0 v1 v2 e1 e2 t = true) ∧ (0 < t ∨ wedgeCheck e0 e1 e2 v1 v2 s = true)

theorem wedgeCheck_true {v0 v1 v2 e1 e2 : V3} {t : ℝ} (h : wedgeCheck v0 v1 v2 e1 e2 t = true) :
    (v2.sub v1).dot ((along e1 e2 t).sub v1) / norm3 (v2.sub v1) ≤ 0 ∧ (v0.sub v1).dot ((along e1 e2 t).sub v1) / norm3 (v0.sub v1) ≤ 0 := by
  unfold wedgeCheck at h
  simp only [weighted_eq] at h
  split at h
  · simp at h
  · rename_i h1
    split at h
    · simp at h
    · rename_i h2
      exact ⟨not_lt.mp h1, not_lt.mp h2⟩

theorem wedgeCheck_iff {v0 v1 v2 e1 e2 : V3} {t : ℝ} : wedgeCheck v0 v1 v2 e1 e2 t = true ↔
    (v2.sub v1).dot ((along e1 e2 t).sub v1) / norm3 (v2.sub v1) ≤ 0 ∧ (v0.sub v1).dot ((along e1 e2 t).sub v1) / norm3 (v0.sub v1) ≤ 0 := by
  refine ⟨wedgeCheck_true, fun ⟨h1, h2⟩ => ?_⟩
  unfold wedgeCheck
  simp only [weighted_eq]
  rw [if_neg (not_lt.mpr h1), if_neg (not_lt.mpr h2)]

theorem along_dot (n A0 A1 B0 B1 : V3) (t : ℝ) : n.dot ((along B0 B1 t).sub A0) = n.dot (B0.sub A0) + t * n.dot (B1.sub B0) := by
  unfold V3.dot V3.sub along; simp only; ring

theorem dot_comm (a b : V3) : a.dot b = b.dot a := by unfold V3.dot; ring

/-- A box which the ramp of an edge does not meet holds no edge with a strut to it. -/
theorem ramp_sound {v0 v1 v2 e0 e1 e2 : V3} {B : Box} {last tlast : Bool} {s t d : ℝ} (hb1 : InBox B e1) (hb2 : InBox B e2)
    (hf : findPoca v1 v2 e1 e2 = some (s, t, d)) (hp : passes v0 v1 v2 e0 e1 e2 last tlast s t) : boxIntersects v0 v1 v2 B last = true := by
  by_contra hc
  have hc' : boxIntersects v0 v1 v2 B last = false := by simpa using hc
  have F := findPoca_facts hf
  have hy := inBox_along hb1 hb2 F.t0 F.t1
  obtain ⟨p1, _, p3, _⟩ := hp
  rcases boxIntersects_false hc' with h | h
  · obtain ⟨k, hk, hle⟩ := corner_below hy (v2.sub v1) v1
    obtain ⟨hl, hlt⟩ := rampCheck_one (h k hk)
    have hn : 0 < norm3 (v2.sub v1) := by
      rcases (norm3_nonneg (v2.sub v1)).lt_or_eq with x | x
      · exact x
      · rw [← x, div_zero] at hlt; exact absurd hlt (lt_irrefl _)
    rw [lt_div_iff₀ hn, norm3_sq] at hlt
    rw [along_dot _ v1 v2] at hle
    have hs1 : s < 1 := by
      rcases p1 with a | a
      · exact a
      · rw [hl] at a; simp at a
    by_cases hs : s = 0
    · rcases p3 with a | a
      · rw [hs] at a; exact lt_irrefl _ a
      · obtain ⟨w, _⟩ := wedgeCheck_true a
        rw [div_le_iff₀ hn, zero_mul, along_dot _ v1 v2] at w
        have := mul_self_nonneg (norm3 (v2.sub v1))
        rw [norm3_sq] at this
        linarith
    · have b := F.bwd hs hs1.ne
      have hD : 0 < (v2.sub v1).dot (v2.sub v1) := F.pos1 hs
      nlinarith
  · obtain ⟨k, hk, hle⟩ := corner_above hy (v2.sub v1) v1
    obtain ⟨h8, _⟩ := rampCheck_eight (h k hk)
    obtain ⟨k', hk', hle'⟩ := corner_below hy (v0.sub v1) v1
    obtain ⟨_, h8'⟩ := rampCheck_eight (h k' hk')
    have hn : 0 < norm3 (v0.sub v1) := by
      rcases (norm3_nonneg (v0.sub v1)).lt_or_eq with x | x
      · exact x
      · rw [← x, div_zero] at h8'; exact absurd h8' (lt_irrefl _)
    rw [lt_div_iff₀ hn, zero_mul] at h8'
    by_cases hs : s = 0
    · rcases p3 with a | a
      · rw [hs] at a; exact lt_irrefl _ a
      · obtain ⟨_, w⟩ := wedgeCheck_true a
        rw [div_le_iff₀ hn, zero_mul] at w
        linarith
    · have hD : 0 < (v2.sub v1).dot (v2.sub v1) := F.pos1 hs
      have hn2 : 0 < norm3 (v2.sub v1) := by
        rcases (norm3_nonneg (v2.sub v1)).lt_or_eq with x | x
        · exact x
        · have := norm3_sq (v2.sub v1); rw [← x] at this; linarith
      rw [div_le_iff₀ hn2, zero_mul] at h8
      rw [along_dot _ v1 v2] at hle
      have b := F.fwd hs
      have hs0 : 0 < s := lt_of_le_of_ne F.s0 (Ne.symm hs)
      have := mul_pos hD hs0
      linarith

theorem coord_near {a b : V3} : |a.x - b.x| ≤ apart a b ∧ |a.y - b.y| ≤ apart a b ∧ |a.z - b.z| ≤ apart a b := by
  unfold apart distSq
  refine ⟨?_, ?_, ?_⟩ <;> apply Real.abs_le_sqrt <;> nlinarith [sq_nonneg (a.x - b.x), sq_nonneg (a.y - b.y), sq_nonneg (a.z - b.z)]

theorem ratio_le_one {c s : ℝ} (h : |c| ≤ s) : (c * c) / (s * s) ≤ 1 := by
  have := abs_le.mp h
  apply div_le_one_of_le₀ _ (mul_self_nonneg _)
  nlinarith

/-- A box with an edge within the bound of an edge is not too far away. -/
theorem close_sound {big cutoff eps shortest : ℝ} {me : Varr} {v1 v2 e1 e2 : V3} {B : Box} {s t d : ℝ} (hb1 : InBox B e1) (hb2 : InBox B e2)
    (hv : me.v = along v1 v2 (1 / 2)) (hlen : me.len = apart v1 v2) (hne : v1 ≠ v2)
    (hf : findPoca v1 v2 e1 e2 = some (s, t, d)) (hd : d ≤ upBound cutoff eps shortest) : closeEnough big cutoff eps me B shortest := by
  unfold closeEnough
  split
  swap
  · trivial
  · simp only
    have F := findPoca_facts hf
    obtain ⟨y1, y2, y3, y4, y5, y6⟩ := inBox_along hb1 hb2 F.t0 F.t1
    have hdist : d = apart (along v1 v2 s) (along e1 e2 t) := by rw [F.dist, gap_eq]
    have hl : 0 < me.len := by
      rw [hlen]
      rcases (apart_nonneg v1 v2).lt_or_eq with x | x
      · exact x
      · exact absurd (apart_zero x.symm) hne
    have hmid : apart (along v1 v2 s) me.v ≤ me.len / 2 := by
      rw [hv, hlen]
      have e : apart (along v1 v2 s) (along v1 v2 (1 / 2)) = |s - 1 / 2| * apart v1 v2 := by
        unfold apart
        have : distSq (along v1 v2 s) (along v1 v2 (1 / 2)) = (s - 1 / 2) ^ 2 * distSq v1 v2 := by unfold distSq along; ring
        rw [this, Real.sqrt_mul (sq_nonneg _), Real.sqrt_sq_eq_abs]
      rw [e]
      have : |s - 1 / 2| ≤ 1 / 2 := by rw [abs_le]; constructor <;> linarith [F.s0, F.s1]
      have := mul_le_mul_of_nonneg_right this (apart_nonneg v1 v2)
      linarith
    obtain ⟨m1, m2, m3⟩ := coord_near (a := along v1 v2 s) (b := me.v)
    obtain ⟨n1, n2, n3⟩ := coord_near (a := along v1 v2 s) (b := along e1 e2 t)
    rw [← hdist] at n1 n2 n3
    obtain ⟨x, hx⟩ : ∃ x, x = along v1 v2 s := ⟨_, rfl⟩
    obtain ⟨y, hy⟩ : ∃ y, y = along e1 e2 t := ⟨_, rfl⟩
    rw [← hx] at m1 m2 m3 n1 n2 n3 hmid
    rw [← hy] at n1 n2 n3 y1 y2 y3 y4 y5 y6
    obtain ⟨bd, hbd⟩ : ∃ b, b = upBound cutoff eps shortest := ⟨_, rfl⟩
    rw [← hbd] at hd ⊢
    have hd0 : 0 ≤ d := by rw [hdist]; exact apart_nonneg _ _
    have cx : (center B).x = (B.lo.x + B.hi.x) / 2 := by simp [center, weighted, corner]; ring
    have cy : (center B).y = (B.lo.y + B.hi.y) / 2 := by simp [center, weighted, corner]; ring
    have cz : (center B).z = (B.lo.z + B.hi.z) / 2 := by simp [center, weighted, corner]; ring
    have kx : (corner B 0).x = B.lo.x := by simp [corner]
    have ky : (corner B 0).y = B.lo.y := by simp [corner]
    have kz : (corner B 0).z = B.lo.z := by simp [corner]
    simp only [V3.sub, cx, cy, cz, kx, ky, kz]
    rw [abs_le] at m1 m2 m3 n1 n2 n3
    have ax : |(B.lo.x + B.hi.x) / 2 - me.v.x| ≤ (B.lo.x + B.hi.x) / 2 - B.lo.x + (bd + me.len / 2) := by
      rw [abs_le]; constructor <;> linarith [m1.1, m1.2, n1.1, n1.2]
    have ay : |(B.lo.y + B.hi.y) / 2 - me.v.y| ≤ (B.lo.y + B.hi.y) / 2 - B.lo.y + (bd + me.len / 2) := by
      rw [abs_le]; constructor <;> linarith [m2.1, m2.2, n2.1, n2.2]
    have az : |(B.lo.z + B.hi.z) / 2 - me.v.z| ≤ (B.lo.z + B.hi.z) / 2 - B.lo.z + (bd + me.len / 2) := by
      rw [abs_le]; constructor <;> linarith [m3.1, m3.2, n3.1, n3.2]
    refine ⟨by linarith, by linarith, by linarith, ?_⟩
    have := ratio_le_one ax
    have := ratio_le_one ay
    have := ratio_le_one az
    linarith

end Plc.Struts
