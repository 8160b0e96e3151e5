import Verif.Proofs.CheckTri
import Verif.Spec.Polytope
import Mathlib.Tactic.Linarith
import Mathlib.Tactic.Ring
import Mathlib.Tactic.NormNum
import Mathlib.Tactic.FieldSimp

/-! # Steps in the moment polytope: lemmas -/

namespace Plc.Embed

open Plc.Core Plc.FindCrossings Plc.Tri

theorem variation_of_ends {T : Triangulation} {dv : List ℝ} (h2 : dv.length = T.diags.length) {c : CRef} {p : Chord} (h : ends T c = some p) :
    variation dv c = .ok (rateOf dv c) := by
  unfold ends at h
  unfold variation rateOf
  split at h
  · rename_i hc
    have hl := (List.getElem?_eq_some_iff.mp h).1
    rw [if_pos hc, if_pos hc, List.getElem?_eq_getElem (by omega), rd_lt (by omega)]
    rfl
  · rename_i hc
    rw [if_neg hc, if_neg hc]

theorem lengthOf_shift {T : Triangulation} {el dl dv : List ℝ} (h2 : dl.length = T.diags.length) (h3 : dv.length = T.diags.length) {c : CRef} {p : Chord}
    (h : ends T c = some p) (s : ℝ) : lengthOf el (shift dl dv s) c = lengthOf el dl c + s * rateOf dv c := by
  unfold ends at h
  unfold lengthOf rateOf shift
  split at h
  · rename_i hc
    have hl := (List.getElem?_eq_some_iff.mp h).1
    simp only [if_pos hc]
    rw [List.getElem?_zipWith, List.getElem?_eq_getElem (show c.num < dl.length by omega), List.getElem?_eq_getElem (show c.num < dv.length by omega)]
    rfl
  · rename_i hc
    simp only [if_neg hc]
    ring

/-- What one inequality says about `s`. -/
def Holds (el dl dv : List ℝ) (q : CRef × CRef × CRef) (s : ℝ) : Prop := 1e-8 ≤ |rate dv q| → 0 ≤ slack el dl q + s * rate dv q

theorem applyIneq_ok {T : Triangulation} {el dl dv : List ℝ} (h1 : el.length = T.edges.length) (h2 : dl.length = T.diags.length) (h3 : dv.length = T.diags.length)
    {A B C : CRef} {p q r : Chord} (hA : ends T A = some p) (hB : ends T B = some q) (hC : ends T C = some r) (x : ℝ × ℝ) :
    ∃ y, applyIneq el dl dv A B C x = .ok y ∧ ∀ s, (y.2 ≤ s ∧ s ≤ y.1) ↔ (x.2 ≤ s ∧ s ≤ x.1) ∧ Holds el dl dv (A, B, C) s := by
  unfold applyIneq
  rw [length_of_ends h1 h2 hA, ok_bind, length_of_ends h1 h2 hB, ok_bind, length_of_ends h1 h2 hC, ok_bind, variation_of_ends h3 hA, ok_bind,
    variation_of_ends h3 hB, ok_bind, variation_of_ends h3 hC, ok_bind]
  refine ⟨_, rfl, ?_⟩
  intro s
  unfold Holds slack rate
  simp only
  obtain ⟨d, hd⟩ : ∃ d, d = rateOf dv A + rateOf dv B - rateOf dv C := ⟨_, rfl⟩
  obtain ⟨m, hm⟩ : ∃ m, m = lengthOf el dl A + lengthOf el dl B - lengthOf el dl C := ⟨_, rfl⟩
  have hm' : -lengthOf el dl A - lengthOf el dl B + lengthOf el dl C = -m := by rw [hm]; ring
  rw [hm', ← hd, ← hm]
  by_cases c1 : |d| < 1e-8
  · rw [if_pos c1]
    constructor
    · intro h; exact ⟨h, fun h' => by linarith⟩
    · exact fun h => h.1
  · rw [if_neg c1]
    have c1' : 1e-8 ≤ |d| := not_lt.mp c1
    by_cases c2 : d > 0
    · rw [if_pos c2]
      have key : -m / d ≤ s ↔ 0 ≤ m + s * d := by
        rw [div_le_iff₀ c2]
        constructor <;> intro h <;> linarith
      simp only
      constructor
      · rintro ⟨a, b⟩
        split at a
        · rename_i hgt
          exact ⟨⟨by linarith, b⟩, fun _ => key.mp a⟩
        · rename_i hle
          exact ⟨⟨a, b⟩, fun _ => key.mp (by linarith)⟩
      · rintro ⟨⟨a, b⟩, c⟩
        have := key.mpr (c c1')
        refine ⟨?_, b⟩
        split <;> assumption
    · rw [if_neg c2]
      have hd0 : d < 0 := by
        rcases lt_or_eq_of_le (not_lt.mp c2) with h | h
        · exact h
        · rw [h, abs_zero] at c1'; norm_num at c1'
      have key : s ≤ -m / d ↔ 0 ≤ m + s * d := by
        rw [le_div_iff_of_neg hd0]
        constructor <;> intro h <;> linarith
      simp only
      constructor
      · rintro ⟨a, b⟩
        split at b
        · rename_i hgt
          exact ⟨⟨a, by linarith⟩, fun _ => key.mp b⟩
        · rename_i hle
          exact ⟨⟨a, b⟩, fun _ => key.mp (by linarith)⟩
      · rintro ⟨⟨a, b⟩, c⟩
        have := key.mpr (c c1')
        refine ⟨a, ?_⟩
        split <;> assumption

theorem threeIneqs_ok {T : Triangulation} {el dl dv : List ℝ} (h1 : el.length = T.edges.length) (h2 : dl.length = T.diags.length) (h3 : dv.length = T.diags.length)
    {i : Nat} {t : Triangle} (hf : SidesFit T i t) (x : ℝ × ℝ) :
    ∃ y, threeIneqs el dl dv t x = .ok y ∧ ∀ s, (y.2 ≤ s ∧ s ≤ y.1) ↔ (x.2 ≤ s ∧ s ≤ x.1) ∧ ∀ q ∈ sides t, Holds el dl dv q s := by
  obtain ⟨u, v, w, e1, e2, e3, _⟩ := hf
  obtain ⟨y1, a1, b1⟩ := applyIneq_ok h1 h2 h3 e1 e2 e3 x
  obtain ⟨y2, a2, b2⟩ := applyIneq_ok h1 h2 h3 e2 e3 e1 y1
  obtain ⟨y3, a3, b3⟩ := applyIneq_ok h1 h2 h3 e3 e1 e2 y2
  refine ⟨y3, ?_, ?_⟩
  · unfold threeIneqs
    rw [a1, ok_bind, a2, ok_bind, a3]
  · intro s
    rw [b3 s, b2 s, b1 s]
    unfold sides
    simp only [List.mem_cons, List.not_mem_nil, or_false, forall_eq_or_imp, forall_eq]
    tauto

theorem fold_bounds {T : Triangulation} {el dl dv : List ℝ} (h1 : el.length = T.edges.length) (h2 : dl.length = T.diags.length) (h3 : dv.length = T.diags.length)
    (hf : ∀ (i : Nat) (t : Triangle), T.triangles[i]? = some t → SidesFit T i t) : ∀ (ts : List Nat) (x : ℝ × ℝ), (∀ i ∈ ts, i < T.triangles.length) →
    ∃ y, ts.foldlM (fun x i => do let t ← rd T.triangles i; threeIneqs el dl dv t x) x = .ok y ∧
      ∀ s, (y.2 ≤ s ∧ s ≤ y.1) ↔ (x.2 ≤ s ∧ s ≤ x.1) ∧ ∀ i ∈ ts, ∀ t, T.triangles[i]? = some t → ∀ q ∈ sides t, Holds el dl dv q s
  | [], x, _ => ⟨x, rfl, fun s => by simp⟩
  | i :: ts, x, hb => by
    have hi := hb i (by simp)
    have hg := List.getElem?_eq_getElem hi
    obtain ⟨y, a1, b1⟩ := threeIneqs_ok h1 h2 h3 (hf i _ hg) x
    obtain ⟨z, a2, b2⟩ := fold_bounds h1 h2 h3 hf ts y (fun j hj => hb j (by simp [hj]))
    refine ⟨z, ?_, ?_⟩
    · rw [List.foldlM_cons, rd_lt hi, ok_bind, a1, ok_bind, a2]
    · intro s
      rw [b2 s, b1 s, and_assoc]
      refine and_congr_right (fun _ => ?_)
      constructor
      · rintro ⟨c1, c2⟩ j hj t ht
        rcases List.mem_cons.mp hj with rfl | hj
        · rw [hg] at ht; cases ht; exact c1
        · exact c2 j hj t ht
      · intro c
        exact ⟨c i (by simp) _ hg, fun j hj => c j (by simp [hj])⟩

theorem holds_shift {T : Triangulation} {el dl dv : List ℝ} (h2 : dl.length = T.diags.length) (h3 : dv.length = T.diags.length) {i : Nat} {t : Triangle}
    (hf : SidesFit T i t) {q : CRef × CRef × CRef} (hq : q ∈ sides t) (s : ℝ) : slack el (shift dl dv s) q = slack el dl q + s * rate dv q := by
  obtain ⟨u, v, w, e1, e2, e3, _⟩ := hf
  unfold sides at hq
  simp only [List.mem_cons, List.not_mem_nil, or_false] at hq
  unfold slack rate
  rcases hq with rfl | rfl | rfl <;> simp only <;> rw [lengthOf_shift h2 h3 e1, lengthOf_shift h2 h3 e2, lengthOf_shift h2 h3 e3] <;> ring

theorem closes_slack {el dl : List ℝ} {t : Triangle} : Closes el dl t ↔ ∀ q ∈ sides t, 0 ≤ slack el dl q := by
  unfold Closes sides slack
  simp only [List.mem_cons, List.not_mem_nil, or_false, forall_eq_or_imp, forall_eq]
  constructor
  · rintro ⟨a, b, c⟩; refine ⟨by linarith, by linarith, by linarith⟩
  · rintro ⟨a, b, c⟩; refine ⟨by linarith, by linarith, by linarith⟩

theorem bounds_ok {T : Triangulation} (hT : Proper T) {el dl dv : List ℝ} (h1 : el.length = T.edges.length) (h2 : dl.length = T.diags.length)
    (h3 : dv.length = T.diags.length) : ∃ y, bounds T el dl dv = .ok y ∧
      ∀ s, (y.2 ≤ s ∧ s ≤ y.1) ↔ |s| ≤ 1e12 ∧ ∀ t ∈ T.triangles, ∀ q ∈ sides t, 1e-8 ≤ |rate dv q| → 0 ≤ slack el (shift dl dv s) q := by
  obtain ⟨_, _, hf, ts, hp, hw, _⟩ := proper_walk hT
  obtain ⟨y, a, b⟩ := fold_bounds h1 h2 h3 hf ts (1e12, -1e12) (fun i hi => by rw [hp.mem_iff, List.mem_range] at hi; exact hi)
  refine ⟨y, ?_, ?_⟩
  · unfold bounds; rw [hw, a]
  · intro s
    rw [b s, abs_le]
    refine and_congr (by simp) ?_
    constructor
    · intro c t ht q hq
      obtain ⟨i, hi, rfl⟩ := List.getElem_of_mem ht
      have hg := List.getElem?_eq_getElem hi
      rw [holds_shift h2 h3 (hf i _ hg) hq]
      exact c i (by rw [hp.mem_iff, List.mem_range]; exact hi) _ hg q hq
    · intro c i hi t ht q hq
      unfold Holds
      rw [← holds_shift h2 h3 (hf i _ ht) hq]
      exact c t (List.mem_of_getElem? ht) q hq

theorem flat_between {u a b : ℝ} (h0 : 0 ≤ u) (h1 : u ≤ 1) (hab : a ≤ b) : a ≤ flat u a b ∧ flat u a b ≤ b := by
  unfold flat
  constructor <;> nlinarith

theorem confine_ok {R : ℝ} : ∀ (dl dv : List ℝ) (x : ℝ × ℝ), dl.length = dv.length → ∀ s,
    ((confine R dl dv x).2 ≤ s ∧ s ≤ (confine R dl dv x).1) ↔ (x.2 ≤ s ∧ s ≤ x.1) ∧ ∀ (k : Nat) (d v : ℝ), dl[k]? = some d → dv[k]? = some v → 1e-8 < |v| → d + s * v ≤ R
  | [], [], x, _, s => by simp [confine]
  | [], _ :: _, _, h, _ => by simp at h
  | _ :: _, [], _, h, _ => by simp at h
  | d :: dl, v :: dv, x, h, s => by
    unfold confine
    rw [confine_ok dl dv _ (by simpa using h) s]
    have step : ((if |v| > 1e-8 then if v > 0 then (if (R - d) / v < x.1 then (R - d) / v else x.1, x.2) else (x.1, if (R - d) / v > x.2 then (R - d) / v else x.2)
        else x).2 ≤ s ∧ s ≤ (if |v| > 1e-8 then if v > 0 then (if (R - d) / v < x.1 then (R - d) / v else x.1, x.2) else
          (x.1, if (R - d) / v > x.2 then (R - d) / v else x.2) else x).1) ↔ (x.2 ≤ s ∧ s ≤ x.1) ∧ (1e-8 < |v| → d + s * v ≤ R) := by
      by_cases c1 : |v| > 1e-8
      · simp only [if_pos c1]
        by_cases c2 : v > 0
        · simp only [if_pos c2]
          have key : s ≤ (R - d) / v ↔ d + s * v ≤ R := by
            rw [le_div_iff₀ c2]
            constructor <;> intro h <;> linarith
          constructor
          · rintro ⟨a, b⟩
            split at b
            · exact ⟨⟨a, by linarith⟩, fun _ => key.mp b⟩
            · exact ⟨⟨a, b⟩, fun _ => key.mp (by linarith)⟩
          · rintro ⟨⟨a, b⟩, c⟩
            have := key.mpr (c c1)
            refine ⟨a, ?_⟩
            split <;> assumption
        · simp only [if_neg c2]
          have hd0 : v < 0 := by
            rcases lt_or_eq_of_le (not_lt.mp c2) with h | h
            · exact h
            · rw [h, abs_zero] at c1; norm_num at c1
          have key : (R - d) / v ≤ s ↔ d + s * v ≤ R := by
            rw [div_le_iff_of_neg hd0]
            constructor <;> intro h <;> linarith
          constructor
          · rintro ⟨a, b⟩
            split at a
            · exact ⟨⟨by linarith, b⟩, fun _ => key.mp a⟩
            · exact ⟨⟨a, b⟩, fun _ => key.mp (by linarith)⟩
          · rintro ⟨⟨a, b⟩, c⟩
            have := key.mpr (c c1)
            refine ⟨?_, b⟩
            split <;> assumption
      · simp only [if_neg c1]
        constructor
        · intro h; exact ⟨h, fun h' => absurd h' c1⟩
        · exact fun h => h.1
    rw [step, and_assoc]
    refine and_congr_right (fun _ => ?_)
    constructor
    · rintro ⟨a, b⟩ k d' v' hd hv
      rcases k with _ | k
      · have e1 : d = d' := by simpa using hd
        have e2 : v = v' := by simpa using hv
        rw [← e1, ← e2]; exact a
      · exact b k d' v' (by simpa using hd) (by simpa using hv)
    · intro c
      exact ⟨c 0 d v rfl rfl, fun k d' v' hd hv => c (k + 1) d' v' (by simpa using hd) (by simpa using hv)⟩

end Plc.Embed
