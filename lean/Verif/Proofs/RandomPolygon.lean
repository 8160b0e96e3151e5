import Verif.Spec.Length
import Mathlib.Tactic.Ring
import Mathlib.Tactic.Linarith
import Mathlib.Tactic.FieldSimp
import Mathlib.Tactic.LinearCombination

/-! Gram-Schmidt for two complex vectors, and the Hopf map. -/

namespace Plc.RandomPolygon

open Plc.Core Plc.FindCrossings

local notation "conj" => starRingEnd ℂ

theorem hdot_nil (B : List ℂ) : hdot [] B = 0 := by simp [hdot]

theorem hdot_cons (a b : ℂ) (A B : List ℂ) : hdot (a :: A) (b :: B) = a * conj b + hdot A B := by simp [hdot]

theorem conj_hdot : ∀ A B : List ℂ, conj (hdot A B) = hdot B A
  | [], B => by simp [hdot]
  | a :: A, [] => by simp [hdot]
  | a :: A, b :: B => by
    rw [hdot_cons, hdot_cons, map_add, conj_hdot A B, map_mul, Complex.conj_conj, mul_comm]

theorem hdot_cscale_left (s : ℂ) : ∀ A B : List ℂ, hdot (cscale s A) B = s * hdot A B
  | [], B => by simp [hdot, cscale]
  | a :: A, [] => by simp [hdot, cscale]
  | a :: A, b :: B => by
    have := hdot_cscale_left s A B
    simp only [cscale, List.map_cons] at this ⊢
    rw [hdot_cons, hdot_cons, this]
    ring

theorem hdot_cscale_right (s : ℂ) (A B : List ℂ) : hdot A (cscale s B) = conj s * hdot A B := by
  rw [← conj_hdot, hdot_cscale_left, map_mul, conj_hdot]

theorem hdot_minus (s : ℂ) : ∀ A B C : List ℂ, A.length = B.length → C.length = B.length →
    hdot (List.zipWith (fun b a => b - s * a) B A) C = hdot B C - s * hdot A C
  | [], [], [], _, _ => by simp [hdot]
  | a :: A, b :: B, c :: C, h1, h2 => by
    have := hdot_minus s A B C (by simpa using h1) (by simpa using h2)
    rw [List.zipWith_cons_cons, hdot_cons, hdot_cons, hdot_cons, this]
    ring

theorem hdot_self_re : ∀ A : List ℂ, hdot A A = (((A.map Complex.normSq).sum : ℝ) : ℂ)
  | [] => by simp [hdot]
  | a :: A => by
    rw [hdot_cons, hdot_self_re A, Complex.mul_conj]
    simp

theorem sum_normSq_nonneg (A : List ℂ) : 0 ≤ (A.map Complex.normSq).sum := by
  induction A with
  | nil => simp
  | cons a A ih =>
    rw [List.map_cons, List.sum_cons]
    exact add_nonneg (Complex.normSq_nonneg a) ih

theorem sum_normSq_zero {A : List ℂ} (h : (A.map Complex.normSq).sum = 0) : ∀ a ∈ A, a = 0 := by
  induction A with
  | nil => simp
  | cons a A ih =>
    rw [List.map_cons, List.sum_cons] at h
    have h1 := Complex.normSq_nonneg a
    have h2 := sum_normSq_nonneg A
    intro b hb
    rcases List.mem_cons.mp hb with rfl | hb
    · exact Complex.normSq_eq_zero.mp (by linarith)
    · exact ih (by linarith) b hb

theorem unit_some {A A' : List ℂ} (h : unit A = some A') : hdot A' A' = 1 ∧ A'.length = A.length ∧
    ∃ r : ℝ, r ≠ 0 ∧ A' = cscale ((r : ℝ) : ℂ) A := by
  unfold unit at h
  simp only at h
  split at h
  · simp at h
  · next hn =>
    simp only [Option.some.injEq] at h
    rw [hdot_self_re] at h hn
    simp only [Complex.ofReal_re] at h hn
    obtain ⟨q, hq⟩ : ∃ q, q = (A.map Complex.normSq).sum := ⟨_, rfl⟩
    have q0 : 0 ≤ q := by rw [hq]; exact sum_normSq_nonneg A
    refine ⟨?_, ?_, 1 / Real.sqrt q, ?_, ?_⟩
    · rw [← h, hdot_cscale_left, hdot_cscale_right, hdot_self_re, ← hq]
      have e : (1 : ℂ) / ((Real.sqrt q : ℝ) : ℂ) = ((1 / Real.sqrt q : ℝ) : ℂ) := by push_cast; ring
      rw [e, Complex.conj_ofReal]
      rw [← Complex.ofReal_mul, ← Complex.ofReal_mul, ← Complex.ofReal_one]
      congr 1
      rw [← hq] at hn
      field_simp
      exact (Real.sq_sqrt q0).symm
    · rw [← h]; simp [cscale]
    · rw [← hq] at hn
      exact one_div_ne_zero hn
    · rw [← h, ← hq]
      push_cast
      rfl

theorem unit_none {A : List ℂ} (h : unit A = none) : ∀ a ∈ A, a = 0 := by
  unfold unit at h
  simp only at h
  split at h
  · next hn =>
    rw [hdot_self_re] at hn
    simp only [Complex.ofReal_re] at hn
    exact sum_normSq_zero ((Real.sqrt_eq_zero (sum_normSq_nonneg A)).mp hn)
  · simp at h

theorem frame_some {A B A' B' : List ℂ} (hl : A.length = B.length) (h : frame A B = some (A', B')) :
    hdot A' A' = 1 ∧ hdot B' B' = 1 ∧ hdot A' B' = 0 ∧ A'.length = A.length ∧ B'.length = B.length := by
  unfold frame at h
  cases hA : unit A with
  | none => rw [hA] at h; simp at h
  | some A1 =>
    rw [hA] at h
    simp only at h
    obtain ⟨u1, u2, -⟩ := unit_some hA
    cases hB : unit (List.zipWith (fun b a => b - conj (hdot A1 B) * a) B A1) with
    | none => rw [hB] at h; simp at h
    | some B1 =>
      rw [hB] at h
      simp only [Option.some.injEq, Prod.mk.injEq] at h
      obtain ⟨rfl, rfl⟩ := h
      obtain ⟨v1, v2, r, -, hr⟩ := unit_some hB
      have hlen : (List.zipWith (fun b a => b - conj (hdot A1 B) * a) B A1).length = B.length := by simp [u2, hl]
      refine ⟨u1, v1, ?_, u2, by rw [v2, hlen]⟩
      have : hdot B1 A1 = 0 := by
        rw [hr, hdot_cscale_left, hdot_minus _ _ _ _ (by rw [u2, hl]) (by rw [u2, hl]), u1, conj_hdot]
        ring
      rw [← conj_hdot, this, map_zero]

theorem frame_none {A B : List ℂ} (hl : A.length = B.length) (h : frame A B = none) : ¬ Independent A B := by
  intro hI
  unfold frame at h
  cases hA : unit A with
  | none =>
    have := unit_none hA
    have := (hI 1 0 (by
      intro i a b ha hb
      rw [this a (List.mem_of_getElem? ha)]
      ring)).1
    exact one_ne_zero this
  | some A1 =>
    rw [hA] at h
    simp only at h
    obtain ⟨u1, u2, r, -, hr⟩ := unit_some hA
    cases hB : unit (List.zipWith (fun b a => b - conj (hdot A1 B) * a) B A1) with
    | some B1 => rw [hB] at h; simp at h
    | none =>
      have hz := unit_none hB
      have := (hI (-(conj (hdot A1 B) * r)) 1 (by
        intro i a b ha hb
        have h1 : A1[i]? = some (a * r) := by
          rw [hr]
          simp [cscale, ha]
        have h2 : (List.zipWith (fun b a => b - conj (hdot A1 B) * a) B A1)[i]? = some (b - conj (hdot A1 B) * (a * r)) := by
          rw [List.getElem?_zipWith, hb, h1]
        have := hz _ (List.mem_of_getElem? h2)
        linear_combination this)).2
      exact one_ne_zero this

/-! ### The Hopf map -/

theorem norm3_nonneg (a : V3) : 0 ≤ norm3 a := Real.sqrt_nonneg _

theorem norm_hopf (a b : ℂ) : norm3 (hopf a b) = Complex.normSq a + Complex.normSq b := by
  unfold norm3 hopf
  simp only [Complex.normSq_apply]
  rw [Real.sqrt_eq_iff_mul_self_eq]
  · ring
  · nlinarith [sq_nonneg (a.re * a.re + a.im * a.im - b.re * b.re - b.im * b.im), sq_nonneg (2 * a.im * b.re - 2 * a.re * b.im),
      sq_nonneg (2 * a.re * b.re + 2 * a.im * b.im)]
  · nlinarith [sq_nonneg a.re, sq_nonneg a.im, sq_nonneg b.re, sq_nonneg b.im]

theorem length_edges : ∀ A B : List ℂ, A.length = B.length →
    ((edges A B).map norm3).sum = (A.map Complex.normSq).sum + (B.map Complex.normSq).sum
  | [], [], _ => by simp [edges]
  | a :: A, b :: B, h => by
    have := length_edges A B (by simpa using h)
    simp only [edges, List.zipWith_cons_cons, List.map_cons, List.sum_cons] at this ⊢
    rw [this, norm_hopf]
    ring

theorem foldl_add (es : List V3) : ∀ p : V3, es.foldl add p = ⟨p.x + (es.map V3.x).sum, p.y + (es.map V3.y).sum, p.z + (es.map V3.z).sum⟩ := by
  induction es with
  | nil => intro p; simp
  | cons e es ih =>
    intro p
    rw [List.foldl_cons, ih]
    simp only [add, List.map_cons, List.sum_cons, V3.mk.injEq]
    exact ⟨by ring, by ring, by ring⟩

theorem sum_edges : ∀ A B : List ℂ, A.length = B.length →
    ((edges A B).map V3.x).sum = (hdot A A).re - (hdot B B).re ∧ ((edges A B).map V3.y).sum = 2 * (hdot A B).im ∧
    ((edges A B).map V3.z).sum = 2 * (hdot A B).re
  | [], [], _ => by simp [edges, hdot]
  | a :: A, b :: B, h => by
    obtain ⟨h1, h2, h3⟩ := sum_edges A B (by simpa using h)
    simp only [edges, List.zipWith_cons_cons, List.map_cons, List.sum_cons] at h1 h2 h3 ⊢
    rw [h1, h2, h3, hdot_cons, hdot_cons, hdot_cons]
    simp only [hopf, Complex.add_re, Complex.add_im, Complex.mul_re, Complex.mul_im, Complex.conj_re, Complex.conj_im]
    exact ⟨by ring, by ring, by ring⟩

/-! ### Paths -/

theorem length_path : ∀ (p : V3) (es : List V3), (path p es).length = es.length
  | _, [] => rfl
  | p, e :: l => by simp [path, length_path]

theorem dist_add (p e : V3) : Real.sqrt ((p.x - (add p e).x) ^ 2 + (p.y - (add p e).y) ^ 2 + (p.z - (add p e).z) ^ 2) = norm3 e := by
  unfold norm3 add
  congr 1
  ring

/-- The length of a path and what it becomes with one more point. -/
theorem openLength_path : ∀ (p : V3) (es : List V3), openLength (p :: path p es) = (es.map norm3).sum
  | p, [] => by simp [path, openLength]
  | p, e :: l => by
    rw [path, openLength, openLength_path, dist_add]
    simp

theorem openLength_snoc : ∀ (a : V3) (l : List V3) (q : V3), openLength ((a :: l) ++ [q]) =
    openLength (a :: l) + Real.sqrt ((((a :: l).getLast (by simp)).x - q.x) ^ 2 + (((a :: l).getLast (by simp)).y - q.y) ^ 2 + (((a :: l).getLast (by simp)).z - q.z) ^ 2)
  | a, [], q => by simp [openLength]
  | a, b :: l, q => by
    have := openLength_snoc b l q
    simp only [List.cons_append, openLength] at this ⊢
    rw [this]
    simp only [List.getLast_cons_cons]
    ring

theorem path_last : ∀ (p : V3) (es : List V3), (p :: path p es).getLast (by simp) = es.foldl add p
  | p, [] => rfl
  | p, e :: l => by
    have := path_last (add p e) l
    simp only [path, List.foldl_cons, List.getLast_cons_cons] at this ⊢
    exact this

/-- A closed polygon whose edges sum up to 0. -/
theorem closedLength_path (e : V3) (l : List V3) (h : total (e :: l) = ⟨0, 0, 0⟩) :
    closedLength (e :: path e l) = ((e :: l).map norm3).sum ∧ (e :: path e l).getLast (by simp) = ⟨0, 0, 0⟩ := by
  have hz : (e :: path e l).getLast (by simp) = ⟨0, 0, 0⟩ := by
    rw [path_last, ← h]
    unfold total
    rw [List.foldl_cons]
    congr 1
    unfold add
    simp
  refine ⟨?_, hz⟩
  show openLength ((e :: path e l) ++ [e]) = _
  rw [openLength_snoc, openLength_path, hz, List.map_cons, List.sum_cons, add_comm]
  congr 1
  unfold norm3
  congr 1
  ring

end Plc.RandomPolygon
