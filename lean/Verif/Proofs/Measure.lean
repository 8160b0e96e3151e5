import Verif.Model.Measure
import Verif.Spec.Measure
import Verif.Proofs.Motions
import Verif.Proofs.Basic

/-! Loops which measure curves. -/

namespace Plc.Measure

open Plc.Core Plc.FindCrossings Plc.RandomPolygon Plc.Equilateral Plc.Motions

theorem dist3_eq (a b : V3) : dist3 a b = apart a b := by
  unfold dist3 apart distSq V3.sub V3.dot
  congr 1; ring

theorem dist3_swap (a b : V3) : dist3 a b = apart b a := by rw [dist3_eq, apart_comm]

/-- The list is what stands at `vt[v]`, `vt[v+1]`, ... -/
def Reads (c : Comp) (v : Int) (l : List V3) : Prop := ∀ (j : Nat) (q : V3), l[j]? = some q → vtAt c (v + j) = .ok q

theorem Reads.head {c : Comp} {v : Int} {a : V3} {l : List V3} (h : Reads c v (a :: l)) : vtAt c v = .ok a := by
  simpa using h 0 a rfl

theorem Reads.tail {c : Comp} {v : Int} {a : V3} {l : List V3} (h : Reads c v (a :: l)) : Reads c (v + 1) l := by
  intro j q hq
  have := h (j + 1) q (by simpa using hq)
  rw [← this]; congr 1; push_cast; ring

theorem openLength_cons (a b : V3) (l : List V3) : openLength (a :: b :: l) = apart a b + openLength (b :: l) := by
  rw [openLength]; rfl

theorem openLength_gaps : ∀ l : List V3, openLength l = (gaps l).sum
  | [] => by simp [openLength, gaps]
  | [a] => by simp [openLength, gaps]
  | a :: b :: l => by rw [openLength_cons, gaps, List.sum_cons, openLength_gaps (b :: l)]

theorem edgeSum_ok (c : Comp) : ∀ (l : List V3) (v : Nat) (s : ℝ), Reads c v l → edgeSum c (l.length - 1) v s = .ok (s + openLength l)
  | [], v, s, _ => by simp [edgeSum, openLength]
  | [a], v, s, _ => by simp [edgeSum, openLength]
  | a :: b :: l, v, s, h => by
    show edgeSum c (l.length + 1) v s = _
    rw [edgeSum, h.tail.head, ok_bind, h.head, ok_bind]
    have := edgeSum_ok c (b :: l) (v + 1) (s + dist3 b a) (by have := h.tail; push_cast; exact this)
    simp only [List.length_cons, Nat.add_sub_cancel] at this
    rw [this, openLength_cons, dist3_swap]
    congr 1; ring

/-- One step of `plc_edgelength_stats`. -/
noncomputable def stat (st : ℝ × ℝ × ℝ × ℝ) (d : ℝ) : ℝ × ℝ × ℝ × ℝ := (max d st.1, min d st.2.1, st.2.2.1 + d, st.2.2.2 + d * d)

theorem statLoop_ok (c : Comp) : ∀ (l : List V3) (v : Nat) (st : ℝ × ℝ × ℝ × ℝ), Reads c ((v : Int) - 1) l →
    statLoop c (l.length - 1) v st = .ok ((gaps l).foldl stat st)
  | [], v, s, _ => by simp [statLoop, gaps]
  | [a], v, s, _ => by simp [statLoop, gaps]
  | a :: b :: l, v, (s1, s2, s3, s4), h => by
    show statLoop c (l.length + 1) v _ = _
    have hb : vtAt c (v : Int) = .ok b := by have := h.tail.head; rwa [sub_add_cancel] at this
    rw [statLoop, hb, ok_bind, h.head, ok_bind]
    have := statLoop_ok c (b :: l) (v + 1) (stat (s1, s2, s3, s4) (dist3 b a)) (by have := h.tail; push_cast; rwa [sub_add_cancel, ← add_sub_cancel_right (v : Int) 1] at this)
    simp only [List.length_cons, Nat.add_sub_cancel] at this
    show statLoop c l.length (v + 1) (stat (s1, s2, s3, s4) (dist3 b a)) = _
    rw [this, gaps, List.foldl_cons, dist3_swap]

theorem reads_vt (c : Comp) : Reads c 0 c.vt := by
  intro j q hq
  have hj := (List.getElem?_eq_some_iff.mp hq).1
  unfold vtAt
  rw [if_neg (by omega), if_neg (by omega), if_neg (by omega)]
  simp only [zero_add, Int.toNat_natCast]
  exact rd_eq_ok.mpr hq

theorem reads_tour (c : Comp) (h0 : c.vt ≠ []) : Reads c 0 (tour c) := by
  unfold tour
  split
  · exact reads_vt c
  · rename_i ho
    intro j q hq
    rcases Nat.lt_or_ge j c.vt.length with hj | hj
    · exact reads_vt c j q (by rwa [List.getElem?_append_left hj] at hq)
    · rw [List.getElem?_append_right hj] at hq
      have hl := (List.getElem?_eq_some_iff.mp hq).1
      rw [List.length_take] at hl
      have hp : 0 < c.vt.length := List.length_pos_of_ne_nil h0
      have : j = c.vt.length := by omega
      subst this
      unfold vtAt
      rw [if_neg (by omega), if_neg (by omega), if_pos (by omega), if_neg ho]
      refine rd_eq_ok.mpr ?_
      rw [Nat.sub_self, List.getElem?_take] at hq
      simpa using hq

theorem tour_edges (c : Comp) (h0 : c.vt ≠ []) : (tour c).length - 1 = if c.isOpen then c.vt.length - 1 else c.vt.length := by
  have hp : 0 < c.vt.length := List.length_pos_of_ne_nil h0
  unfold tour
  split
  · rfl
  · rw [List.length_append, List.length_take]; omega

theorem tour_length (c : Comp) : openLength (tour c) = lengthOf c := by
  unfold tour lengthOf
  split
  · rfl
  · cases c.vt with
    | nil => rfl
    | cons a l => rfl

theorem gaps_length : ∀ l : List V3, (gaps l).length = l.length - 1
  | [] => rfl
  | [a] => rfl
  | a :: b :: l => by
    have := gaps_length (b :: l)
    simp only [gaps, List.length_cons] at this ⊢
    omega

/-- Lengths of pieces add up. -/
theorem openLength_append (a : V3) : ∀ l m : List V3, openLength (l ++ a :: m) = openLength (l ++ [a]) + openLength (a :: m)
  | [], m => by simp [openLength]
  | [b], m => by simp [openLength_cons, openLength]
  | b :: b' :: l, m => by
    have := openLength_append a (b' :: l) m
    simp only [List.cons_append] at this ⊢
    rw [openLength_cons, openLength_cons, this]
    ring

end Plc.Measure
