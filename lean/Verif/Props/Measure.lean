import Verif.Proofs.Measure
import Mathlib.Algebra.BigOperators.Group.List.Basic
import Mathlib.Analysis.SpecialFunctions.Trigonometric.Basic

/-! # C82: lengths, diameters, angles and curvature -/

namespace Plc.Measure

open Plc.Core Plc.FindCrossings Plc.RandomPolygon Plc.Equilateral Plc.Motions

theorem compLengths_ok : ∀ (cs : List Comp), (∀ c ∈ cs, c.vt ≠ []) → compLengths cs = .ok (cs.map lengthOf)
  | [], _ => rfl
  | c :: cs, h => by
    have h0 := h c (List.mem_cons_self ..)
    have := edgeSum_ok c (tour c) 0 0 (reads_tour c h0)
    rw [tour_edges c h0, tour_length, zero_add] at this
    rw [compLengths, this, ok_bind, compLengths_ok cs (fun c' hc' => h c' (List.mem_cons_of_mem _ hc')), ok_bind]
    rfl

theorem foldl_add : ∀ (l : List ℝ) (s : ℝ), l.foldl (· + ·) s = s + l.sum
  | [], s => by simp
  | a :: l, s => by rw [List.foldl_cons, foldl_add, List.sum_cons, add_assoc]

/-- **C82.** `plc_arclength` returns the sum of the lengths of the components, and these; a closed component goes back to its start. -/
theorem C82_arclength (L : Curve) (h : ∀ c ∈ L.cp, c.vt ≠ []) :
    arclength L = .ok ((L.cp.map lengthOf).sum, L.cp.map lengthOf) := by
  rw [arclength, compLengths_ok _ h, ok_bind, foldl_add, zero_add]

theorem subLoop_split (c : Comp) (v1 v2 : Nat) (k2 : Nat) : ∀ (k1 v : Nat) (l1 l2 : ℝ),
    subLoop c v1 v2 (k1 + k2) v l1 l2 = (do let (a, b) ← subLoop c v1 v2 k1 v l1 l2; subLoop c v1 v2 k2 (v + k1) a b)
  | 0, v, l1, l2 => by rw [Nat.zero_add, Nat.add_zero]; rfl
  | k1 + 1, v, l1, l2 => by
    rw [show k1 + 1 + k2 = (k1 + k2) + 1 by omega, subLoop, subLoop]
    cases vtAt c ((v : Int) + 1) with
    | error e => rfl
    | ok b =>
      rw [ok_bind, ok_bind]
      cases vtAt c (v : Int) with
      | error e => rfl
      | ok a =>
        rw [ok_bind, ok_bind]
        split <;> rw [subLoop_split c v1 v2 k2 k1, show v + 1 + k1 = v + (k1 + 1) by omega]

theorem subLoop_in (c : Comp) (v1 v2 : Nat) : ∀ (l : List V3) (v : Nat) (l1 l2 : ℝ), Reads c v l → v1 ≤ v → v + (l.length - 1) ≤ v2 →
    subLoop c v1 v2 (l.length - 1) v l1 l2 = .ok (l1 + openLength l, l2)
  | [], v, l1, l2, _, _, _ => by simp [subLoop, openLength]
  | [a], v, l1, l2, _, _, _ => by simp [subLoop, openLength]
  | a :: b :: l, v, l1, l2, h, h1, h2 => by
    simp only [List.length_cons] at h2
    show subLoop c v1 v2 (l.length + 1) v l1 l2 = _
    rw [subLoop, h.tail.head, ok_bind, h.head, ok_bind, if_pos (by omega)]
    have := subLoop_in c v1 v2 (b :: l) (v + 1) (l1 + dist3 b a) l2 (by have := h.tail; push_cast; exact this) (by omega)
      (by simp only [List.length_cons]; omega)
    simp only [List.length_cons, Nat.add_sub_cancel] at this
    rw [this, openLength_cons, dist3_swap, add_assoc]

theorem subLoop_out (c : Comp) (v1 v2 : Nat) : ∀ (l : List V3) (v : Nat) (l1 l2 : ℝ), Reads c v l → v + (l.length - 1) ≤ v1 ∨ v2 ≤ v →
    subLoop c v1 v2 (l.length - 1) v l1 l2 = .ok (l1, l2 + openLength l)
  | [], v, l1, l2, _, _ => by simp [subLoop, openLength]
  | [a], v, l1, l2, _, _ => by simp [subLoop, openLength]
  | a :: b :: l, v, l1, l2, h, h1 => by
    simp only [List.length_cons] at h1
    show subLoop c v1 v2 (l.length + 1) v l1 l2 = _
    rw [subLoop, h.tail.head, ok_bind, h.head, ok_bind, if_neg (by omega)]
    have := subLoop_out c v1 v2 (b :: l) (v + 1) l1 (l2 + dist3 b a) (by have := h.tail; push_cast; exact this)
      (by simp only [List.length_cons]; omega)
    simp only [List.length_cons, Nat.add_sub_cancel] at this
    rw [this, openLength_cons, dist3_swap, add_assoc]

theorem Reads.drop {c : Comp} {v : Int} {l : List V3} (h : Reads c v l) (n : Nat) : Reads c (v + n) (l.drop n) := by
  intro j q hq
  rw [List.getElem?_drop] at hq
  rw [← h (n + j) q hq]; congr 1; push_cast; ring

theorem Reads.take {c : Comp} {v : Int} {l : List V3} (h : Reads c v l) (n : Nat) : Reads c v (l.take n) := by
  intro j q hq
  rw [List.getElem?_take] at hq
  split at hq
  · exact h j q hq
  · cases hq

/-- The vertices from number `i` to number `j`. -/
def between (c : Comp) (i j : Nat) : List V3 := (c.vt.drop i).take (j + 1 - i)

/-- The vertices from number `j` on, around, up to number `i`. -/
def around (c : Comp) (i j : Nat) : List V3 := c.vt.drop j ++ c.vt.take (i + 1)

theorem openLength_split (l : List V3) (n : Nat) (hn : n < l.length) : openLength l = openLength (l.take (n + 1)) + openLength (l.drop n) := by
  have h := openLength_append (l[n]) (l.take n) (l.drop (n + 1))
  rw [← List.drop_eq_getElem_cons hn, List.take_append_drop, ← List.take_succ_eq_append_getElem hn] at h
  exact h

/-- **C82.** `plc_subarc_length` returns the length of the arc between the two vertices, in any order; on a closed component that of the
shorter one of the two arcs. -/
theorem C82_subarc (L : Curve) (i a b : Nat) (c : Comp) (hc : L.cp[i]? = some c) (ha : a < c.vt.length) (hb : b < c.vt.length) :
    subarc L i a b = .ok (if c.isOpen then openLength (between c (min a b) (max a b))
      else min (openLength (between c (min a b) (max a b))) (openLength (around c (min a b) (max a b)))) := by
  have hi := (List.getElem?_eq_some_iff.mp hc).1
  have h0 : c.vt ≠ [] := by intro e; rw [e] at ha; exact absurd ha (Nat.not_lt_zero _)
  unfold subarc
  rw [assertC_ok (by simp; omega), ok_bind, Int.toNat_natCast, rd_eq_ok.mpr hc, ok_bind, assertC_ok (by simp; omega), ok_bind,
    assertC_ok (by simp; omega), ok_bind]
  obtain ⟨v1, hv1⟩ : ∃ v1, v1 = min a b := ⟨_, rfl⟩
  obtain ⟨v2, hv2⟩ : ∃ v2, v2 = max a b := ⟨_, rfl⟩
  have e1 : (min (a : Int) b).toNat = v1 := by omega
  have e2 : (max (a : Int) b).toNat = v2 := by omega
  have hle : v1 ≤ v2 := by omega
  have hlt : v2 < c.vt.length := by omega
  rw [e1, e2, ← hv1, ← hv2]
  have hbl : (between c v1 v2).length - 1 = v2 - v1 := by
    unfold between; rw [List.length_take, List.length_drop]; omega
  have hbr : Reads c (v1 : Int) (between c v1 v2) := by
    have := (reads_vt c).drop v1
    rw [zero_add] at this
    exact this.take _
  have hin := fun l1 l2 => subLoop_in c v1 v2 (between c v1 v2) v1 l1 l2 hbr (le_refl _) (by omega)
  simp only [hbl] at hin
  cases ho : c.isOpen with
  | true => simp only [if_true, hin, ok_bind, zero_add]
  | false =>
    simp only [Bool.false_eq_true, if_false, Nat.sub_zero]
    have hr1 : Reads c ((0 : Nat) : Int) ((tour c).take (v1 + 1)) := (reads_tour c h0).take _
    have hr2 : Reads c ((v2 : Nat) : Int) ((tour c).drop v2) := by
      have := (reads_tour c h0).drop v2
      rwa [zero_add] at this
    have htl : (tour c).length = c.vt.length + 1 := by
      have := tour_edges c h0
      rw [ho] at this
      simp only [Bool.false_eq_true, if_false] at this
      have hp : 0 < c.vt.length := List.length_pos_of_ne_nil h0
      omega
    have hl1 : ((tour c).take (v1 + 1)).length - 1 = v1 := by rw [List.length_take]; omega
    have hl2 : ((tour c).drop v2).length - 1 = c.vt.length - v2 := by rw [List.length_drop]; omega
    have ho1 := subLoop_out c v1 v2 _ 0 0 0 hr1 (Or.inl (by omega))
    have ho2 := fun l1 l2 => subLoop_out c v1 v2 _ v2 l1 l2 hr2 (Or.inr (le_refl _))
    rw [hl1] at ho1
    simp only [hl2] at ho2
    have hsum : c.vt.length = v1 + ((v2 - v1) + (c.vt.length - v2)) := by omega
    have hloop : subLoop c v1 v2 c.vt.length 0 0 0 = .ok (openLength (between c v1 v2), openLength (around c v1 v2)) := by
      rw [hsum, subLoop_split, ho1, ok_bind]
      simp only
      rw [subLoop_split, Nat.zero_add, hin, ok_bind]
      simp only
      rw [show v1 + (v2 - v1) = v2 by omega, ho2]
      rw [zero_add, zero_add]
      congr 2
      have ht : tour c = c.vt ++ c.vt.take 1 := by unfold tour; rw [ho]; rfl
      unfold around
      obtain ⟨x, l, hx⟩ : ∃ x l, c.vt = x :: l := List.exists_cons_of_ne_nil h0
      have e1 : c.vt.take 1 = [x] := by rw [hx]; rfl
      have e2 : c.vt.take (v1 + 1) = x :: l.take v1 := by rw [hx]; rfl
      rw [ht, e1, List.take_append_of_le_length (by omega), List.drop_append_of_le_length (by omega), e2, openLength_append x (c.vt.drop v2) (l.take v1)]
      ring
    rw [hloop, ok_bind]
    simp only
    rw [min_def]

theorem sComps_closed : ∀ (cs : List Comp) (s : ℝ), (∀ c ∈ cs, c.vt ≠ [] ∧ c.isOpen = false) → sComps cs s = .ok (s + (cs.map lengthOf).sum)
  | [], s, _ => by simp [sComps]
  | c :: cs, s, h => by
    obtain ⟨h0, ho⟩ := h c (List.mem_cons_self ..)
    have := edgeSum_ok c (tour c) 0 s (reads_tour c h0)
    rw [tour_edges c h0, tour_length, ho] at this
    simp only [Bool.false_eq_true, if_false] at this
    rw [sComps, this, ok_bind, sComps_closed cs _ (fun c' hc' => h c' (List.mem_cons_of_mem _ hc')), List.map_cons, List.sum_cons, add_assoc]

theorem sComps_error (e : Fault) : ∀ (cs : List Comp) (c : Comp) (cs' : List Comp) (s : ℝ), (∀ s, edgeSum c c.vt.length 0 s = .error e) →
    (∀ c ∈ cs, c.vt ≠ [] ∧ c.isOpen = false) → sComps (cs ++ c :: cs') s = .error e
  | [], c, cs', s, h, _ => by rw [List.nil_append, sComps, h]; rfl
  | c0 :: cs, c, cs', s, h, hcs => by
    obtain ⟨h0, ho⟩ := hcs c0 (List.mem_cons_self ..)
    have := edgeSum_ok c0 (tour c0) 0 s (reads_tour c0 h0)
    rw [tour_edges c0 h0, ho] at this
    simp only [Bool.false_eq_true, if_false] at this
    rw [List.cons_append, sComps, this, ok_bind, sComps_error e cs c cs' _ h (fun c' hc' => hcs c' (List.mem_cons_of_mem _ hc'))]

theorem edgeSum_upto (c : Comp) (j : Nat) (hj : j < c.vt.length) (s : ℝ) : edgeSum c j 0 s = .ok (s + openLength (c.vt.take (j + 1))) := by
  have := edgeSum_ok c (c.vt.take (j + 1)) 0 s ((reads_vt c).take _)
  rwa [show (c.vt.take (j + 1)).length - 1 = j by rw [List.length_take]; omega] at this

/-- **C82.** `plc_s`, if all earlier components are closed: their lengths, and the length of the way to the vertex. -/
theorem C82_position (L : Curve) (i j : Nat) (c : Comp) (hc : L.cp[i]? = some c) (hj : j < c.vt.length)
    (h : ∀ c ∈ L.cp.take i, c.vt ≠ [] ∧ c.isOpen = false) :
    arcPos L i j = .ok (((L.cp.take i).map lengthOf).sum + openLength (c.vt.take (j + 1))) := by
  have hi := (List.getElem?_eq_some_iff.mp hc).1
  unfold arcPos
  rw [if_pos hi, sComps_closed _ _ h, ok_bind, rd_eq_ok.mpr hc, ok_bind, edgeSum_upto c j hj, zero_add]

theorem edgeSum_split (c : Comp) (k2 : Nat) : ∀ (k1 v : Nat) (s : ℝ),
    edgeSum c (k1 + k2) v s = (do let s' ← edgeSum c k1 v s; edgeSum c k2 (v + k1) s')
  | 0, v, s => by rw [Nat.zero_add, Nat.add_zero]; rfl
  | k1 + 1, v, s => by
    rw [show k1 + 1 + k2 = (k1 + k2) + 1 by omega, edgeSum, edgeSum]
    cases vtAt c ((v : Int) + 1) with
    | error e => rfl
    | ok b =>
      rw [ok_bind, ok_bind]
      cases vtAt c (v : Int) with
      | error e => rfl
      | ok a => rw [ok_bind, ok_bind, edgeSum_split c k2 k1, show v + 1 + k1 = v + (k1 + 1) by omega]

/-- **C82.** `plc_s` counts the last edge of an open first component twice: on the second component all positions are too large by the
length of this edge. -/
theorem C82_position_open (L : Curve) (c0 c : Comp) (cs : List Comp) (j : Nat) (l : List V3) (a b : V3) (hL : L.cp = c0 :: c :: cs)
    (h0 : c0.isOpen = true) (hv : c0.vt = l ++ [a, b]) (hj : j < c.vt.length) :
    arcPos L 1 j = .ok (lengthOf c0 + apart a b + openLength (c.vt.take (j + 1))) := by
  have hn : c0.vt.length = l.length + 2 := by rw [hv]; simp
  have hlen : lengthOf c0 = openLength c0.vt := by unfold lengthOf; rw [h0]; rfl
  have h1 : vtAt c0 ((l.length + 1 : Nat) : Int) = .ok b := by
    have := reads_vt c0 (l.length + 1) b (by rw [hv]; simp)
    rwa [zero_add] at this
  have h2 : vtAt c0 (((l.length + 1 : Nat) : Int) + 1) = .ok a := by
    unfold vtAt
    rw [if_neg (by omega), if_neg (by omega), if_pos (by omega), h0]
    simp only [if_true]
    rw [if_neg (by omega)]
    refine rd_eq_ok.mpr ?_
    rw [hn, hv]; simp
  have hs : edgeSum c0 c0.vt.length 0 0 = .ok (lengthOf c0 + apart a b) := by
    have := edgeSum_ok c0 c0.vt 0 0 (reads_vt c0)
    rw [hn, show l.length + 2 - 1 = l.length + 1 by omega] at this
    rw [hn, show l.length + 2 = (l.length + 1) + 1 by omega, edgeSum_split, this, ok_bind, Nat.zero_add, edgeSum, h2, ok_bind, h1, ok_bind, edgeSum,
      zero_add, hlen, dist3_eq]
  unfold arcPos
  rw [if_pos (by rw [hL]; simp), show L.cp.take 1 = [c0] by rw [hL]; rfl, sComps, hs, ok_bind, sComps, ok_bind, rd_eq_ok.mpr (show L.cp[1]? = some c by rw [hL]; rfl),
    ok_bind, edgeSum_upto c j hj]

/-! ### Edges -/

theorem statComps_ok : ∀ (cs : List Comp) (st : ℝ × ℝ × ℝ × ℝ), (∀ c ∈ cs, c.vt ≠ []) →
    statComps cs st = .ok ((cs.flatMap fun c => gaps (tour c)).foldl stat st)
  | [], st, _ => rfl
  | c :: cs, st, h => by
    have h0 := h c (List.mem_cons_self ..)
    have hp : 0 < c.vt.length := List.length_pos_of_ne_nil h0
    have := statLoop_ok c (tour c) 1 st (by have := reads_tour c h0; exact this)
    rw [tour_edges c h0] at this
    rw [statComps, show (if c.isOpen then c.vt.length else c.vt.length + 1) - 1 = if c.isOpen then c.vt.length - 1 else c.vt.length by split <;> omega,
      this, ok_bind, statComps_ok cs _ (fun c' hc' => h c' (List.mem_cons_of_mem _ hc')), List.flatMap_cons, List.foldl_append]

theorem stat_fold : ∀ (l : List ℝ) (st : ℝ × ℝ × ℝ × ℝ), ∃ lo sh, l.foldl stat st = (lo, sh, st.2.2.1 + l.sum, st.2.2.2 + (l.map fun d => d * d).sum) ∧
    st.1 ≤ lo ∧ sh ≤ st.2.1 ∧ (∀ d ∈ l, sh ≤ d ∧ d ≤ lo) ∧ (lo = st.1 ∨ lo ∈ l) ∧ (sh = st.2.1 ∨ sh ∈ l)
  | [], st => ⟨st.1, st.2.1, by simp, le_refl _, le_refl _, by simp, Or.inl rfl, Or.inl rfl⟩
  | d :: l, st => by
    obtain ⟨lo, sh, he, h1, h2, h3, h4, h5⟩ := stat_fold l (stat st d)
    refine ⟨lo, sh, ?_, ?_, ?_, ?_, ?_, ?_⟩
    · rw [List.foldl_cons, he, List.sum_cons, List.map_cons, List.sum_cons]
      simp only [stat, add_assoc]
    · exact le_trans (le_max_right _ _) h1
    · exact le_trans h2 (min_le_right _ _)
    · intro x hx
      rcases List.mem_cons.mp hx with rfl | hx
      · exact ⟨le_trans h2 (min_le_left _ _), le_trans (le_max_left _ _) h1⟩
      · exact h3 x hx
    · rcases h4 with h4 | h4
      · simp only [stat] at h4
        rcases max_choice d st.1 with h | h
        · exact Or.inr (by rw [h4, h]; exact List.mem_cons_self ..)
        · exact Or.inl (by rw [h4, h])
      · exact Or.inr (List.mem_cons_of_mem _ h4)
    · rcases h5 with h5 | h5
      · simp only [stat] at h5
        rcases min_choice d st.2.1 with h | h
        · exact Or.inr (by rw [h5, h]; exact List.mem_cons_self ..)
        · exact Or.inl (by rw [h5, h])
      · exact Or.inr (List.mem_cons_of_mem _ h5)

theorem gaps_nonneg : ∀ (l : List V3), ∀ d ∈ gaps l, 0 ≤ d
  | [], d, h => by cases h
  | [a], d, h => by cases h
  | a :: b :: l, d, h => by
    rcases List.mem_cons.mp h with rfl | h
    · exact apart_nonneg _ _
    · exact gaps_nonneg (b :: l) d h

theorem edges_eq (L : Curve) (h : ∀ c ∈ L.cp, c.vt ≠ []) : edges L = (edgeLengths L).length := by
  unfold edges edgeLengths
  rw [List.length_flatMap]
  congr 1
  refine List.map_congr_left fun c hc => ?_
  rw [gaps_length, tour_edges c (h c hc)]

theorem sum_gaps : ∀ cs : List Comp, (cs.flatMap fun c => gaps (tour c)).sum = (cs.map lengthOf).sum
  | [] => rfl
  | c :: cs => by rw [List.flatMap_cons, List.sum_append, sum_gaps cs, List.map_cons, List.sum_cons, ← openLength_gaps, tour_length]

/-- **C82.** `plc_edgelength_stats` returns the largest and the smallest length of an edge (none of which may be longer than 10²⁰ for all
edges to be seen), the mean and the mean square. -/
theorem C82_edges (L : Curve) (h : ∀ c ∈ L.cp, c.vt ≠ []) (hne : edgeLengths L ≠ []) :
    ∃ lo sh m m2, edgeStats L = .ok (lo, sh, m, m2) ∧ (∀ d ∈ edgeLengths L, sh ≤ d ∧ d ≤ lo) ∧ lo ∈ edgeLengths L ∧
      ((∃ d ∈ edgeLengths L, d ≤ 1e20) → sh ∈ edgeLengths L) ∧ m = (edgeLengths L).sum / (edgeLengths L).length ∧
      m2 = ((edgeLengths L).map fun d => d ^ 2).sum / (edgeLengths L).length ∧ (edgeLengths L).sum = (L.cp.map lengthOf).sum := by
  obtain ⟨lo, sh, he, h1, h2, h3, h4, h5⟩ := stat_fold (edgeLengths L) (0, 1e20, 0, 0)
  have hl : (0 : ℝ) < (edgeLengths L).length := by exact_mod_cast List.length_pos_of_ne_nil hne
  refine ⟨lo, sh, _, _, ?_, h3, ?_, ?_, rfl, rfl, ?_⟩
  · unfold edgeStats
    rw [statComps_ok _ _ h, ok_bind]
    have he' : (L.cp.flatMap fun c => gaps (tour c)).foldl stat (0, 1e20, 0, 0) = _ := he
    rw [he']
    simp only [zero_add]
    rw [edges_eq L h, divC, if_neg (ne_of_gt hl), ok_bind, divC, if_neg (ne_of_gt hl), ok_bind]
    simp only [pow_two]
  · rcases h4 with h4 | h4
    · obtain ⟨d, l, hd⟩ := List.exists_cons_of_ne_nil hne
      have hm : d ∈ edgeLengths L := by rw [hd]; exact List.mem_cons_self ..
      have hn : 0 ≤ d := by
        unfold edgeLengths at hm
        obtain ⟨c, -, hm⟩ := List.mem_flatMap.mp hm
        exact gaps_nonneg _ d hm
      have := (h3 d hm).2
      simp only at h4
      have : d = lo := by linarith
      rw [← this]; exact hm
    · exact h4
  · rintro ⟨d, hd, hle⟩
    rcases h5 with h5 | h5
    · simp only at h5
      have := (h3 d hd).1
      have : sh = d := by linarith
      rw [this]; exact hd
    · exact h5
  · unfold edgeLengths
    exact sum_gaps L.cp

/-! ### Sets of vertices -/

theorem farthest_ok (v : V3) : ∀ (ws : List V3) (d : ℝ), d ≤ farthest v ws d ∧ (∀ w ∈ ws, apart v w ≤ farthest v ws d) ∧
    (farthest v ws d = d ∨ ∃ w ∈ ws, farthest v ws d = apart v w)
  | [], d => ⟨le_refl _, by simp, Or.inl rfl⟩
  | w :: ws, d => by
    have e : farthest v (w :: ws) d = farthest v ws (if dist3 v w > d then dist3 v w else d) := rfl
    obtain ⟨h1, h2, h3⟩ := farthest_ok v ws (if dist3 v w > d then dist3 v w else d)
    rw [← e] at h1 h2 h3
    rw [dist3_eq] at h1 h3
    refine ⟨?_, ?_, ?_⟩
    · refine le_trans ?_ h1; split <;> linarith
    · intro x hx
      rcases List.mem_cons.mp hx with rfl | hx
      · refine le_trans ?_ h1; split <;> linarith
      · exact h2 x hx
    · rcases h3 with h3 | ⟨x, hx, h3⟩
      · split at h3
        · exact Or.inr ⟨w, List.mem_cons_self .., h3⟩
        · exact Or.inl h3
      · exact Or.inr ⟨x, List.mem_cons_of_mem _ hx, h3⟩

theorem diameterOf_ok : ∀ (vs : List V3) (d : ℝ), d ≤ diameterOf vs d ∧ (∀ p ∈ vs, ∀ q ∈ vs, apart p q ≤ diameterOf vs d) ∧
    (diameterOf vs d = d ∨ ∃ p ∈ vs, ∃ q ∈ vs, diameterOf vs d = apart p q)
  | [], d => ⟨le_refl _, by simp, Or.inl rfl⟩
  | v :: vs, d => by
    obtain ⟨f1, f2, f3⟩ := farthest_ok v (v :: vs) d
    obtain ⟨h1, h2, h3⟩ := diameterOf_ok vs (farthest v (v :: vs) d)
    have e : diameterOf (v :: vs) d = diameterOf vs (farthest v (v :: vs) d) := rfl
    rw [← e] at h1 h2 h3
    refine ⟨le_trans f1 h1, ?_, ?_⟩
    · intro p hp q hq
      rcases List.mem_cons.mp hp with rfl | hp'
      · exact le_trans (f2 q hq) h1
      · rcases List.mem_cons.mp hq with rfl | hq'
        · rw [apart_comm]; exact le_trans (f2 p hp) h1
        · exact h2 p hp' q hq'
    · rcases h3 with h3 | ⟨p, hp, q, hq, h3⟩
      · rcases f3 with f3 | ⟨w, hw, f3⟩
        · exact Or.inl (h3.trans f3)
        · exact Or.inr ⟨v, List.mem_cons_self .., w, hw, h3.trans f3⟩
      · exact Or.inr ⟨p, List.mem_cons_of_mem _ hp, q, List.mem_cons_of_mem _ hq, h3⟩

theorem mem_allVerts (L : Curve) (p : V3) : p ∈ allVerts L ↔ IsVertex L p := by
  unfold allVerts IsVertex vertexOf
  rw [List.mem_flatMap]
  constructor
  · rintro ⟨c, hc, hp⟩
    obtain ⟨i, hi⟩ := List.mem_iff_getElem?.mp hc
    obtain ⟨j, hj⟩ := List.mem_iff_getElem?.mp hp
    exact ⟨i, j, by simp only [hi]; exact hj⟩
  · rintro ⟨i, j, h⟩
    split at h
    · rename_i c hc
      exact ⟨c, List.mem_of_getElem? hc, List.mem_of_getElem? h⟩
    · cases h

/-- **C82.** `plc_pointset_diameter` returns the largest distance of two vertices, of the same component or of different ones. -/
theorem C82_diameter (L : Curve) (v : V3) (hv : IsVertex L v) :
    (∀ p q, IsVertex L p → IsVertex L q → apart p q ≤ diameter L) ∧ ∃ p q, IsVertex L p ∧ IsVertex L q ∧ diameter L = apart p q := by
  obtain ⟨h1, h2, h3⟩ := diameterOf_ok (allVerts L) 0
  refine ⟨fun p q hp hq => h2 p ((mem_allVerts L p).mpr hp) q ((mem_allVerts L q).mpr hq), ?_⟩
  rcases h3 with h3 | ⟨p, hp, q, hq, h3⟩
  · exact ⟨v, v, hv, hv, by rw [apart_self]; exact h3⟩
  · exact ⟨p, q, (mem_allVerts L p).mp hp, (mem_allVerts L q).mp hq, h3⟩

theorem com_fold (s : ℝ) : ∀ (vs : List V3) (c : V3), vs.foldl (fun com v => add com (V3.scale s v)) c =
    ⟨c.x + s * (vs.map V3.x).sum, c.y + s * (vs.map V3.y).sum, c.z + s * (vs.map V3.z).sum⟩
  | [], c => by simp
  | v :: vs, c => by
    rw [List.foldl_cons, com_fold s vs]
    simp only [add, V3.scale, List.map_cons, List.sum_cons]
    congr 1 <;> ring

theorem com_eq (L : Curve) : centerOfMass L = ⟨((verticesOf L).map V3.x).sum / (verticesOf L).length,
    ((verticesOf L).map V3.y).sum / (verticesOf L).length, ((verticesOf L).map V3.z).sum / (verticesOf L).length⟩ := by
  unfold centerOfMass
  rw [com_fold]
  show (⟨0 + 1 / (verticesOf L).length * ((verticesOf L).map V3.x).sum, 0 + 1 / (verticesOf L).length * ((verticesOf L).map V3.y).sum,
    0 + 1 / (verticesOf L).length * ((verticesOf L).map V3.z).sum⟩ : V3) = _
  congr 1 <;> ring

theorem gyr_fold (m : V3) : ∀ (vs : List V3) (g : ℝ), vs.foldl (fun g v => g + gyradius.distSq m v) g = g + (vs.map (distSq m)).sum
  | [], g => by simp
  | v :: vs, g => by
    rw [List.foldl_cons, gyr_fold m vs, List.map_cons, List.sum_cons, ← add_assoc]
    congr 2
    simp only [gyradius.distSq, distSq]; ring

/-- The sum of squared distances from one point, by the sums of coordinates and their squares. -/
theorem sum_distSq (m : V3) : ∀ vs : List V3, (vs.map (distSq m)).sum = vs.length * (m.x ^ 2 + m.y ^ 2 + m.z ^ 2) -
    2 * (m.x * (vs.map V3.x).sum + m.y * (vs.map V3.y).sum + m.z * (vs.map V3.z).sum) + (vs.map fun v => v.x ^ 2 + v.y ^ 2 + v.z ^ 2).sum
  | [] => by simp
  | v :: vs => by
    simp only [List.map_cons, List.sum_cons, List.length_cons]
    rw [sum_distSq m vs]
    simp only [distSq]
    push_cast
    ring

theorem sum_affine (f g h k : V3 → ℝ) (a b c d : ℝ) : ∀ vs : List V3, (vs.map fun v => a * f v - 2 * (b * g v + c * h v + d * k v)).sum =
    a * (vs.map f).sum - 2 * (b * (vs.map g).sum + c * (vs.map h).sum + d * (vs.map k).sum)
  | [] => by simp
  | v :: vs => by
    simp only [List.map_cons, List.sum_cons]
    rw [sum_affine f g h k a b c d vs]
    ring

theorem sum_const (s : ℝ) : ∀ vs : List V3, (vs.map fun _ => s).sum = vs.length * s
  | [] => by simp
  | v :: vs => by
    simp only [List.map_cons, List.sum_cons, List.length_cons]
    rw [sum_const s vs]; push_cast; ring

/-- The sum over all pairs. -/
theorem sum_pairs (vs : List V3) : (vs.map fun p => (vs.map (distSq p)).sum).sum = 2 * vs.length * (vs.map fun v => v.x ^ 2 + v.y ^ 2 + v.z ^ 2).sum -
    2 * ((vs.map V3.x).sum ^ 2 + (vs.map V3.y).sum ^ 2 + (vs.map V3.z).sum ^ 2) := by
  have h : (vs.map fun p => (vs.map (distSq p)).sum) = vs.map fun p => ((vs.length * (p.x ^ 2 + p.y ^ 2 + p.z ^ 2) -
      2 * ((vs.map V3.x).sum * p.x + (vs.map V3.y).sum * p.y + (vs.map V3.z).sum * p.z)) + (vs.map fun v => v.x ^ 2 + v.y ^ 2 + v.z ^ 2).sum) := by
    refine List.map_congr_left fun p _ => ?_
    rw [sum_distSq p vs]; ring
  rw [h, List.sum_map_add, sum_const, sum_affine (fun p => p.x ^ 2 + p.y ^ 2 + p.z ^ 2) V3.x V3.y V3.z]
  ring

/-- **C82.** `plc_center_of_mass` returns the mean of the vertices; no other point has a smaller sum of squared distances from the
vertices. `plc_gyradius` returns the mean of the squared distances from there, which is half the mean of the squared distances over all
pairs of vertices. -/
theorem C82_gyradius (L : Curve) (hne : verticesOf L ≠ []) :
    centerOfMass L = ⟨((verticesOf L).map V3.x).sum / (verticesOf L).length, ((verticesOf L).map V3.y).sum / (verticesOf L).length,
      ((verticesOf L).map V3.z).sum / (verticesOf L).length⟩ ∧
    (∀ m, ((verticesOf L).map (distSq (centerOfMass L))).sum ≤ ((verticesOf L).map (distSq m)).sum) ∧
    ∃ g, gyradius L = .ok g ∧ g = ((verticesOf L).map (distSq (centerOfMass L))).sum / (verticesOf L).length ∧
      g = 1 / 2 * (((verticesOf L).map fun p => ((verticesOf L).map (distSq p)).sum).sum / (verticesOf L).length ^ 2) := by
  have hl : (0 : ℝ) < (verticesOf L).length := by exact_mod_cast List.length_pos_of_ne_nil hne
  refine ⟨com_eq L, ?_, _, ?_, rfl, ?_⟩
  · intro m
    rw [sum_distSq, sum_distSq, com_eq]
    obtain ⟨n, hn⟩ : ∃ n : ℝ, n = (verticesOf L).length := ⟨_, rfl⟩
    obtain ⟨X, hX⟩ : ∃ n : ℝ, n = ((verticesOf L).map V3.x).sum := ⟨_, rfl⟩
    obtain ⟨Y, hY⟩ : ∃ n : ℝ, n = ((verticesOf L).map V3.y).sum := ⟨_, rfl⟩
    obtain ⟨Z, hZ⟩ : ∃ n : ℝ, n = ((verticesOf L).map V3.z).sum := ⟨_, rfl⟩
    rw [← hn] at hl ⊢
    rw [← hX, ← hY, ← hZ]
    have h1 : n * ((X / n) ^ 2 + (Y / n) ^ 2 + (Z / n) ^ 2) - 2 * (X / n * X + Y / n * Y + Z / n * Z) = - (X ^ 2 + Y ^ 2 + Z ^ 2) / n := by
      field_simp; ring
    have h2 : n * (m.x ^ 2 + m.y ^ 2 + m.z ^ 2) - 2 * (m.x * X + m.y * Y + m.z * Z) - (- (X ^ 2 + Y ^ 2 + Z ^ 2) / n) =
        n * ((m.x - X / n) ^ 2 + (m.y - Y / n) ^ 2 + (m.z - Z / n) ^ 2) := by
      field_simp; ring
    have h3 : 0 ≤ n * ((m.x - X / n) ^ 2 + (m.y - Y / n) ^ 2 + (m.z - Z / n) ^ 2) := by positivity
    simp only
    linarith
  · unfold gyradius
    rw [gyr_fold]
    show divC (0 + ((verticesOf L).map (distSq (centerOfMass L))).sum) (verticesOf L).length = _
    rw [divC, if_neg (ne_of_gt hl), zero_add]
  · rw [sum_pairs, sum_distSq, com_eq]
    field_simp
    ring

/-! ### Chords -/

theorem chordSum_ok (A B : List V3) : ∀ (k i j : Nat) (s : ℝ) (f : Nat → ℝ), (∀ t < k, ∃ a b, A[i + t]? = some a ∧ B[j + t]? = some b ∧ f t = distSq a b) →
    chordSum A B k i j s = .ok (s + ((List.range k).map f).sum)
  | 0, i, j, s, f, _ => by simp [chordSum]
  | k + 1, i, j, s, f, h => by
    obtain ⟨a, b, ha, hb, hf⟩ := h 0 (by omega)
    rw [Nat.add_zero] at ha hb
    rw [chordSum, rd_eq_ok.mpr ha, ok_bind, rd_eq_ok.mpr hb, ok_bind, chordSum_ok A B k (i + 1) (j + 1) _ (fun t => f (t + 1)) (fun t ht => by
      obtain ⟨a, b, ha, hb, hf⟩ := h (t + 1) (by omega)
      exact ⟨a, b, by rw [← ha]; congr 1; omega, by rw [← hb]; congr 1; omega, hf⟩), List.range_succ_eq_map, List.map_cons, List.sum_cons,
      List.map_map, ← add_assoc, hf]
    congr 3
    simp only [gyradius.distSq, distSq]; ring

theorem chordSum_ub (A B : List V3) : ∀ (k i j : Nat) (s : ℝ), i + k ≤ A.length → B.length < j + k → k ≠ 0 → chordSum A B k i j s = .error .ub
  | 0, i, j, s, _, _, h => absurd rfl h
  | k + 1, i, j, s, h1, h2, _ => by
    rw [chordSum, rd_eq_ok.mpr (List.getElem?_eq_getElem (show i < A.length by omega)), ok_bind]
    rcases Nat.lt_or_ge j B.length with h | h
    · rw [rd_eq_ok.mpr (List.getElem?_eq_getElem h), ok_bind]
      exact chordSum_ub A B k (i + 1) (j + 1) _ (by omega) (by omega) (by omega)
    · have : rd B j = .error .ub := by
        unfold rd; rw [List.getElem?_eq_none h]
      rw [this]; rfl

/-- **C82.** `plc_mean_squared_chordlengths` on a closed component, for skips up to the number of vertices: the mean of the squared
distances of vertices so many steps apart, around the component. For larger skips memory behind the buffer is read. -/
theorem C82_chords_closed (c : Comp) (skip : Nat) (ho : c.isOpen = false) (h0 : c.vt ≠ []) :
    (skip ≤ c.vt.length → ∃ f : Nat → ℝ, meanChord c skip = .ok (((List.range c.vt.length).map f).sum / c.vt.length) ∧
      ∀ i < c.vt.length, ∃ a b, c.vt[i]? = some a ∧ c.vt[(i + skip) % c.vt.length]? = some b ∧ f i = distSq a b) ∧
    (c.vt.length < skip → meanChord c skip = .error .ub) := by
  have hp : 0 < c.vt.length := List.length_pos_of_ne_nil h0
  have hl : (c.vt.length : ℝ) ≠ 0 := by exact_mod_cast (by omega : c.vt.length ≠ 0)
  constructor
  · intro hs
    have hf : ∀ i < c.vt.length, ∃ a b, c.vt[i]? = some a ∧ (c.vt ++ c.vt)[skip + i]? = some b ∧ c.vt[(i + skip) % c.vt.length]? = some b := by
      intro i hi
      have hm : (i + skip) % c.vt.length < c.vt.length := Nat.mod_lt _ hp
      refine ⟨c.vt[i], c.vt[(i + skip) % c.vt.length], List.getElem?_eq_getElem hi, ?_, List.getElem?_eq_getElem hm⟩
      rcases Nat.lt_or_ge (i + skip) c.vt.length with h | h
      · rw [List.getElem?_append_left (by omega), ← List.getElem?_eq_getElem hm, Nat.mod_eq_of_lt h, Nat.add_comm]
      · rw [List.getElem?_append_right (by omega), ← List.getElem?_eq_getElem hm, Nat.mod_eq_sub_mod h, Nat.mod_eq_of_lt (by omega)]
        congr 1; omega
    let f : Nat → ℝ := fun i => if h : i < c.vt.length then distSq c.vt[i] (c.vt[(i + skip) % c.vt.length]'(Nat.mod_lt _ hp)) else 0
    have hff : ∀ i < c.vt.length, ∃ a b, c.vt[i]? = some a ∧ (c.vt ++ c.vt)[skip + i]? = some b ∧ c.vt[(i + skip) % c.vt.length]? = some b ∧ f i = distSq a b := by
      intro i hi
      obtain ⟨a, b, ha, hb, hb'⟩ := hf i hi
      refine ⟨a, b, ha, hb, hb', ?_⟩
      have e1 := (List.getElem?_eq_some_iff.mp ha).2
      have e2 := (List.getElem?_eq_some_iff.mp hb').2
      show (if h : i < c.vt.length then _ else _) = _
      rw [dif_pos hi, e1, e2]
    refine ⟨f, ?_, ?_⟩
    · unfold meanChord
      rw [ho]
      simp only [Bool.false_eq_true, if_false]
      rw [chordSum_ok c.vt (c.vt ++ c.vt) c.vt.length 0 skip 0 f (fun t ht => by
        obtain ⟨a, b, h1, h2, -, h3⟩ := hff t ht
        exact ⟨a, b, by rw [Nat.zero_add]; exact h1, h2, h3⟩), ok_bind, divC, if_neg hl, zero_add]
    · intro i hi
      obtain ⟨a, b, h1, -, h2, h3⟩ := hff i hi
      exact ⟨a, b, h1, h2, h3⟩
  · intro hs
    unfold meanChord
    rw [ho]
    simp only [Bool.false_eq_true, if_false]
    rw [chordSum_ub c.vt (c.vt ++ c.vt) _ _ _ _ (by omega) (by rw [List.length_append]; omega) (by omega)]
    rfl

/-- **C82.** On an open component: the mean over the pairs of vertices so many steps apart. For a skip not less than the number of
vertices there is no such pair, and 0 is divided by 0. -/
theorem C82_chords_open (c : Comp) (skip : Nat) (ho : c.isOpen = true) :
    (skip < c.vt.length → ∃ f : Nat → ℝ, meanChord c skip = .ok (((List.range (c.vt.length - skip)).map f).sum / ((c.vt.length - skip : Nat) : ℝ)) ∧
      ∀ i < c.vt.length - skip, ∃ a b, c.vt[i]? = some a ∧ c.vt[i + skip]? = some b ∧ f i = distSq a b) ∧
    (c.vt.length ≤ skip → meanChord c skip = .error .ub) := by
  constructor
  · intro hs
    let f : Nat → ℝ := fun i => if h : i + skip < c.vt.length then distSq c.vt[i] c.vt[i + skip] else 0
    have hf : ∀ i < c.vt.length - skip, ∃ a b, c.vt[i]? = some a ∧ c.vt[i + skip]? = some b ∧ f i = distSq a b := by
      intro i hi
      refine ⟨c.vt[i], c.vt[i + skip], List.getElem?_eq_getElem (by omega), List.getElem?_eq_getElem (by omega), ?_⟩
      show (if h : i + skip < c.vt.length then _ else _) = _
      rw [dif_pos (by omega)]
    refine ⟨f, ?_, hf⟩
    unfold meanChord
    rw [ho]
    simp only [if_true]
    rw [chordSum_ok c.vt (c.vt ++ c.vt) _ 0 skip 0 f (fun t ht => by
        obtain ⟨a, b, h1, h2, h3⟩ := hf t ht
        exact ⟨a, b, by rw [Nat.zero_add]; exact h1, by rw [List.getElem?_append_left (by omega), Nat.add_comm]; exact h2, h3⟩), ok_bind, divC,
      if_neg (by exact_mod_cast (by omega : c.vt.length - skip ≠ 0)), zero_add]
  · intro hs
    unfold meanChord
    rw [ho]
    simp only [if_true]
    rw [show c.vt.length - skip = 0 by omega, chordSum, ok_bind, divC, if_pos (by norm_num)]

/-! ### Angles -/

theorem lagrange (a b : V3) : Real.sqrt ((a.x * b.y - a.y * b.x) ^ 2 + (a.x * b.z - a.z * b.x) ^ 2 + (a.y * b.z - a.z * b.y) ^ 2) ^ 2 + dotOf a b ^ 2 =
    (apart a ⟨0, 0, 0⟩ * apart b ⟨0, 0, 0⟩) ^ 2 := by
  rw [Real.sq_sqrt (by positivity)]
  unfold apart
  rw [mul_pow, Real.sq_sqrt (by unfold distSq; positivity), Real.sq_sqrt (by unfold distSq; positivity)]
  simp only [distSq, dotOf]
  ring

/-- `plc_angle` gives the angle of two vectors which are not zero, with `ok` if the product of the lengths is not very small. -/
theorem angle_ok (a b : V3) (h : 0 < apart a ⟨0, 0, 0⟩ * apart b ⟨0, 0, 0⟩) : IsAngle a b (angle a b).1 ∧
    (2e-12 ≤ apart a ⟨0, 0, 0⟩ * apart b ⟨0, 0, 0⟩ → (angle a b).2 = true) ∧ (apart a ⟨0, 0, 0⟩ * apart b ⟨0, 0, 0⟩ ≤ 1e-12 → (angle a b).2 = false) := by
  have hl := lagrange a b
  obtain ⟨S, hS⟩ : ∃ S, S = Real.sqrt ((a.x * b.y - a.y * b.x) ^ 2 + (a.x * b.z - a.z * b.x) ^ 2 + (a.y * b.z - a.z * b.y) ^ 2) := ⟨_, rfl⟩
  have hS0 : 0 ≤ S := by rw [hS]; exact Real.sqrt_nonneg _
  have hang : angle a b = (Complex.arg ⟨dotOf a b, S⟩, decide (|S| > 1e-12 ∨ |dotOf a b| > 1e-12)) := by rw [hS]; rfl
  rw [← hS] at hl
  obtain ⟨N, hN⟩ : ∃ N, N = apart a ⟨0, 0, 0⟩ * apart b ⟨0, 0, 0⟩ := ⟨_, rfl⟩
  rw [← hN] at hl h ⊢
  rw [hang]
  have hn : ‖(⟨dotOf a b, S⟩ : ℂ)‖ = N := by
    rw [Complex.norm_def, Complex.normSq_apply]
    simp only
    rw [show dotOf a b * dotOf a b + S * S = N ^ 2 by rw [← hl]; ring, Real.sqrt_sq h.le]
  have hz : (⟨dotOf a b, S⟩ : ℂ) ≠ 0 := by
    intro e; rw [e, norm_zero] at hn; linarith
  refine ⟨⟨Complex.arg_nonneg_iff.mpr hS0, Complex.arg_le_pi _, ?_⟩, fun h2 => ?_, fun h2 => ?_⟩
  · rw [Complex.cos_arg hz, hn, ← hN]
    field_simp
  · simp only [decide_eq_true_eq]
    by_contra hc
    rw [not_or, not_lt, not_lt] at hc
    have h3 : S ^ 2 ≤ (1e-12) ^ 2 := by rw [← sq_abs S]; exact pow_le_pow_left₀ (abs_nonneg _) hc.1 2
    have h4 : dotOf a b ^ 2 ≤ (1e-12) ^ 2 := by rw [← sq_abs (dotOf a b)]; exact pow_le_pow_left₀ (abs_nonneg _) hc.2 2
    have h5 : (2e-12 : ℝ) ^ 2 ≤ N ^ 2 := pow_le_pow_left₀ (by norm_num) h2 2
    norm_num at h3 h4 h5
    linarith
  · simp only [decide_eq_false_iff_not]
    rw [not_or, not_lt, not_lt]
    have h5 : N ^ 2 ≤ (1e-12 : ℝ) ^ 2 := pow_le_pow_left₀ h.le h2 2
    exact ⟨abs_le.mpr (abs_le_of_sq_le_sq' (by nlinarith [sq_nonneg S, sq_nonneg (dotOf a b)]) (by norm_num)),
      abs_le.mpr (abs_le_of_sq_le_sq' (by nlinarith [sq_nonneg S, sq_nonneg (dotOf a b)]) (by norm_num))⟩

theorem neighbours_reads {c : Comp} {v : Int} {p q r : V3} (h : Neighbours c v p q r) (hp : Proper c) :
    ¬ (c.isOpen = true ∧ (v ≤ 0 ∨ v ≥ (c.vt.length : Int) - 1)) ∧
    vtAt c (if c.isOpen then v else v % (c.vt.length : Int)) = .ok q ∧ vtAt c ((if c.isOpen then v else v % (c.vt.length : Int)) - 1) = .ok p ∧
      vtAt c ((if c.isOpen then v else v % (c.vt.length : Int)) + 1) = .ok r := by
  unfold Neighbours at h
  split at h <;> rename_i ho
  · obtain ⟨j, rfl, h1, h2, h3⟩ := h
    have hj := (List.getElem?_eq_some_iff.mp h3).1
    rw [ho]
    simp only [if_true]
    refine ⟨by omega, ?_, ?_, ?_⟩
    · rw [← reads_vt c (j + 1) q h2]; congr 1; push_cast; ring
    · rw [← reads_vt c j p h1]; congr 1; push_cast; ring
    · rw [← reads_vt c (j + 2) r h3]; congr 1; push_cast; ring
  · have hof : c.isOpen = false := by simpa using ho
    rw [hof]
    simp only [Bool.false_eq_true, if_false]
    have hn : 3 ≤ c.vt.length := hp (by simpa using ho)
    have hr : c.vt ≠ [] := by intro e; rw [e] at hn; simp at hn
    obtain ⟨h1, h2, h3⟩ := h
    obtain ⟨n, hne⟩ : ∃ n : Int, n = (c.vt.length : Int) := ⟨_, rfl⟩
    have hn0 : 0 < n := by omega
    rw [← hne] at h1 h2 h3 ⊢
    have hm0 := Int.emod_nonneg v (by omega : n ≠ 0)
    have hm1 := Int.emod_lt_of_pos v hn0
    refine ⟨by simp, ?_, ?_, ?_⟩
    · have := reads_vt c (v % n).toNat q h2
      rw [← this]; congr 1; omega
    · by_cases hz : v % n = 0
      · rw [hz, zero_sub]
        unfold vtAt
        rw [if_neg (by omega), if_pos rfl, if_neg ho]
        refine rd_eq_ok.mpr ?_
        rw [← h1]
        congr 1
        have : (v - 1) % n = n - 1 := by
          rw [show v - 1 = (v - n) + (n - 1) by ring, Int.add_emod, Int.sub_emod, hz, Int.emod_self]
          simp only [sub_zero, Int.zero_emod, zero_add]
          rw [Int.emod_emod_of_dvd _ (dvd_refl _), Int.emod_eq_of_lt (by omega) (by omega)]
        rw [this]; omega
      · have : (v - 1) % n = v % n - 1 := by
          rw [Int.sub_emod, Int.emod_eq_of_lt (show (0 : Int) ≤ 1 by norm_num) (by omega), Int.emod_eq_of_lt (by omega) (by omega)]
        rw [this] at h1
        rw [← reads_vt c _ p h1]; congr 1; omega
    · by_cases hz : v % n = n - 1
      · rw [hz, sub_add_cancel]
        unfold vtAt
        rw [if_neg (by omega), if_neg (by omega), if_pos hne, if_neg ho]
        refine rd_eq_ok.mpr ?_
        rw [← h3]
        congr 1
        have : (v + 1) % n = 0 := by
          rw [Int.add_emod, hz, Int.emod_eq_of_lt (show (0 : Int) ≤ 1 by norm_num) (by omega), sub_add_cancel, Int.emod_self]
        rw [this]; rfl
      · have : (v + 1) % n = v % n + 1 := by
          rw [Int.add_emod, Int.emod_eq_of_lt (show (0 : Int) ≤ 1 by norm_num) (by omega), Int.emod_eq_of_lt (by omega) (by omega)]
        rw [this] at h3
        rw [← reads_vt c _ r h3]; congr 1; omega

theorem apart_sub_zero (a b : V3) : apart (a.sub b) ⟨0, 0, 0⟩ = apart b a := by
  refine apart_congr ?_
  simp only [distSq, V3.sub]; ring

/-- **C82.** `plc_turning_angle` returns the angle of the edges before and after a vertex, with wraparound on closed components, unless
the product of their lengths is very small: then it returns 0, whatever the angle. -/
theorem C82_turning (c : Comp) (v : Int) (p q r : V3) (hc : Proper c) (h : Neighbours c v p q r) (h1 : p ≠ q) (h2 : q ≠ r) :
    ∃ t, IsAngle (q.sub p) (r.sub q) t ∧ (2e-12 ≤ apart p q * apart q r → turningAngle c v = .ok (t, some true)) ∧
      (apart p q * apart q r ≤ 1e-12 → turningAngle c v = .ok (0, some false)) := by
  obtain ⟨g0, g1, g2, g3⟩ := neighbours_reads h hc
  have hpos : 0 < apart p q * apart q r := mul_pos (lt_of_le_of_ne (apart_nonneg _ _) fun e => h1 (apart_zero e.symm))
    (lt_of_le_of_ne (apart_nonneg _ _) fun e => h2 (apart_zero e.symm))
  have := angle_ok (q.sub p) (r.sub q) (by rw [apart_sub_zero, apart_sub_zero]; exact hpos)
  rw [apart_sub_zero, apart_sub_zero] at this
  have he : turningAngle c v = .ok (if (angle (q.sub p) (r.sub q)).2 then (angle (q.sub p) (r.sub q)).1 else 0, some (angle (q.sub p) (r.sub q)).2) := by
    unfold turningAngle
    rw [if_neg g0]
    simp only
    rw [g1, ok_bind, g2, ok_bind, g3, ok_bind]
  refine ⟨_, this.1, fun hh => ?_, fun hh => ?_⟩
  · rw [he, this.2.1 hh]; rfl
  · rw [he, this.2.2 hh]; rfl

/-- **C82.** At the ends of an open component, and beyond, it returns 0 and does not set `ok`. -/
theorem C82_turning_end (c : Comp) (v : Int) (ho : c.isOpen = true) (h : v ≤ 0 ∨ (c.vt.length : Int) - 1 ≤ v) : turningAngle c v = .ok (0, none) := by
  unfold turningAngle
  rw [if_pos ⟨ho, h⟩]

/-- **C82.** `plc_MR_curvature` returns 2 tan(t/2) divided by the length of the shorter edge (within 2⁻⁵²), for the angle `t` at the
vertex; it ends the program if the edges nearly fold back, or if they are very short. -/
theorem C82_curvature (c : Comp) (v : Int) (p q r : V3) (t : ℝ) (hc : Proper c) (h : Neighbours c v p q r) (h1 : p ≠ q) (h2 : q ≠ r)
    (hv : c.isOpen = false → 0 ≤ v ∧ v < c.vt.length) (ht : IsAngle (q.sub p) (r.sub q) t) :
    (1 / 2 ^ 52 < apart p q * apart q r * (1 + Real.cos t) → ∃ m, mrCurvature c v = .ok (2 * Real.tan (t / 2) / m) ∧
      min (apart p q) (apart q r) ≤ m ∧ m ≤ min (apart p q) (apart q r) + 1 / 2 ^ 52) ∧
    (apart p q * apart q r * (1 + Real.cos t) ≤ 1 / 2 ^ 52 → mrCurvature c v = .error .die) := by
  obtain ⟨g0, g1, g2, g3⟩ := neighbours_reads h hc
  have hw : (if c.isOpen then v else v % (c.vt.length : Int)) = v := by
    cases ho : c.isOpen with
    | true => rfl
    | false =>
      obtain ⟨h3, h4⟩ := hv ho
      exact Int.emod_eq_of_lt h3 h4
  rw [hw] at g1 g2 g3
  have hcos := ht.cosine
  rw [apart_sub_zero, apart_sub_zero] at hcos
  have ha : 0 < apart p q := lt_of_le_of_ne (apart_nonneg _ _) fun e => h1 (apart_zero e.symm)
  have hb : 0 < apart q r := lt_of_le_of_ne (apart_nonneg _ _) fun e => h2 (apart_zero e.symm)
  have hN := mul_pos ha hb
  have hi : norm3 (q.sub p) = apart p q := by rw [norm3_eq, apart_sub_zero]
  have hoo : norm3 (r.sub q) = apart q r := by rw [norm3_eq, apart_sub_zero]
  have hx : norm3 ((q.sub p).crossProd (r.sub q)) = apart p q * apart q r * Real.sin t := by
    have hl := lagrange (q.sub p) (r.sub q)
    rw [hcos, apart_sub_zero, apart_sub_zero] at hl
    have e : norm3 ((q.sub p).crossProd (r.sub q)) = Real.sqrt (((q.sub p).x * (r.sub q).y - (q.sub p).y * (r.sub q).x) ^ 2 +
        ((q.sub p).x * (r.sub q).z - (q.sub p).z * (r.sub q).x) ^ 2 + ((q.sub p).y * (r.sub q).z - (q.sub p).z * (r.sub q).y) ^ 2) := by
      unfold norm3
      congr 1
      simp only [V3.crossProd]; ring
    rw [← e] at hl
    have hs := Real.sin_nonneg_of_nonneg_of_le_pi ht.nonneg ht.le_pi
    have hcs := Real.sin_sq_add_cos_sq t
    have e2 : norm3 ((q.sub p).crossProd (r.sub q)) ^ 2 = (apart p q * apart q r * Real.sin t) ^ 2 := by
      have : (apart p q * apart q r * Real.sin t) ^ 2 = (apart p q * apart q r) ^ 2 - (apart p q * apart q r * Real.cos t) ^ 2 := by
        linear_combination (apart p q * apart q r) ^ 2 * hcs
      rw [this]; linarith
    exact (pow_left_inj₀ (Real.sqrt_nonneg _) (mul_nonneg hN.le hs) (by norm_num)).mp e2
  have hdot : (q.sub p).dot (r.sub q) = apart p q * apart q r * Real.cos t := hcos
  have hdie : ¬ (c.isOpen = true ∧ (v = 0 ∨ v = (c.vt.length : Int) - 1)) := by
    rintro ⟨e, h⟩; exact g0 ⟨e, by omega⟩
  have hsum : apart p q * apart q r + apart p q * apart q r * Real.cos t = apart p q * apart q r * (1 + Real.cos t) := by ring
  unfold mrCurvature
  rw [if_neg hdie, g1, ok_bind, g2, ok_bind, g3, ok_bind]
  simp only
  rw [hi, hoo, hx, hdot, hsum]
  refine ⟨fun hbig => ?_, fun hsmall => ?_⟩
  · have hpos : 0 < apart p q * apart q r * (1 + Real.cos t) := lt_trans (by norm_num) hbig
    have h1c : 0 < 1 + Real.cos t := (pos_iff_pos_of_mul_pos hpos).mp hN
    rw [assertC_ok (decide_eq_true (by rw [eps]; exact hbig)), ok_bind, divC, if_neg (ne_of_gt hpos), ok_bind]
    have hhalf : 0 < Real.cos (t / 2) ^ 2 := by
      have := Real.cos_sq (t / 2)
      rw [this, show 2 * (t / 2) = t by ring]; linarith
    have hch : Real.cos (t / 2) ≠ 0 := by intro e; rw [e] at hhalf; norm_num at hhalf
    have htan : 2 * (apart p q * apart q r * Real.sin t) / (apart p q * apart q r * (1 + Real.cos t)) = 2 * Real.tan (t / 2) := by
      have e1 : Real.sin t = 2 * Real.sin (t / 2) * Real.cos (t / 2) := by rw [← Real.sin_two_mul]; congr 1; ring
      have e2 : 1 + Real.cos t = 2 * Real.cos (t / 2) ^ 2 := by
        have := Real.cos_two_mul (t / 2)
        rw [show 2 * (t / 2) = t by ring] at this
        rw [this]; ring
      rw [e1, e2, Real.tan_eq_sin_div_cos]
      field_simp
    rw [htan]
    refine ⟨if apart p q - apart q r < eps then apart p q else apart q r, ?_, ?_, ?_⟩
    · rw [divC, if_neg (by split <;> exact ne_of_gt ‹_›)]
    · split
      · exact min_le_left _ _
      · exact min_le_right _ _
    · have : eps = 1 / 2 ^ 52 := rfl
      rw [← this]
      have := eps_pos
      rcases min_choice (apart p q) (apart q r) with hm | hm <;> rw [hm] <;> split <;> linarith [min_le_left (apart p q) (apart q r), min_le_right (apart p q) (apart q r)]
  · have : assertC (decide (apart p q * apart q r * (1 + Real.cos t) > eps)) = .error .die := by
      rw [decide_eq_false (by rw [eps]; exact not_lt.mpr hsmall)]; rfl
    rw [this]; rfl

/-- A concrete curve: an open segment of length 2 and a square. -/
def sample : Curve := ⟨[⟨true, [⟨0, 0, 0⟩, ⟨2, 0, 0⟩]⟩, ⟨false, [⟨0, 0, 0⟩, ⟨1, 0, 0⟩, ⟨1, 1, 0⟩, ⟨0, 1, 0⟩]⟩], []⟩

theorem apart_of (a b : V3) (d : ℝ) (hd : 0 ≤ d) (h : distSq a b = d ^ 2) : apart a b = d := by
  unfold apart; rw [h, Real.sqrt_sq hd]

/-- Its length is 6, and `plc_s` says that vertex 1 of the square is at 5 instead of 3. -/
theorem sample_ok : arclength sample = .ok (6, [2, 4]) ∧ arcPos sample 1 1 = .ok 5 := by
  have e1 : apart (⟨0, 0, 0⟩ : V3) ⟨2, 0, 0⟩ = 2 := apart_of _ _ _ (by norm_num) (by norm_num [distSq])
  have e2 : apart (⟨0, 0, 0⟩ : V3) ⟨1, 0, 0⟩ = 1 := apart_of _ _ _ (by norm_num) (by norm_num [distSq])
  have e3 : apart (⟨1, 0, 0⟩ : V3) ⟨1, 1, 0⟩ = 1 := apart_of _ _ _ (by norm_num) (by norm_num [distSq])
  have e4 : apart (⟨1, 1, 0⟩ : V3) ⟨0, 1, 0⟩ = 1 := apart_of _ _ _ (by norm_num) (by norm_num [distSq])
  have e5 : apart (⟨0, 1, 0⟩ : V3) ⟨0, 0, 0⟩ = 1 := apart_of _ _ _ (by norm_num) (by norm_num [distSq])
  have l1 : lengthOf ⟨true, [⟨0, 0, 0⟩, ⟨2, 0, 0⟩]⟩ = 2 := by
    simp only [lengthOf, if_true, openLength_cons, e1]; simp [openLength]
  have l2 : lengthOf ⟨false, [⟨0, 0, 0⟩, ⟨1, 0, 0⟩, ⟨1, 1, 0⟩, ⟨0, 1, 0⟩]⟩ = 4 := by
    simp only [lengthOf, Bool.false_eq_true, if_false, closedLength, List.cons_append, List.nil_append, openLength_cons, e2, e3, e4, e5]; norm_num [openLength]
  constructor
  · rw [C82_arclength sample (by intro c hc; simp only [sample, List.mem_cons, List.not_mem_nil, or_false] at hc; rcases hc with rfl | rfl <;> simp)]
    simp only [sample, List.map_cons, List.map_nil, l1, l2, List.sum_cons, List.sum_nil]
    norm_num
  · rw [C82_position_open sample _ _ [] 1 [] ⟨0, 0, 0⟩ ⟨2, 0, 0⟩ rfl rfl rfl (by simp), l1, e1]
    simp only [List.take_succ_cons, List.take_zero, openLength_cons, e2]
    norm_num [openLength]

end Plc.Measure
