import Verif.Proofs.Permute

/-! # Permutation of the edges -/

namespace Plc.Embed

open Plc.Core Plc.FindCrossings Plc.RandomPolygon Plc.Equilateral Plc.Motions Plc.Measure Plc.Tri

/-- What the step does, up to the last check. -/
theorem permute_eq {T : Triangulation} {el dl da : List ℝ} (hT : Proper T) (hL : Sized T el dl) (hda : da.length = T.diags.length)
    (htri : ∀ t ∈ T.triangles, Closes el dl t) (sh : List V3 → List V3) {es' : List V3 → List V3} (hes : ∀ es, (es' es).Perm es)
    (hsh : ∀ es, shuffled sh el es = .ok (es' es)) :
    ∃ (vt nv : List V3) (dl' : List ℝ) (rs : List (ℝ × Bool)), embed T el dl da = .ok (some vt) ∧ vt.length = T.edges.length ∧ nv.length = T.edges.length ∧
      (edgeVectors vt).map len = el ∧ edgeVectors nv = es' (edgeVectors vt) ∧ computeLengths nv T.diags = .ok dl' ∧ computeDihedrals T nv = .ok rs ∧
      dl'.length = T.diags.length ∧ rs.length = T.diags.length ∧ (∀ t ∈ T.triangles, Closes ((edgeVectors nv).map len) dl' t) ∧
      permuteStep T sh el dl da = (if (List.zipWith (fun x y => decide (|x - y| > 1e-8)) ((edgeVectors nv).map len) el).any id then .error .die
        else .ok ((edgeVectors nv).map len, dl', rs.map (·.1))) := by
  obtain ⟨vt, v1, v2, _, _⟩ := C94_embed hT hL hda htri
  have hel : (edgeVectors vt).map len = el := by
    have h1 := (C94_lengths_back hT hL hda v1).1
    rw [lengths_edges hT v2] at h1
    exact Except.ok.inj h1
  obtain ⟨nv, hnv⟩ : ∃ nv, nv = sumLoop ⟨0, 0, 0⟩ (es' (edgeVectors vt)) := ⟨_, rfl⟩
  have hev : edgeVectors nv = es' (edgeVectors vt) := by
    rw [hnv]
    exact edges_sumLoop (by rw [vsum_perm (hes _), vsum_edges])
  have hn : nv.length = T.edges.length := by
    rw [hnv, sumLoop_length, (hes _).length_eq]
    simp [edgeVectors, v2]
  obtain ⟨el', dl', a1, a2, a3, a4, a5, a6, a7⟩ := C96_lengths_close hT hn
  rw [lengths_edges hT hn] at a1
  obtain rfl := Except.ok.inj a1
  obtain ⟨rs, r1, r2⟩ := dihedrals_total hT hn
  refine ⟨vt, nv, dl', rs, v1, v2, hn, hel, hev, a2, r1, a4, r2, a7, ?_⟩
  have hle := lengths_edges hT hn
  rw [hnv] at a2 r1 hle ⊢
  unfold permuteStep
  rw [v1, ok_bind]
  dsimp only
  rw [edgeSet_ok v2, ok_bind, hsh, ok_bind, a2, ok_bind, r1, ok_bind, hle, ok_bind]

theorem same_any {l : List ℝ} : (List.zipWith (fun x y => decide (|x - y| > 1e-8)) l l).any id = false := by
  induction l with
  | nil => rfl
  | cons a l ih =>
    simp only [List.zipWith_cons_cons, List.any_cons, ih, Bool.or_false, id]
    rw [decide_eq_false_iff_not, sub_self, abs_zero]
    norm_num

theorem not_far {x : ℝ} (h : x = 1) : (!decide (|x - 1| > 1e-8)) = true := by
  rw [h, sub_self, abs_zero, Bool.not_eq_true', decide_eq_false_iff_not]
  norm_num

/-- **C97** A permutation step on an equilateral polygon, or on one whose first edge only has another length: the polygon is embedded, its edge
vectors are permuted, the first one staying in its place if its length is not 1, and the polygon made from them closes up. The lengths of
the edges are as before; the lengths of the diagonals and the angles are those of this polygon, and the lengths obey the triangle inequalities. -/
theorem C97_permute {T : Triangulation} {x : ℝ} {dl da : List ℝ} (hT : Proper T) (hL : Sized T (x :: List.replicate (T.edges.length - 1) 1) dl)
    (hda : da.length = T.diags.length) (htri : ∀ t ∈ T.triangles, Closes (x :: List.replicate (T.edges.length - 1) 1) dl t) {sh : List V3 → List V3}
    (hsh : Shuffles sh) (hx : x = 1 ∨ 1e-8 < |x - 1|) :
    ∃ (vt nv : List V3) (dl' : List ℝ) (rs : List (ℝ × Bool)), embed T (x :: List.replicate (T.edges.length - 1) 1) dl da = .ok (some vt) ∧ nv.length = T.edges.length ∧
      (edgeVectors nv).Perm (edgeVectors vt) ∧ (x ≠ 1 → (edgeVectors nv).head? = (edgeVectors vt).head?) ∧
      computeLengths nv T.diags = .ok dl' ∧ computeDihedrals T nv = .ok rs ∧ dl'.length = T.diags.length ∧
      (∀ t ∈ T.triangles, Closes (x :: List.replicate (T.edges.length - 1) 1) dl' t) ∧
      permuteStep T sh (x :: List.replicate (T.edges.length - 1) 1) dl da = .ok (x :: List.replicate (T.edges.length - 1) 1, dl', rs.map (·.1)) := by
  obtain ⟨el, hel⟩ : ∃ el, el = x :: List.replicate (T.edges.length - 1) (1 : ℝ) := ⟨_, rfl⟩
  have hones : ((List.replicate (T.edges.length - 1) (1 : ℝ)).all (fun x => !decide (|x - 1| > 1e-8))) = true := by
    rw [List.all_eq_true]
    intro y hy
    exact not_far (List.mem_replicate.mp hy).2
  rw [← hel] at hL htri ⊢
  by_cases c : x = 1
  · obtain ⟨vt, nv, dl', rs, g1, g2, g3, g4, g5, g6, g7, g8, g9, g10, g11⟩ := permute_eq hT hL hda htri sh (es' := sh) hsh (by
      intro es
      unfold shuffled equilateralPattern
      rw [if_pos]
      rw [hel, List.all_cons, hones, not_far c]; rfl)
    have hall : el = List.replicate T.edges.length 1 := by
      rw [← hL.edges]
      refine List.eq_replicate_iff.mpr ⟨rfl, ?_⟩
      intro y hy
      rw [hel] at hy
      rcases List.mem_cons.mp hy with rfl | hy
      · exact c
      · exact (List.mem_replicate.mp hy).2
    have hlen : (edgeVectors nv).map len = el := by
      have hp : ((edgeVectors nv).map len).Perm el := by
        rw [g5, ← g4]
        exact (hsh _).map len
      rw [hall] at hp ⊢
      exact List.perm_replicate.mp hp
    refine ⟨vt, nv, dl', rs, g1, g3, by rw [g5]; exact hsh _, fun h => absurd c h, g6, g7, g8, by rw [hlen] at g10; exact g10, ?_⟩
    rw [g11, hlen, same_any]
    rfl
  · have hx' := hx.resolve_left c
    obtain ⟨vt, nv, dl', rs, g1, g2, g3, g4, g5, g6, g7, g8, g9, g10, g11⟩ := permute_eq hT hL hda htri sh (es' := fun es => es.take 1 ++ sh (es.drop 1)) (by
      intro es
      have := (hsh (es.drop 1)).append_left (es.take 1)
      rwa [List.take_append_drop] at this) (by
      intro es
      unfold shuffled equilateralPattern ftcPattern
      rw [if_neg, if_pos]
      · rw [hel, List.drop_one, List.tail_cons, hones]
      · rw [hel, List.all_cons]
        simp only [Bool.and_eq_true, Bool.not_eq_true', decide_eq_false_iff_not, not_and]
        intro h
        exact absurd hx' h)
    have hlen : (edgeVectors nv).map len = el := by
      rw [g5]
      rw [hel] at g4 ⊢
      cases he : edgeVectors vt with
      | nil => rw [he] at g4; simp at g4
      | cons e es =>
        rw [he, List.map_cons, List.cons.injEq] at g4
        simp only [List.take_succ_cons, List.take_zero, List.drop_succ_cons, List.drop_zero, List.cons_append, List.nil_append, List.map_cons]
        rw [g4.1]
        congr 1
        have hp := (hsh es).map len
        rw [g4.2] at hp
        exact List.perm_replicate.mp hp
    refine ⟨vt, nv, dl', rs, g1, g3, ?_, ?_, g6, g7, g8, by rw [hlen] at g10; exact g10, ?_⟩
    · rw [g5]
      have := (hsh ((edgeVectors vt).drop 1)).append_left ((edgeVectors vt).take 1)
      rwa [List.take_append_drop] at this
    · intro _
      rw [g5]
      cases he : edgeVectors vt with
      | nil => rw [he, hel] at g4; simp at g4
      | cons e es => simp
    · rw [g11, hlen, same_any]
      rfl

/-- **C97** If an edge other than the first one does not have length 1 (up to 10⁻⁸), the program ends. -/
theorem C97_other {T : Triangulation} {el dl da : List ℝ} (hT : Proper T) (hL : Sized T el dl) (hda : da.length = T.diags.length)
    (htri : ∀ t ∈ T.triangles, Closes el dl t) (sh : List V3 → List V3) {i : Nat} {y : ℝ} (hi : 0 < i) (hy : el[i]? = some y) (hy1 : 1e-8 < |y - 1|) :
    permuteStep T sh el dl da = .error .die := by
  obtain ⟨vt, v1, v2, _, _⟩ := C94_embed hT hL hda htri
  have hm : y ∈ el.drop 1 := by
    obtain ⟨j, rfl⟩ : ∃ j, i = 1 + j := ⟨i - 1, by omega⟩
    exact List.mem_of_getElem? (by rw [List.getElem?_drop]; exact hy)
  have h2 : ftcPattern el ≠ true := by
    intro h
    have := List.all_eq_true.mp h y hm
    simp only [Bool.not_eq_true', decide_eq_false_iff_not] at this
    exact this hy1
  have h1 : equilateralPattern el ≠ true := by
    intro h
    have := List.all_eq_true.mp h y (List.mem_of_mem_drop hm)
    simp only [Bool.not_eq_true', decide_eq_false_iff_not] at this
    exact this hy1
  unfold permuteStep
  rw [v1, ok_bind]
  dsimp only
  rw [edgeSet_ok v2, ok_bind]
  unfold shuffled
  rw [if_neg h1, if_neg h2]
  rfl

/-- **C97** There is no check for NULL: lengths which violate a triangle inequality make the step read from the null pointer. -/
theorem C97_null {T : Triangulation} {el dl da : List ℝ} (hT : Proper T) (hL : Sized T el dl) (hda : da.length = T.diags.length)
    (htri : ∃ t ∈ T.triangles, ¬ Closes el dl t) (sh : List V3 → List V3) : permuteStep T sh el dl da = .error .ub := by
  unfold permuteStep
  rw [(C94_no_polygon hT hL hda).mpr htri]
  rfl

/-- **C97** The tolerances do not fit: edges within 10⁻⁸ of length 1 are taken for equilateral, but permuting them may change a length by more,
and the program ends. -/
theorem C97_tolerance : (∀ y ∈ [1 + 9e-9, 1, 1, 1 - 9e-9], |y - (1 : ℝ)| ≤ 1e-8) ∧ permuteStep square List.reverse [1 + 9e-9, 1, 1, 1 - 9e-9] [1] [0] = .error .die := by
  have hall : ∀ y ∈ [1 + 9e-9, 1, 1, 1 - 9e-9], |y - (1 : ℝ)| ≤ 1e-8 := by
    intro y hy
    simp only [List.mem_cons, List.not_mem_nil, or_false] at hy
    rcases hy with rfl | rfl | rfl | rfl <;> rw [abs_le] <;> constructor <;> norm_num
  refine ⟨hall, ?_⟩
  have hS : Sized square [1 + 9e-9, 1, 1, 1 - 9e-9] [1] := by
    refine ⟨rfl, rfl, ?_⟩
    rintro y (hy | hy)
    · have := abs_le.mp (hall y hy)
      linarith [this.1]
    · simp at hy; rw [hy]; norm_num
  have htri : ∀ t ∈ square.triangles, Closes [1 + 9e-9, 1, 1, 1 - 9e-9] [1] t := by
    intro t ht
    simp only [square, List.mem_cons, List.not_mem_nil, or_false] at ht
    rcases ht with rfl | rfl <;> (unfold Closes lengthOf; simp only [List.getElem?_cons_zero, List.getElem?_cons_succ, Option.getD_some, if_true, Bool.false_eq_true, if_false]) <;>
      (refine ⟨?_, ?_, ?_⟩ <;> norm_num)
  obtain ⟨vt, nv, dl', rs, g1, g2, g3, g4, g5, g6, g7, g8, g9, g10, g11⟩ := permute_eq (da := [0]) square_proper hS rfl htri List.reverse (es' := List.reverse)
    (fun es => List.reverse_perm es) (by
      intro es
      unfold shuffled equilateralPattern
      rw [if_pos]
      rw [List.all_eq_true]
      intro y hy
      have := hall y hy
      simp only [Bool.not_eq_true', decide_eq_false_iff_not, not_lt, gt_iff_lt]
      exact this)
  have : (edgeVectors nv).map len = [1 - 9e-9, 1, 1, 1 + 9e-9] := by
    rw [g5, List.map_reverse, g4]
    rfl
  rw [g11, this, if_pos]
  rw [List.zipWith_cons_cons, List.any_cons]
  have : decide (|(1 : ℝ) - 9e-9 - (1 + 9e-9)| > 1e-8) = true := by
    rw [decide_eq_true_iff, gt_iff_lt, lt_abs]
    right; norm_num
  rw [this]
  rfl

/-- The square folded along its diagonal, with its edges in reversed order. -/
example (theta : ℝ) : ∃ dl' da', permuteStep square List.reverse [1, 1, 1, 1] [1] [theta] = .ok ([1, 1, 1, 1], dl', da') := by
  obtain ⟨vt, nv, dl', rs, _, _, _, _, _, _, _, _, h⟩ := C97_permute (T := square) (x := 1) (dl := [1]) (da := [theta]) (sh := List.reverse) square_proper
    (square_sized 1 (by norm_num)) rfl (square_closes (by norm_num) (by norm_num)) (fun l => List.reverse_perm l) (.inl rfl)
  exact ⟨_, _, h⟩

end Plc.Embed
