import Verif.Proofs.Quick

/-! # C88: the two sorts of octrope -/

namespace Plc.Quick

variable {α : Type} {lt : α → α → Bool}

/-- **C88a.** Sorting a part of the array: the result is a rearrangement, only that part is changed, its elements stay in it, and they are in
order. Reading in front of the array must be possible for `sort_oct`. -/
theorem C88_part (hw : Weak lt) {front : Front α} (hf : front.fine) {l h : Nat} {A : List α} (h1 : h < A.length) (h2 : l ≤ h) :
    ∃ A', sort lt front A.length l h A = .ok A' ∧ A'.Perm A ∧ (∀ i : Nat, i < l ∨ h < i → A'[i]? = A[i]?) ∧
      (∀ i : Nat, l ≤ i → i ≤ h → ∃ j : Nat, l ≤ j ∧ j ≤ h ∧ A'[i]? = A[j]?) ∧ SortedIn lt l h A' := by
  obtain ⟨A', e, g, s⟩ := sort_ok hw hf A.length l h A h1 h2 (by omega)
  exact ⟨A', e, g.perm, g.out, g.into, s⟩

/-- **C88b.** Sorting the whole array. -/
theorem C88_sorts (hw : Weak lt) {front : Front α} (hf : front.fine) {A : List α} (hA : A ≠ []) :
    ∃ A', sort lt front A.length 0 (A.length - 1) A = .ok A' ∧ A'.Perm A ∧ A'.Pairwise (fun a b => lt b a = false) := by
  have hl : 0 < A.length := List.length_pos_iff.mpr hA
  obtain ⟨A', e, g, s⟩ := sort_ok hw hf A.length 0 (A.length - 1) A (by omega) (by omega) (by omega)
  refine ⟨A', e, g.perm, ?_⟩
  rw [List.pairwise_iff_getElem]
  intro i j hi hj hij
  have := g.length
  exact s i j _ _ (by omega) hij (by omega) (List.getElem?_eq_getElem hi) (List.getElem?_eq_getElem hj)

/-- **C88c.** What is read in front of the array makes no difference. -/
theorem C88_front_unused (x y : α) : ∀ (f l h : Nat) (A : List α), sort lt (.peek (some x)) f l h A = sort lt (.peek (some y)) f l h A
  | 0, _, _, _ => rfl
  | f + 1, l, h, A => by
    unfold sort
    have hl : ∀ (p : α) (l s : Nat) (A : List α), lowEnd lt (.peek (some x)) p l s A = lowEnd lt (.peek (some y)) p l s A := fun _ _ _ _ => rfl
    simp only [hl, C88_front_unused x y f]

theorem scanDown_same {p : α} {A : List α} (h : ∀ a ∈ A, lt a p = false) : ∀ (t : Nat), t < A.length → scanDown lt p 0 A t = .ok 0
  | 0, ht => by unfold scanDown; rw [rd_lt ht, ok_bind]
  | t + 1, ht => by
    unfold scanDown
    rw [rd_lt ht, ok_bind, if_pos ⟨h _ (List.getElem_mem ht), by omega⟩]
    exact scanDown_same h t (by omega)

/-- **C88d.** `sort_oct` of more than eleven edges with the same tag reads in front of the array. (For `sort_varr` this is never so, by C88b.) -/
theorem C88_reads_in_front {A : List α} (hn : 12 ≤ A.length) (h : ∀ a ∈ A, ∀ b ∈ A, lt a b = false) :
    sort lt (.peek none) A.length 0 (A.length - 1) A = .error .ub := by
  obtain ⟨n, hA⟩ : ∃ n, A.length = n + 1 := ⟨A.length - 1, by omega⟩
  have hm : ∀ i (hi : i < A.length), A[i] ∈ A := fun i hi => List.getElem_mem hi
  rw [hA]
  unfold sort
  rw [show n + 1 - 1 = n by omega, if_neg (by omega)]
  have hmed : median lt 0 ((n + 0) / 2) n A = .ok A := by
    unfold median
    rw [rd_lt (by omega), ok_bind, rd_lt (by omega), ok_bind, rd_lt (by omega), ok_bind, if_neg, if_neg, if_neg]
    · rw [h _ (hm _ _) _ (hm _ _)]; simp
    · rw [h _ (hm _ _) _ (hm _ _)]; simp
    · rw [h _ (hm _ _) _ (hm _ _)]; simp
  rw [hmed, ok_bind, rd_lt (by omega), ok_bind]
  have hpar : ∀ p ∈ A, parLoop lt p 0 n A.length 0 n A = .ok (0, A) := by
    intro p hp
    rw [hA]
    unfold parLoop
    rw [hA]
    unfold scanUp
    rw [rd_lt (by omega), ok_bind, if_neg, ok_bind, scanDown_same (fun a ha => h a ha p hp) _ (by omega), ok_bind, if_pos (Nat.le_refl _)]
    rw [h _ (hm _ _) _ hp]; simp
  rw [hpar _ (hm _ _), ok_bind]
  simp only
  have xs : A[0]? = some (A[0]'(by omega)) := List.getElem?_eq_getElem (by omega)
  have xn : A[n]? = some (A[n]'(by omega)) := List.getElem?_eq_getElem (by omega)
  rw [(swap_ok xs xn).1, ok_bind]
  unfold lowEnd
  rw [if_pos rfl]
  simp only [if_true]
  rfl

/-! ## Examples -/

/-- Numbers. -/
theorem exWeak : Weak (fun a b : Nat => decide (a < b)) := ⟨fun a b h => by simp at *; omega, fun a b c h h' => by simp at *; omega⟩

/-- A list which needs the quicksort: thirteen elements, some of them equal. -/
example : ∃ A', sort (fun a b : Nat => decide (a < b)) .careful 13 0 12 [5, 3, 9, 1, 5, 5, 12, 0, 7, 5, 2, 8, 5] = .ok A' ∧
    A'.Perm [5, 3, 9, 1, 5, 5, 12, 0, 7, 5, 2, 8, 5] ∧ A'.Pairwise (fun a b => decide (b < a) = false) :=
  C88_sorts (A := [5, 3, 9, 1, 5, 5, 12, 0, 7, 5, 2, 8, 5]) exWeak (front := .careful) trivial (by simp)

example : sort (fun a b : Nat => decide (a < b)) .careful 13 0 12 [5, 3, 9, 1, 5, 5, 12, 0, 7, 5, 2, 8, 5] =
    .ok [0, 1, 2, 3, 5, 5, 5, 5, 5, 7, 8, 9, 12] := by decide

example : sort (fun a b : Nat => decide (a < b)) (.peek none) 12 0 11 (List.replicate 12 7) = .error .ub :=
  C88_reads_in_front (A := List.replicate 12 7) (by simp) (by simp)

end Plc.Quick
