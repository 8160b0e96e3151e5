import Verif.Model.Perm

/-! The contracts assumed of `qsort` and `bsearch` can be met. -/

namespace Plc

/-- Insertion into a sorted list. -/
def insertLe {α : Type} (le : α → α → Bool) (a : α) : List α → List α
  | [] => [a]
  | b :: l => if le a b then a :: b :: l else b :: insertLe le a l

/-- Insertion sort. -/
def insSort {α : Type} (le : α → α → Bool) : List α → List α
  | [] => []
  | a :: l => insertLe le a (insSort le l)

theorem insertLe_perm {α : Type} (le : α → α → Bool) (a : α) :
    ∀ l : List α, (insertLe le a l).Perm (a :: l)
  | [] => List.Perm.refl _
  | b :: l => by
    unfold insertLe
    split
    · exact List.Perm.refl _
    · exact ((insertLe_perm le a l).cons b).trans (List.Perm.swap a b l)

theorem insSort_perm {α : Type} (le : α → α → Bool) : ∀ l : List α, (insSort le l).Perm l
  | [] => List.Perm.refl _
  | a :: l => (insertLe_perm le a _).trans ((insSort_perm le l).cons a)

theorem insertLe_sorted {α : Type} (le : α → α → Bool) (a : α) : ∀ l : List α,
    (∀ x ∈ l, (le a x || le x a) = true) →
    (∀ x ∈ l, ∀ y ∈ l, le a x = true → le x y = true → le a y = true) →
    l.Pairwise (fun a b => le a b = true) → (insertLe le a l).Pairwise (fun a b => le a b = true)
  | [], _, _, _ => by simp [insertLe]
  | b :: l, htot, htr, h => by
    rw [List.pairwise_cons] at h
    unfold insertLe
    by_cases hab : le a b = true
    · rw [if_pos hab, List.pairwise_cons, List.pairwise_cons]
      refine ⟨?_, h⟩
      intro x hx
      rw [List.mem_cons] at hx
      rcases hx with rfl | hx
      · exact hab
      · exact htr b (by simp) x (by simp [hx]) hab (h.1 x hx)
    · rw [if_neg hab, List.pairwise_cons]
      refine ⟨?_, insertLe_sorted le a l (fun x hx => htot x (by simp [hx]))
        (fun x hx y hy => htr x (by simp [hx]) y (by simp [hy])) h.2⟩
      intro x hx
      rw [(insertLe_perm le a l).mem_iff, List.mem_cons] at hx
      rcases hx with rfl | hx
      · have := htot b (by simp)
        simp [hab] at this
        exact this
      · exact h.1 x hx

/-- A `qsort` meeting the contract: insertion sort. -/
def insQSort : QSort where
  sort := insSort
  perm := insSort_perm
  sorted := by
    intro α le l
    induction l with
    | nil => intros; simp [insSort]
    | cons a l ih =>
      intro htot htr
      have ih' := ih (fun x y hx hy => htot x y (by simp [hx]) (by simp [hy]))
        (fun x y z hx hy hz => htr x y z (by simp [hx]) (by simp [hy]) (by simp [hz]))
      have hm : ∀ {x}, x ∈ insSort le l → x ∈ a :: l := fun hx =>
        List.mem_cons_of_mem _ ((insSort_perm le l).mem_iff.mp hx)
      exact insertLe_sorted le a _ (fun x hx => htot a x (by simp) (hm hx))
        (fun x hx y hy => htr a x y (by simp) (hm hx) (hm hy)) ih'

/-- A `bsearch` meeting the contract: linear search. -/
def linearBSearch : PermM.BSearch where
  find := fun cmp l => l.findIdx? (fun a => decide (cmp a = 0))
  hit := by
    intro α cmp l i _ h
    rw [List.findIdx?_eq_some_iff_getElem] at h
    obtain ⟨hi, h1, _⟩ := h
    exact ⟨l[i], List.getElem?_eq_getElem hi, by simpa using h1⟩
  miss := by
    intro α cmp l _ h a ha
    rw [List.findIdx?_eq_none_iff] at h
    simpa using h a ha

end Plc
