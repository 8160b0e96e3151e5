import Verif.Spec.Quick
import Verif.Proofs.Basic
import Mathlib.Data.List.Perm.Basic

/-! # Sorting: helper lemmas -/

namespace Plc.Quick

variable {α : Type} {lt : α → α → Bool}

/-- The part from `l` to `h` is rearranged, the rest stays. -/
structure Seg (l h : Nat) (A A' : List α) : Prop where
  perm : A'.Perm A
  out : ∀ i : Nat, i < l ∨ h < i → A'[i]? = A[i]?
  into : ∀ i : Nat, l ≤ i → i ≤ h → ∃ j : Nat, l ≤ j ∧ j ≤ h ∧ A'[i]? = A[j]?
  onto : ∀ i : Nat, l ≤ i → i ≤ h → ∃ j : Nat, l ≤ j ∧ j ≤ h ∧ A'[j]? = A[i]?

theorem Seg.refl (l h : Nat) (A : List α) : Seg l h A A :=
  ⟨List.Perm.refl _, fun _ _ => rfl, fun i h1 h2 => ⟨i, h1, h2, rfl⟩, fun i h1 h2 => ⟨i, h1, h2, rfl⟩⟩

theorem Seg.trans {l h : Nat} {A B C : List α} (x : Seg l h A B) (y : Seg l h B C) : Seg l h A C where
  perm := y.perm.trans x.perm
  out := fun i hi => (y.out i hi).trans (x.out i hi)
  into := fun i h1 h2 => by
    obtain ⟨j, j1, j2, j3⟩ := y.into i h1 h2
    obtain ⟨k, k1, k2, k3⟩ := x.into j j1 j2
    exact ⟨k, k1, k2, j3.trans k3⟩
  onto := fun i h1 h2 => by
    obtain ⟨j, j1, j2, j3⟩ := x.onto i h1 h2
    obtain ⟨k, k1, k2, k3⟩ := y.onto j j1 j2
    exact ⟨k, k1, k2, k3.trans j3⟩

theorem Seg.mono {l h l' h' : Nat} {A B : List α} (x : Seg l h A B) (hl : l' ≤ l) (hh : h ≤ h') : Seg l' h' A B where
  perm := x.perm
  out := fun i hi => x.out i (by omega)
  into := fun i h1 h2 => by
    by_cases hi : l ≤ i ∧ i ≤ h
    · obtain ⟨j, j1, j2, j3⟩ := x.into i hi.1 hi.2
      exact ⟨j, by omega, by omega, j3⟩
    · exact ⟨i, h1, h2, x.out i (by omega)⟩
  onto := fun i h1 h2 => by
    by_cases hi : l ≤ i ∧ i ≤ h
    · obtain ⟨j, j1, j2, j3⟩ := x.onto i hi.1 hi.2
      exact ⟨j, by omega, by omega, j3⟩
    · exact ⟨i, h1, h2, x.out i (by omega)⟩

theorem Seg.length {l h : Nat} {A B : List α} (x : Seg l h A B) : B.length = A.length := x.perm.length_eq

/-- What holds for all elements of a part holds after it was rearranged. -/
theorem Seg.all {l h : Nat} {A B : List α} (x : Seg l h A B) {P : α → Prop} (hP : ∀ (i : Nat) (a : α), l ≤ i → i ≤ h → A[i]? = some a → P a) :
    ∀ (i : Nat) (a : α), l ≤ i → i ≤ h → B[i]? = some a → P a := by
  intro i a h1 h2 h3
  obtain ⟨j, j1, j2, j3⟩ := x.into i h1 h2
  exact hP j a j1 j2 (by rw [← j3]; exact h3)

theorem swap_ok {A : List α} {i j : Nat} {a b : α} (hi : A[i]? = some a) (hj : A[j]? = some b) :
    swap A i j = .ok ((A.set i b).set j a) ∧ ((A.set i b).set j a).Perm A := by
  obtain ⟨li, rfl⟩ := List.getElem?_eq_some_iff.mp hi
  obtain ⟨lj, rfl⟩ := List.getElem?_eq_some_iff.mp hj
  constructor
  · unfold swap
    rw [rd_lt li, ok_bind, rd_lt lj, ok_bind, wr_lt li, ok_bind, wr_lt (by simpa using lj)]
  · exact List.set_set_perm li lj

theorem get_swap {A : List α} {i j : Nat} {a b : α} (hi : A[i]? = some a) (hj : A[j]? = some b) (k : Nat) :
    ((A.set i b).set j a)[k]? = if k = j then some a else if k = i then some b else A[k]? := by
  have li := (List.getElem?_eq_some_iff.mp hi).1
  have lj := (List.getElem?_eq_some_iff.mp hj).1
  rw [List.getElem?_set, List.getElem?_set]
  by_cases h1 : j = k
  · subst h1; simp [lj]
  · rw [if_neg h1, if_neg (Ne.symm h1)]
    by_cases h2 : i = k
    · subst h2; simp [li]
    · rw [if_neg h2, if_neg (Ne.symm h2)]

theorem seg_swap {A : List α} {l h i j : Nat} {a b : α} (hi : A[i]? = some a) (hj : A[j]? = some b) (i1 : l ≤ i) (i2 : i ≤ h) (j1 : l ≤ j) (j2 : j ≤ h) :
    Seg l h A ((A.set i b).set j a) where
  perm := (swap_ok hi hj).2
  out := fun k hk => by rw [get_swap hi hj, if_neg (by omega), if_neg (by omega)]
  into := fun k k1 k2 => by
    rw [get_swap hi hj]
    by_cases h1 : k = j
    · rw [if_pos h1]; exact ⟨i, i1, i2, hi.symm⟩
    · rw [if_neg h1]
      by_cases h2 : k = i
      · rw [if_pos h2]; exact ⟨j, j1, j2, hj.symm⟩
      · rw [if_neg h2]; exact ⟨k, k1, k2, rfl⟩
  onto := fun k k1 k2 => by
    by_cases h1 : k = i
    · refine ⟨j, j1, j2, ?_⟩
      rw [get_swap hi hj, if_pos rfl, h1, hi]
    · by_cases h2 : k = j
      · refine ⟨i, i1, i2, ?_⟩
        rw [get_swap hi hj, if_neg (by omega), if_pos rfl, h2, hj]
      · refine ⟨k, k1, k2, ?_⟩
        rw [get_swap hi hj, if_neg h2, if_neg h1]

/-! ## Insertion -/

theorem shift_ok (hw : Weak lt) (temp : α) {l s : Nat} : ∀ (t : Nat) (A : List α), l ≤ t → t ≤ s → s < A.length →
    (∀ (i j : Nat) (a b : α), l ≤ i → i < j → j ≤ s → i ≠ t → j ≠ t → A[i]? = some a → A[j]? = some b → lt b a = false) →
    (∀ (i : Nat) (a : α), t < i → i ≤ s → A[i]? = some a → lt temp a = true) →
    ∃ t' A', shift lt temp l t A = .ok (t', A') ∧ l ≤ t' ∧ t' ≤ t ∧ Seg l s (A.set t temp) (A'.set t' temp) ∧ A'.length = A.length ∧
      SortedIn lt l s (A'.set t' temp) := by
  intro t
  have fin : ∀ (t : Nat) (A : List α), l ≤ t → t ≤ s → s < A.length →
    (∀ (i j : Nat) (a b : α), l ≤ i → i < j → j ≤ s → i ≠ t → j ≠ t → A[i]? = some a → A[j]? = some b → lt b a = false) →
    (∀ (i : Nat) (a : α), t < i → i ≤ s → A[i]? = some a → lt temp a = true) →
    (l < t → ∀ a, A[t - 1]? = some a → lt temp a = false) → SortedIn lt l s (A.set t temp) := by
    intro t A h1 h2 h3 hs hg hle i j a b i1 i2 i3 ha hb
    rw [List.getElem?_set] at ha hb
    by_cases hit : t = i
    · subst hit
      rw [if_pos rfl, if_pos (by omega)] at ha
      rw [if_neg (by omega)] at hb
      simp only [Option.some.injEq] at ha
      rw [← ha]
      exact hw.asymm _ _ (hg j b i2 i3 hb)
    · rw [if_neg hit] at ha
      by_cases hjt : t = j
      · subst hjt
        rw [if_pos rfl, if_pos (by omega)] at hb
        simp only [Option.some.injEq] at hb
        rw [← hb]
        have hlt : l < t := by omega
        by_cases hi1 : i = t - 1
        · subst hi1; exact hle hlt a ha
        · have hx : A[t - 1]? = some (A[t - 1]'(by omega)) := List.getElem?_eq_getElem (by omega)
          have e1 := hs i (t - 1) a _ i1 (by omega) (by omega) (by omega) (by omega) ha hx
          exact hw.trans _ _ _ e1 (hle hlt _ hx)
      · rw [if_neg hjt] at hb
        exact hs i j a b i1 i2 i3 (Ne.symm hit) (Ne.symm hjt) ha hb
  induction t with
  | zero =>
    intro A h1 h2 h3 hs hg
    exact ⟨0, A, rfl, by omega, Nat.le_refl _, Seg.refl _ _ _, rfl, fin 0 A h1 h2 h3 hs hg (fun h => by omega)⟩
  | succ t ih =>
    intro A h1 h2 h3 hs hg
    unfold shift
    by_cases hl : l < t + 1
    swap
    · rw [if_neg hl]
      exact ⟨t + 1, A, rfl, by omega, Nat.le_refl _, Seg.refl _ _ _, rfl, fin (t + 1) A h1 h2 h3 hs hg (fun h => by omega)⟩
    rw [if_pos hl, rd_lt (by omega), ok_bind]
    have hx : A[t]? = some (A[t]'(by omega)) := List.getElem?_eq_getElem (by omega)
    obtain ⟨x, ex⟩ : ∃ x, x = A[t]'(by omega) := ⟨_, rfl⟩
    rw [← ex] at hx ⊢
    by_cases hc : lt temp x = true
    swap
    · rw [if_neg hc]
      refine ⟨t + 1, A, rfl, by omega, Nat.le_refl _, Seg.refl _ _ _, rfl, fin (t + 1) A h1 h2 h3 hs hg ?_⟩
      intro _ a ha
      rw [show t + 1 - 1 = t by omega, hx] at ha
      simp only [Option.some.injEq] at ha
      rw [← ha]; simpa using hc
    rw [if_pos hc, wr_lt (by omega), ok_bind]
    obtain ⟨t', A', e, a1, a2, a3, a4, a5⟩ := ih (A.set (t + 1) x) (by omega) (by omega) (by simpa using h3) (by
        intro i j a b i1 i2 i3 hi hj ha hb
        rw [List.getElem?_set] at ha hb
        by_cases hit : t + 1 = i
        · rw [if_pos hit, if_pos (by omega)] at ha
          simp only [Option.some.injEq] at ha
          subst ha
          rw [if_neg (by omega)] at hb
          exact hs t j x b (by omega) (by omega) i3 (by omega) (by omega) hx hb
        · rw [if_neg hit] at ha
          by_cases hjt : t + 1 = j
          · rw [if_pos hjt, if_pos (by omega)] at hb
            simp only [Option.some.injEq] at hb
            subst hb
            exact hs i t a x i1 (by omega) (by omega) (by omega) (by omega) ha hx
          · rw [if_neg hjt] at hb
            exact hs i j a b i1 i2 i3 (by omega) (by omega) ha hb) (by
        intro i a i1 i2 ha
        rw [List.getElem?_set] at ha
        by_cases hit : t + 1 = i
        · rw [if_pos hit, if_pos (by omega)] at ha
          simp only [Option.some.injEq] at ha
          rw [← ha]; exact hc
        · rw [if_neg hit] at ha
          exact hg i a (by omega) i2 ha)
    refine ⟨t', A', e, a1, by omega, ?_, by simpa using a4, a5⟩
    refine Seg.trans ?_ a3
    have q1 : (A.set (t + 1) temp)[t]? = some x := by rw [List.getElem?_set, if_neg (by omega)]; exact hx
    have q2 : (A.set (t + 1) temp)[t + 1]? = some temp := by rw [List.getElem?_set, if_pos rfl, if_pos (by omega)]
    have q3 := seg_swap (l := l) (h := s) q2 q1 (by omega) (by omega) (by omega) (by omega)
    rw [List.set_set] at q3
    exact q3

theorem insLoop_ok (hw : Weak lt) {l h : Nat} : ∀ (k s : Nat) (A : List α), l < s → s + k = h + 1 → h < A.length → SortedIn lt l (s - 1) A →
    ∃ A', insLoop lt l k s A = .ok A' ∧ Seg l h A A' ∧ SortedIn lt l h A'
  | 0, s, A, h1, h2, h3, hs => ⟨A, rfl, Seg.refl _ _ _, by rw [show h = s - 1 by omega]; exact hs⟩
  | k + 1, s, A, h1, h2, h3, hs => by
    unfold insLoop
    have hx : A[s]? = some (A[s]'(by omega)) := List.getElem?_eq_getElem (by omega)
    obtain ⟨x, ex⟩ : ∃ x, x = A[s]'(by omega) := ⟨_, rfl⟩
    rw [← ex] at hx
    rw [rd_ok hx, ok_bind]
    obtain ⟨t', A', e, a1, a2, a3, a4, a5⟩ := shift_ok hw x (l := l) (s := s) s A (by omega) (Nat.le_refl _) (by omega) (by
      intro i j a b i1 i2 i3 _ hj ha hb
      exact hs i j a b i1 i2 (by omega) ha hb) (by intro i a i1 i2; omega)
    rw [e, ok_bind]
    simp only
    rw [wr_lt (by omega), ok_bind]
    have hself : A.set s x = A := by rw [ex]; exact List.set_getElem_self _
    rw [hself] at a3
    obtain ⟨B, e', b1, b2⟩ := insLoop_ok hw (l := l) (h := h) k (s + 1) (A'.set t' x) (by omega) (by omega) (by rw [List.length_set]; omega) (by simpa using a5)
    exact ⟨B, e', (a3.mono (Nat.le_refl _) (show s ≤ h by omega)).trans b1, b2⟩

/-! ## The partition -/

theorem scanUp_ok {p : α} {h : Nat} {A : List α} (hh : h < A.length) : ∀ (k s : Nat), s ≤ h → h < s + k →
    ∃ s', scanUp lt p h A k s = .ok s' ∧ s ≤ s' ∧ s' ≤ h ∧ (∀ (i : Nat) (a : α), s ≤ i → i < s' → A[i]? = some a → lt a p = true) ∧
      (s' = h ∨ ∀ a, A[s']? = some a → lt a p = false)
  | 0, s, h1, h2 => by omega
  | k + 1, s, h1, h2 => by
    unfold scanUp
    have hx : A[s]? = some (A[s]'(by omega)) := List.getElem?_eq_getElem (by omega)
    rw [rd_ok hx, ok_bind]
    by_cases hc : lt (A[s]'(by omega)) p = true ∧ s < h
    · rw [if_pos hc]
      obtain ⟨s', e, a1, a2, a3, a4⟩ := scanUp_ok (p := p) hh k (s + 1) (by omega) (by omega)
      refine ⟨s', e, by omega, a2, ?_, a4⟩
      intro i a i1 i2 ha
      by_cases hi : i = s
      · subst hi
        rw [hx] at ha
        simp only [Option.some.injEq] at ha
        rw [← ha]; exact hc.1
      · exact a3 i a (by omega) i2 ha
    · rw [if_neg hc]
      refine ⟨s, rfl, Nat.le_refl _, h1, fun i a i1 i2 => by omega, ?_⟩
      by_cases hs : s = h
      · exact .inl hs
      · right
        intro a ha
        rw [hx] at ha
        simp only [Option.some.injEq] at ha
        rw [← ha]
        by_contra hne
        exact hc ⟨by simpa using hne, by omega⟩

theorem scanDown_ok {p : α} {l : Nat} {A : List α} : ∀ (t : Nat), l ≤ t → t < A.length →
    ∃ t', scanDown lt p l A t = .ok t' ∧ l ≤ t' ∧ t' ≤ t ∧ (∀ (i : Nat) (a : α), t' < i → i ≤ t → A[i]? = some a → lt a p = false) ∧
      (t' = l ∨ ∀ a, A[t']? = some a → lt a p = true)
  | 0, h1, h2 => by
    unfold scanDown
    rw [rd_lt h2, ok_bind]
    exact ⟨0, rfl, h1, Nat.le_refl _, fun i a i1 i2 => by omega, .inl (by omega)⟩
  | t + 1, h1, h2 => by
    unfold scanDown
    have hx : A[t + 1]? = some (A[t + 1]'h2) := List.getElem?_eq_getElem h2
    rw [rd_ok hx, ok_bind]
    by_cases hc : lt (A[t + 1]'h2) p = false ∧ l < t + 1
    · rw [if_pos hc]
      obtain ⟨t', e, a1, a2, a3, a4⟩ := scanDown_ok (p := p) (l := l) (A := A) t (by omega) (by omega)
      refine ⟨t', e, a1, by omega, ?_, a4⟩
      intro i a i1 i2 ha
      by_cases hi : i = t + 1
      · subst hi
        rw [hx] at ha
        simp only [Option.some.injEq] at ha
        rw [← ha]; exact hc.1
      · exact a3 i a i1 (by omega) ha
    · rw [if_neg hc]
      refine ⟨t + 1, rfl, h1, Nat.le_refl _, fun i a i1 i2 => by omega, ?_⟩
      by_cases hs : t + 1 = l
      · exact .inl hs
      · right
        intro a ha
        rw [hx] at ha
        simp only [Option.some.injEq] at ha
        rw [← ha]
        by_contra hne
        exact hc ⟨by simpa using hne, by omega⟩

theorem parLoop_ok {p : α} {l h : Nat} : ∀ (k s t : Nat) (A : List α), h < A.length → l ≤ s → s ≤ t → t ≤ h → l < t → t < k + l →
    (∀ (i : Nat) (a : α), l ≤ i → i < s → A[i]? = some a → lt a p = true) →
    (∀ (i : Nat) (a : α), t ≤ i → i < h → A[i]? = some a → lt a p = false) →
    ∃ s' A', parLoop lt p l h k s t A = .ok (s', A') ∧ l ≤ s' ∧ s' ≤ h ∧ Seg l (h - 1) A A' ∧
      (∀ (i : Nat) (a : α), l ≤ i → i < s' → A'[i]? = some a → lt a p = true) ∧
      (∀ (i : Nat) (a : α), s' ≤ i → i < h → A'[i]? = some a → lt a p = false)
  | 0, s, t, A, _, _, _, _, _, hk, _, _ => by omega
  | k + 1, s, t, A, hh, h1, h2, h3, h4, hk, ha, hb => by
    unfold parLoop
    obtain ⟨s', e, a1, a2, a3, a4⟩ := scanUp_ok (lt := lt) (p := p) hh A.length s (by omega) (by omega)
    obtain ⟨t', f, b1, b2, b3, b4⟩ := scanDown_ok (lt := lt) (p := p) (l := l) (A := A) (t - 1) (by omega) (by omega)
    rw [e, ok_bind, f, ok_bind]
    by_cases hc : t' ≤ s'
    · rw [if_pos hc]
      refine ⟨s', A, rfl, by omega, a2, Seg.refl _ _ _, ?_, ?_⟩
      · intro i a i1 i2 hx
        by_cases hi : i < s
        · exact ha i a i1 hi hx
        · exact a3 i a (by omega) i2 hx
      · intro i a i1 i2 hx
        by_cases hi : i = s'
        · subst hi
          rcases a4 with a4 | a4
          · omega
          · exact a4 a hx
        · by_cases hi2 : i < t
          · exact b3 i a (by omega) (by omega) hx
          · exact hb i a (by omega) i2 hx
    · rw [if_neg hc]
      have xs : A[s']? = some (A[s']'(by omega)) := List.getElem?_eq_getElem (by omega)
      have xt : A[t']? = some (A[t']'(by omega)) := List.getElem?_eq_getElem (by omega)
      obtain ⟨u, eu⟩ : ∃ u, u = A[s']'(by omega) := ⟨_, rfl⟩
      obtain ⟨v, ev⟩ : ∃ v, v = A[t']'(by omega) := ⟨_, rfl⟩
      rw [← eu] at xs
      rw [← ev] at xt
      have hu : lt u p = false := by
        rcases a4 with a4 | a4
        · omega
        · exact a4 u xs
      have hv : lt v p = true := by
        rcases b4 with b4 | b4
        · omega
        · exact b4 v xt
      rw [(swap_ok xs xt).1, ok_bind]
      obtain ⟨s2, A2, g, c1, c2, c3, c4, c5⟩ := parLoop_ok (p := p) (l := l) (h := h) k (s' + 1) t' ((A.set s' v).set t' u) (by simpa using hh) (by omega) (by omega)
        (by omega) (by omega) (by omega) (by
          intro i a i1 i2 hx
          rw [get_swap xs xt, if_neg (by omega)] at hx
          by_cases hi : i = s'
          · rw [if_pos hi] at hx
            simp only [Option.some.injEq] at hx
            rw [← hx]; exact hv
          · rw [if_neg hi] at hx
            by_cases hi : i < s
            · exact ha i a i1 hi hx
            · exact a3 i a (by omega) (by omega) hx) (by
          intro i a i1 i2 hx
          rw [get_swap xs xt] at hx
          by_cases hi : i = t'
          · rw [if_pos hi] at hx
            simp only [Option.some.injEq] at hx
            rw [← hx]; exact hu
          · rw [if_neg hi, if_neg (by omega)] at hx
            by_cases hi2 : i < t
            · exact b3 i a (by omega) (by omega) hx
            · exact hb i a (by omega) i2 hx)
      exact ⟨s2, A2, g, c1, c2, (seg_swap xs xt (by omega) (by omega) (by omega) (by omega)).trans c3, c4, c5⟩

theorem median_ok (hw : Weak lt) {l s h : Nat} {A : List α} (hh : h < A.length) (h1 : l < s) (h2 : s < h) (h3 : l < h) :
    ∃ A', median lt l s h A = .ok A' ∧ Seg l h A A' ∧
      ∀ p, A'[h]? = some p → ∃ (i : Nat) (a : α), l ≤ i ∧ i < h ∧ A'[i]? = some a ∧ lt a p = false := by
  have xl : A[l]? = some (A[l]'(by omega)) := List.getElem?_eq_getElem (by omega)
  have xs : A[s]? = some (A[s]'(by omega)) := List.getElem?_eq_getElem (by omega)
  have xh : A[h]? = some (A[h]'hh) := List.getElem?_eq_getElem hh
  obtain ⟨al, el⟩ : ∃ u, u = A[l]'(by omega) := ⟨_, rfl⟩
  obtain ⟨as, es⟩ : ∃ u, u = A[s]'(by omega) := ⟨_, rfl⟩
  obtain ⟨ah, eh⟩ : ∃ u, u = A[h]'hh := ⟨_, rfl⟩
  rw [← el] at xl
  rw [← es] at xs
  rw [← eh] at xh
  unfold median
  rw [rd_ok xl, ok_bind, rd_ok xs, ok_bind, rd_ok xh, ok_bind]
  -- exchanging `A[h]` with `A[s]`, when some element is not less
  have caseS : (lt as al = true ∨ lt ah as = false) → ∃ A', swap A h s = .ok A' ∧ Seg l h A A' ∧
      ∀ p, A'[h]? = some p → ∃ (i : Nat) (a : α), l ≤ i ∧ i < h ∧ A'[i]? = some a ∧ lt a p = false := by
    intro hor
    refine ⟨_, (swap_ok xh xs).1, seg_swap xh xs (by omega) (Nat.le_refl _) (by omega) (by omega), ?_⟩
    intro p hp
    rw [get_swap xh xs, if_neg (by omega), if_pos rfl] at hp
    simp only [Option.some.injEq] at hp
    subst hp
    rcases hor with x | x
    · refine ⟨l, al, Nat.le_refl _, h3, ?_, hw.asymm _ _ x⟩
      rw [get_swap xh xs, if_neg (by omega), if_neg (by omega)]; exact xl
    · refine ⟨s, ah, by omega, h2, ?_, x⟩
      rw [get_swap xh xs, if_pos rfl]
  have caseL : (lt as al = false ∨ lt ah al = false) → ∃ A', swap A h l = .ok A' ∧ Seg l h A A' ∧
      ∀ p, A'[h]? = some p → ∃ (i : Nat) (a : α), l ≤ i ∧ i < h ∧ A'[i]? = some a ∧ lt a p = false := by
    intro hor
    refine ⟨_, (swap_ok xh xl).1, seg_swap xh xl (by omega) (Nat.le_refl _) (Nat.le_refl _) (by omega), ?_⟩
    intro p hp
    rw [get_swap xh xl, if_neg (by omega), if_pos rfl] at hp
    simp only [Option.some.injEq] at hp
    subst hp
    by_cases hx : lt ah al = false
    · refine ⟨l, ah, Nat.le_refl _, h3, ?_, hx⟩
      rw [get_swap xh xl, if_pos rfl]
    · have x : lt as al = false := by tauto
      refine ⟨s, as, by omega, h2, ?_, x⟩
      rw [get_swap xh xl, if_neg (by omega), if_neg (by omega)]; exact xs
  have caseN : (lt as ah = false ∨ lt al ah = false) → ∃ A', (.ok A : Res (List α)) = .ok A' ∧ Seg l h A A' ∧
      ∀ p, A'[h]? = some p → ∃ (i : Nat) (a : α), l ≤ i ∧ i < h ∧ A'[i]? = some a ∧ lt a p = false := by
    intro hor
    refine ⟨A, rfl, Seg.refl _ _ _, ?_⟩
    intro p hp
    rw [xh] at hp
    simp only [Option.some.injEq] at hp
    subst hp
    rcases hor with x | x
    · exact ⟨s, as, by omega, h2, xs, x⟩
    · exact ⟨l, al, Nat.le_refl _, h3, xl, x⟩
  split
  · rename_i c1
    split
    · exact caseS (.inl (by assumption))
    · rename_i c2
      split
      · exact caseL (.inl (by simpa using c2))
      · exact caseN (.inl (hw.asymm _ _ c1))
  · rename_i c1
    split
    · exact caseS (.inr (by simpa using c1))
    · rename_i c2
      split
      · rename_i c3
        exact caseL (.inr (hw.asymm _ _ c3))
      · rename_i c3
        exact caseN (.inr (by simpa using c3))

theorem skipUp_ok {p : α} {h : Nat} {A : List α} (hh : h < A.length) : ∀ (k s : Nat), s ≤ h → h < s + k →
    ∃ s', skipUp lt p h A k s = .ok s' ∧ s ≤ s' ∧ s' ≤ h ∧ (∀ (i : Nat) (a : α), s ≤ i → i < s' → A[i]? = some a → lt p a = false)
  | 0, s, h1, h2 => by omega
  | k + 1, s, h1, h2 => by
    unfold skipUp
    have hx : A[s]? = some (A[s]'(by omega)) := List.getElem?_eq_getElem (by omega)
    rw [rd_ok hx, ok_bind]
    by_cases hc : same lt (A[s]'(by omega)) p = true ∧ s < h
    · rw [if_pos hc]
      obtain ⟨s', e, a1, a2, a3⟩ := skipUp_ok (p := p) hh k (s + 1) (by omega) (by omega)
      refine ⟨s', e, by omega, a2, ?_⟩
      intro i a i1 i2 ha
      by_cases hi : i = s
      · subst hi
        rw [hx] at ha
        simp only [Option.some.injEq] at ha
        rw [← ha]
        have := hc.1
        unfold same at this
        simp at this
        exact this.2
      · exact a3 i a (by omega) i2 ha
    · rw [if_neg hc]
      exact ⟨s, rfl, Nat.le_refl _, h1, fun i a i1 i2 => by omega⟩

/-- What may be read at the start of the array. -/
def Front.fine : Front α → Prop
  | .careful => True
  | .peek x => x ≠ none

theorem lowEnd_ok {front : Front α} (hf : front.fine) {p : α} {l s : Nat} {A : List α} (h1 : l ≤ s) (h2 : s < A.length)
    (hb : ∀ (i : Nat) (a : α), l ≤ i → i < s → A[i]? = some a → lt a p = true) :
    ∃ lo, lowEnd lt front p l s A = .ok lo ∧ (s = l ∧ lo = l ∨ l < s ∧ lo + 1 = s) := by
  unfold lowEnd
  by_cases hs : s = l
  · rw [if_pos hs]
    refine ⟨l, ?_, .inl ⟨hs, rfl⟩⟩
    cases front with
    | careful => rfl
    | peek x =>
      simp only
      by_cases hl : l = 0
      · rw [if_pos hl]
        cases x with
        | none => exact absurd rfl hf
        | some x => rfl
      · rw [if_neg hl, rd_lt (by omega), ok_bind]
  · rw [if_neg hs]
    refine ⟨s - 1, ?_, .inr ⟨by omega, by omega⟩⟩
    have hx : A[s - 1]? = some (A[s - 1]'(by omega)) := List.getElem?_eq_getElem (by omega)
    have hlt := hb (s - 1) _ (by omega) (by omega) hx
    obtain ⟨y, ey⟩ : ∃ y, y = A[s - 1]'(by omega) := ⟨_, rfl⟩
    rw [← ey] at hx hlt
    clear ey
    obtain ⟨k, ek⟩ : ∃ k, k = s - 1 := ⟨_, rfl⟩
    rw [← ek] at hx ⊢
    cases k with
    | zero =>
      unfold skipDown
      rw [rd_ok hx, ok_bind]
    | succ k =>
      unfold skipDown
      rw [rd_ok hx, ok_bind, if_neg]
      rintro ⟨hsame, _⟩
      unfold same at hsame
      rw [hlt] at hsame
      simp at hsame

/-- The parts before, at, and behind the pivot together. -/
theorem glue (hw : Weak lt) {l h s hi : Nat} {p : α} {A : List α} (h1 : s < hi) (hA : A[s]? = some p)
    (hlow : ∀ (i : Nat) (a : α), l ≤ i → i < s → A[i]? = some a → lt a p = true)
    (hup : ∀ (i : Nat) (a : α), s < i → i ≤ h → A[i]? = some a → lt a p = false)
    (heq : ∀ (i : Nat) (a : α), s < i → i < hi → A[i]? = some a → lt p a = false)
    (hs1 : ∀ (i j : Nat) (a b : α), l ≤ i → i < j → j < s → A[i]? = some a → A[j]? = some b → lt b a = false)
    (hs2 : SortedIn lt hi h A) : SortedIn lt l h A := by
  intro i j a b i1 i2 i3 ha hb
  have ple : ∀ (j : Nat) (b : α), s ≤ j → j ≤ h → A[j]? = some b → lt b p = false := by
    intro j b j1 j2 hb
    by_cases hj : j = s
    · subst hj
      rw [hA] at hb
      simp only [Option.some.injEq] at hb
      subst hb
      by_contra hc
      have hc' : lt p p = true := by simpa using hc
      rw [hw.asymm _ _ hc'] at hc'; simp at hc'
    · exact hup j b (by omega) j2 hb
  by_cases hi1 : i < s
  · by_cases hj1 : j < s
    · exact hs1 i j a b i1 i2 hj1 ha hb
    · exact hw.trans a p b (hw.asymm _ _ (hlow i a i1 hi1 ha)) (ple j b (by omega) i3 hb)
  · by_cases hi2 : i < hi
    · have hpa : lt p a = false := by
        by_cases he : i = s
        · subst he
          rw [hA] at ha
          simp only [Option.some.injEq] at ha
          subst ha
          exact ple i p (Nat.le_refl _) (by omega) hA
        · exact heq i a (by omega) hi2 ha
      exact hw.trans a p b hpa (ple j b (by omega) i3 hb)
    · exact hs2 i j a b (by omega) i2 i3 ha hb

theorem sort_ok (hw : Weak lt) {front : Front α} (hf : front.fine) : ∀ (f l h : Nat) (A : List α), h < A.length → l ≤ h → h < l + f →
    ∃ A', sort lt front f l h A = .ok A' ∧ Seg l h A A' ∧ SortedIn lt l h A'
  | 0, l, h, A, _, _, _ => by omega
  | f + 1, l, h, A, h1, h2, h3 => by
    unfold sort
    by_cases hs : h ≤ l + 10
    · rw [if_pos hs]
      exact insLoop_ok hw (h - l) (l + 1) A (by omega) (by omega) h1 (by intro i j a b; omega)
    rw [if_neg hs]
    obtain ⟨A1, e1, g1, m1⟩ := median_ok hw (l := l) (s := (h + l) / 2) (h := h) (A := A) h1 (by omega) (by omega) (by omega)
    have l1 := g1.length
    have hp : A1[h]? = some (A1[h]'(by omega)) := List.getElem?_eq_getElem (by omega)
    obtain ⟨p, ep⟩ : ∃ p, p = A1[h]'(by omega) := ⟨_, rfl⟩
    rw [← ep] at hp
    rw [e1, ok_bind, rd_ok hp, ok_bind]
    obtain ⟨s, A2, e2, s1, s2, g2, lo2, up2⟩ := parLoop_ok (lt := lt) (p := p) (l := l) (h := h) A1.length l h A1 (by omega) (Nat.le_refl _) (by omega)
      (Nat.le_refl _) (by omega) (by omega) (fun i a x y => by omega) (fun i a x y => by omega)
    have l2 := g2.length
    have hsh : s < h := by
      by_contra hc
      obtain ⟨i, a, i1, i2, i3, i4⟩ := m1 p hp
      obtain ⟨j, j1, j2, j3⟩ := g2.onto i i1 (by omega)
      have := lo2 j a j1 (by omega) (j3.trans i3)
      rw [i4] at this; simp at this
    rw [e2, ok_bind]
    simp only
    have xs : A2[s]? = some (A2[s]'(by omega)) := List.getElem?_eq_getElem (by omega)
    have xh : A2[h]? = some p := by rw [g2.out h (by omega)]; exact hp
    obtain ⟨u, eu⟩ : ∃ u, u = A2[s]'(by omega) := ⟨_, rfl⟩
    rw [← eu] at xs
    have hu := up2 s u (Nat.le_refl _) hsh xs
    rw [(swap_ok xs xh).1, ok_bind]
    have g3 := seg_swap (l := l) (h := h) xs xh s1 (by omega) (by omega) (Nat.le_refl _)
    obtain ⟨A3, eA3⟩ : ∃ B, B = (A2.set s p).set h u := ⟨_, rfl⟩
    have q3 : ∀ k : Nat, A3[k]? = if k = h then some u else if k = s then some p else A2[k]? := fun k => by rw [eA3]; exact get_swap xs xh k
    rw [← eA3] at g3 ⊢
    have l3 := g3.length
    have lo3 : ∀ (i : Nat) (a : α), l ≤ i → i < s → A3[i]? = some a → lt a p = true := by
      intro i a i1 i2 hx
      rw [q3, if_neg (by omega), if_neg (by omega)] at hx
      exact lo2 i a i1 i2 hx
    have up3 : ∀ (i : Nat) (a : α), s < i → i ≤ h → A3[i]? = some a → lt a p = false := by
      intro i a i1 i2 hx
      rw [q3] at hx
      by_cases hi : i = h
      · rw [if_pos hi] at hx
        simp only [Option.some.injEq] at hx
        rw [← hx]; exact hu
      · rw [if_neg hi, if_neg (by omega)] at hx
        exact up2 i a (by omega) (by omega) hx
    have at3 : A3[s]? = some p := by rw [q3, if_neg (by omega), if_pos rfl]
    obtain ⟨lo, e4, hlo⟩ := lowEnd_ok (lt := lt) hf (p := p) (l := l) (s := s) (A := A3) s1 (by omega) lo3
    rw [e4, ok_bind]
    -- the lower part
    have low : ∃ A4, (if l < lo then sort lt front f l lo A3 else .ok A3) = .ok A4 ∧ Seg l (s - 1) A3 A4 ∧ (∀ i : Nat, s ≤ i → A4[i]? = A3[i]?) ∧
        ∀ (i j : Nat) (a b : α), l ≤ i → i < j → j < s → A4[i]? = some a → A4[j]? = some b → lt b a = false := by
      by_cases hc : l < lo
      · rw [if_pos hc]
        obtain ⟨A4, e, g, so⟩ := sort_ok hw hf f l lo A3 (by omega) (by omega) (by omega)
        refine ⟨A4, e, g.mono (Nat.le_refl _) (by omega), fun i hi => g.out i (by omega), ?_⟩
        intro i j a b i1 i2 i3
        exact so i j a b i1 i2 (by omega)
      · rw [if_neg hc]
        refine ⟨A3, rfl, Seg.refl _ _ _, fun _ _ => rfl, ?_⟩
        intro i j a b i1 i2 i3
        omega
    obtain ⟨A4, e5, g4, o4, so4⟩ := low
    have l4 := g4.length
    have lo4 : ∀ (i : Nat) (a : α), l ≤ i → i < s → A4[i]? = some a → lt a p = true := by
      intro i a i1 i2 hx
      exact g4.all (P := fun a => lt a p = true) (fun i a i1 i2 hx => lo3 i a i1 (by omega) hx) i a i1 (by omega) hx
    rw [e5, ok_bind]
    obtain ⟨hi, e6, i1, i2, i3⟩ := skipUp_ok (lt := lt) (p := p) (h := h) (A := A4) (by omega) A4.length (s + 1) (by omega) (by omega)
    rw [e6, ok_bind]
    have up : ∃ A5, (if hi < h then sort lt front f hi h A4 else .ok A4) = .ok A5 ∧ Seg hi h A4 A5 ∧ SortedIn lt hi h A5 := by
      by_cases hc : hi < h
      · rw [if_pos hc]
        exact sort_ok hw hf f hi h A4 (by omega) (by omega) (by omega)
      · rw [if_neg hc]
        exact ⟨A4, rfl, Seg.refl _ _ _, fun i j a b => by omega⟩
    obtain ⟨A5, e7, g5, so5⟩ := up
    refine ⟨A5, e7, ?_, ?_⟩
    · refine g1.trans ((g2.mono (Nat.le_refl _) (by omega)).trans (g3.trans ((g4.mono (Nat.le_refl _) (by omega)).trans (g5.mono (by omega) (Nat.le_refl _)))))
    · refine glue hw (s := s) (hi := hi) (p := p) (by omega) ?_ ?_ ?_ ?_ ?_ so5
      · rw [g5.out s (by omega), o4 s (Nat.le_refl _)]; exact at3
      · intro i a j1 j2 hx
        rw [g5.out i (by omega)] at hx
        exact lo4 i a j1 j2 hx
      · intro i a j1 j2 hx
        by_cases hc : i < hi
        · rw [g5.out i (by omega), o4 i (by omega)] at hx
          exact up3 i a j1 j2 hx
        · exact g5.all (P := fun a => lt a p = false) (fun i a i1 i2 hx => up3 i a (by omega) i2 (by rw [← o4 i (by omega)]; exact hx)) i a (by omega) j2 hx
      · intro i a j1 j2 hx
        rw [g5.out i (by omega)] at hx
        exact i3 i a (by omega) j2 hx
      · intro i j a b j1 j2 j3 ha hb
        rw [g5.out i (by omega)] at ha
        rw [g5.out j (by omega)] at hb
        exact so4 i j a b j1 j2 j3 ha hb

end Plc.Quick
