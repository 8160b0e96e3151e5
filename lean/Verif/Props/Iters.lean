import Verif.Model.Iters
import Verif.Spec.Iter
import Verif.Proofs.Iters
import Mathlib.Tactic.IntervalCases
import Mathlib.Data.Nat.ModEq

/-! # Properties C08-C11: dihedral, cyclic and orientation iterators -/

namespace Plc.Iters

/-- `m` is the rotation `j ↦ j + k` of `0..n-1` for some `k`. -/
def IsRotation (n : Nat) (m : List Nat) : Prop :=
  m.length = n ∧ ∃ k, k < n ∧ ∀ j, j < n → m[j]? = some ((j + k) % n)

/-- `m` is the reflection `j ↦ k - j` of `0..n-1` for some `k`. -/
def IsReflection (n : Nat) (m : List Nat) : Prop :=
  m.length = n ∧ ∃ k, k < n ∧ ∀ j, j < n → ∃ v, m[j]? = some v ∧ v < n ∧ (v + j) % n = k

/-- Membership in the dihedral group of `0..n-1`: rotations carry `+`, reflections `-`. -/
def IsDihedral (n : Nat) (d : Dihedral) : Prop :=
  (d.orient = .pos ∧ IsRotation n d.map) ∨ (d.orient = .neg ∧ IsReflection n d.map)

theorem isRotation_iff {n : Nat} {m : List Nat} :
    IsRotation n m ↔ ∃ k, k < n ∧ m = R n k := by
  constructor
  · rintro ⟨h, k, hk, hj⟩
    exact ⟨k, hk, list_ext_lt h (R_length _ _) (fun j h' => by rw [hj j h', R_get h'])⟩
  · rintro ⟨k, hk, rfl⟩
    exact ⟨R_length _ _, k, hk, fun j h => R_get h⟩

theorem isReflection_iff {n : Nat} {m : List Nat} :
    IsReflection n m ↔ ∃ k, k < n ∧ m = S n k := by
  constructor
  · rintro ⟨h, k, hk, hj⟩
    refine ⟨k, hk, list_ext_lt h (S_length _ _) (fun j h' => ?_)⟩
    obtain ⟨v, h1, h2, h3⟩ := hj j h'
    rw [h1, S_get h']
    congr 1
    rw [← h3, Nat.mod_add_mod, show v + j + (n - j) = v + n by omega, Nat.add_mod_right,
      Nat.mod_eq_of_lt h2]
  · rintro ⟨k, hk, rfl⟩
    refine ⟨S_length _ _, k, hk, fun j h => ⟨_, S_get h, Nat.mod_lt _ (by omega), ?_⟩⟩
    rw [Nat.mod_add_mod, show k + (n - j) + j = k + n by omega, Nat.add_mod_right,
      Nat.mod_eq_of_lt hk]

/-- **C08.** For every `n ≥ 1`: starting from `pd_new_dihedral`, the values after
`0..2n-1` calls of `pd_increment_dihedral` are pairwise different and are exactly the
elements of the dihedral group; the `2n`-th call returns to the start; no call faults;
`pd_ndihedrals` is their number. -/
theorem C08_dihedral_iterator (n : Nat) (hn : 1 ≤ n) :
    ∃ visit : Nat → Dihedral,
      (∀ i, i ≤ 2 * n → iterRes incDihedral i (newDihedral n) = .ok (visit i)) ∧
      (∀ i j, i < j → j < 2 * n → visit i ≠ visit j) ∧
      (∀ d, IsDihedral n d ↔ ∃ i, i < 2 * n ∧ visit i = d) ∧
      visit (2 * n) = newDihedral n ∧ ndihedrals (newDihedral n) = 2 * n := by
  have hnd : ndihedrals (newDihedral n) = 2 * n := by simp [ndihedrals, newDihedral]
  by_cases h1 : n = 1
  · subst h1
    refine ⟨fun i => if i = 1 then ⟨[0], .neg⟩ else ⟨[0], .pos⟩, ?_, ?_, ?_, rfl, hnd⟩
    · intro i hi
      interval_cases i <;> rfl
    · intro i j hij hj
      interval_cases j <;> interval_cases i <;> simp
    · intro d
      have hR : ∀ m, IsRotation 1 m ↔ m = [0] := by
        intro m; rw [isRotation_iff]
        constructor
        · rintro ⟨k, hk, rfl⟩; interval_cases k; rfl
        · rintro rfl; exact ⟨0, by omega, rfl⟩
      have hS : ∀ m, IsReflection 1 m ↔ m = [0] := by
        intro m; rw [isReflection_iff]
        constructor
        · rintro ⟨k, hk, rfl⟩; interval_cases k; rfl
        · rintro rfl; exact ⟨0, by omega, rfl⟩
      unfold IsDihedral
      rw [hR, hS]
      obtain ⟨m, o⟩ := d
      constructor
      · rintro (⟨h, h'⟩ | ⟨h, h'⟩)
        · exact ⟨0, by omega, by simp_all⟩
        · exact ⟨1, by omega, by simp_all⟩
      · rintro ⟨i, hi, h⟩
        interval_cases i <;> simp at h <;> simp [← h.1, ← h.2]
  · have h2 : 2 ≤ n := by omega
    refine ⟨dState n, ?_, ?_, ?_, ?_, hnd⟩
    · intro i
      induction i with
      | zero =>
        intro _
        unfold dState newDihedral
        rw [if_pos (by omega), R_zero]; rfl
      | succ i ih =>
        intro hi
        rw [iterRes, ih (by omega), ok_bind, incDihedral_step h2 (by omega)]
    · intro i j hij hj heq
      unfold dState at heq
      by_cases hin : i < n
      · by_cases hjn : j < n
        · rw [if_pos hin, if_pos hjn] at heq
          have := congrArg (fun d => (Dihedral.map d)[0]?) heq
          simp only [R_get (show 0 < n by omega), Nat.zero_add, Nat.mod_eq_of_lt hin,
            Nat.mod_eq_of_lt hjn, Option.some.injEq] at this
          omega
        · rw [if_pos hin, if_neg hjn, if_pos hj] at heq
          simp at heq
      · rw [if_neg hin, if_pos (by omega), if_neg (by omega), if_pos hj] at heq
        have := congrArg (fun d => (Dihedral.map d)[0]?) heq
        simp only [S_get (show 0 < n by omega), Option.some.injEq] at this
        rw [show 2 * n - j + (n - 0) = (2 * n - j) + n by omega, Nat.add_mod_right,
          Nat.mod_eq_of_lt (by omega : 2 * n - j < n),
          show 2 * n - i + (n - 0) = (2 * n - i) + n by omega, Nat.add_mod_right] at this
        by_cases hi' : i = n
        · rw [show 2 * n - i = n by omega, Nat.mod_self] at this; omega
        · rw [Nat.mod_eq_of_lt (by omega)] at this; omega
    · rintro ⟨m, o⟩
      unfold IsDihedral
      rw [isRotation_iff, isReflection_iff]
      constructor
      · rintro (⟨h, k, hk, hm⟩ | ⟨h, k, hk, hm⟩)
        · exact ⟨k, by omega, by unfold dState; rw [if_pos hk]; simp_all⟩
        · by_cases hk0 : k = 0
          · refine ⟨n, by omega, ?_⟩
            unfold dState
            rw [if_neg (by omega), if_pos (by omega), show 2 * n - n = 0 + n by omega, S_mod_add]
            simp_all
          · refine ⟨2 * n - k, by omega, ?_⟩
            unfold dState
            rw [if_neg (by omega), if_pos (by omega), show 2 * n - (2 * n - k) = k by omega]
            simp_all
      · rintro ⟨i, hi, h⟩
        unfold dState at h
        by_cases hin : i < n
        · rw [if_pos hin] at h
          injection h with h1 h2
          exact Or.inl ⟨h2.symm, i, hin, h1.symm⟩
        · rw [if_neg hin, if_pos hi] at h
          injection h with h1 h2
          refine Or.inr ⟨h2.symm, ?_⟩
          by_cases hi' : i = n
          · refine ⟨0, by omega, ?_⟩
            rw [← h1, show 2 * n - i = 0 + n by omega, S_mod_add]
          · exact ⟨2 * n - i, by omega, h1.symm⟩
    · unfold dState newDihedral
      rw [if_neg (by omega), if_neg (by omega), R_zero]

example : iterRes incDihedral 4 (newDihedral 3) = .ok ⟨[2, 1, 0], .neg⟩ := by decide

/-- With `n = 0` the dihedral and the cyclic iterator read outside the map. -/
theorem C08_zero_letters_undefined :
    incDihedral (newDihedral 0) = .error .ub ∧ incCyclic (newCyclic 0) = .error .ub := by decide

theorem iter_incCyclic {n : Nat} (hn : 1 ≤ n) (i : Nat) :
    iterRes incCyclic i (newCyclic n) = .ok (R n i) := by
  induction i with
  | zero => unfold newCyclic; rw [R_zero]; rfl
  | succ i ih =>
    rw [iterRes, ih, ok_bind]
    unfold incCyclic
    rw [R_length]
    by_cases h1 : n = 1
    · subst h1
      rw [if_pos rfl]
      congr 1
      simp [R, Nat.mod_one]
    · rw [if_neg h1, rotate1_R (by omega)]

/-- **C09.** For every `n ≥ 1`: the values after `0..n-1` calls of `pd_increment_cyclic`
are pairwise different and are exactly the rotations of `0..n-1`; the `n`-th call returns
to the start; `pd_ncyclics` is their number. -/
theorem C09_cyclic_iterator (n : Nat) (hn : 1 ≤ n) :
    ∃ visit : Nat → List Nat,
      (∀ i, iterRes incCyclic i (newCyclic n) = .ok (visit i)) ∧
      (∀ i j, i < j → j < n → visit i ≠ visit j) ∧
      (∀ m, IsRotation n m ↔ ∃ i, i < n ∧ visit i = m) ∧
      visit n = newCyclic n ∧ ncyclics (newCyclic n) = n := by
  refine ⟨R n, fun i => iter_incCyclic hn i, ?_, ?_, ?_, by simp [ncyclics, newCyclic]⟩
  · intro i j hij hj heq
    have := congrArg (fun m : List Nat => m[0]?) heq
    simp only [R_get (show 0 < n by omega), Nat.zero_add, Option.some.injEq] at this
    rw [Nat.mod_eq_of_lt (by omega), Nat.mod_eq_of_lt hj] at this
    omega
  · intro m
    rw [isRotation_iff]
    constructor
    · rintro ⟨k, hk, rfl⟩; exact ⟨k, hk, rfl⟩
    · rintro ⟨k, hk, rfl⟩; exact ⟨k, hk, rfl⟩
  · rw [← R_mod, Nat.mod_self, R_zero]; rfl

example : iterRes incCyclic 2 (newCyclic 5) = .ok [2, 3, 4, 0, 1] := by decide

/-- **C10.** On the two orientations `pd_compose_or` is associative and commutative, has
`+` as unit, every element is its own inverse, and the result is again an orientation;
on anything else it stops the program. The iterator alternates. -/
theorem C10_orientation_group :
    (∀ a b c, orOk a = true → orOk b = true → orOk c = true →
      ∃ d, (composeOr a b >>= fun x => composeOr x c) = .ok d ∧
        (composeOr b c >>= fun x => composeOr a x) = .ok d) ∧
    (∀ a b, composeOr a b = composeOr b a) ∧
    (∀ a, orOk a = true → composeOr .pos a = .ok a ∧ composeOr a a = .ok .pos) ∧
    (∀ a b, (∃ c, composeOr a b = .ok c ∧ orOk c = true) ↔ (orOk a = true ∧ orOk b = true)) ∧
    (∀ a b, ¬ (orOk a = true ∧ orOk b = true) → composeOr a b = .error .die) ∧
    (∀ i, iterRes incOrientation i newOrientation = .ok (if i % 2 = 0 then .pos else .neg)) := by
  refine ⟨?_, ?_, ?_, ?_, ?_, ?_⟩
  · intro a b c; cases a <;> cases b <;> cases c <;> simp [orOk, composeOr]
  · intro a b; cases a <;> cases b <;> rfl
  · intro a; cases a <;> simp [orOk, composeOr]
  · intro a b; cases a <;> cases b <;> simp [orOk, composeOr]
  · intro a b; cases a <;> cases b <;> simp [orOk, composeOr]
  · intro i
    induction i with
    | zero => rfl
    | succ i ih =>
      rw [iterRes, ih, ok_bind]
      rcases Nat.mod_two_eq_zero_or_one i with h | h
      · rw [if_pos h, if_neg (by omega)]; rfl
      · rw [if_neg (by omega), if_pos (by omega)]; rfl

/-- **C11 is false of the code (dihedral).** `pd_dihedral_ok` accepts a map that is no
rotation and one that is no reflection. -/
theorem C11_dihedral_ok_exact_false :
    (dihedralOk ⟨[1, 3, 0, 2], .pos⟩ = true ∧ ¬ IsDihedral 4 ⟨[1, 3, 0, 2], .pos⟩) ∧
    (dihedralOk ⟨[2, 0, 3, 1], .neg⟩ = true ∧ ¬ IsDihedral 4 ⟨[2, 0, 3, 1], .neg⟩) := by
  refine ⟨⟨by decide, ?_⟩, by decide, ?_⟩
  · rintro (⟨_, _, k, hk, h⟩ | ⟨h, _⟩)
    · have h0 := h 0 (by omega)
      have h1 := h 1 (by omega)
      simp at h0 h1
      omega
    · cases h
  · rintro (⟨h, _⟩ | ⟨_, _, k, hk, h⟩)
    · cases h
    · obtain ⟨v0, a0, _, c0⟩ := h 0 (by omega)
      obtain ⟨v1, a1, _, c1⟩ := h 1 (by omega)
      simp at a0 a1
      omega

/-- **C11 is false of the code (cyclic).** -/
theorem C11_cyclic_ok_exact_false :
    cyclicOk [1, 3, 0, 2] = true ∧ ¬ IsRotation 4 [1, 3, 0, 2] := by
  refine ⟨by decide, ?_⟩
  rintro ⟨_, k, hk, h⟩
  have h0 := h 0 (by omega)
  have h1 := h 1 (by omega)
  simp at h0 h1
  omega

theorem R_perm {n : Nat} (k : Nat) (hn : 1 ≤ n) : (R n k).Perm (List.range n) := by
  have hv := PermM.valid_iff (A := R n k)
  rw [R_length] at hv
  rw [hv]
  constructor
  · intro x hx
    simp only [R, List.mem_map, List.mem_range] at hx
    obtain ⟨j, _, rfl⟩ := hx
    exact Nat.mod_lt _ (by omega)
  · rw [List.Nodup, List.pairwise_iff_getElem]
    intro i j hi hj hij heq
    simp only [R, List.getElem_map, List.getElem_range] at heq
    simp at hi hj
    have h1 : (i + k) % n = (j + k) % n := heq
    have h2 : i % n = j % n := Nat.ModEq.add_right_cancel' k h1
    rw [Nat.mod_eq_of_lt hi, Nat.mod_eq_of_lt hj] at h2
    omega

theorem S_perm {n : Nat} (k : Nat) (hn : 1 ≤ n) : (S n k).Perm (List.range n) := by
  have hv := PermM.valid_iff (A := S n k)
  rw [S_length] at hv
  rw [hv]
  constructor
  · intro x hx
    simp only [S, List.mem_map, List.mem_range] at hx
    obtain ⟨j, _, rfl⟩ := hx
    exact Nat.mod_lt _ (by omega)
  · rw [List.Nodup, List.pairwise_iff_getElem]
    intro i j hi hj hij heq
    simp only [S, List.getElem_map, List.getElem_range] at heq
    simp at hi hj
    have h1 : (k + (n - i)) % n = (k + (n - j)) % n := heq
    have h2 : (n - i) % n = (n - j) % n := Nat.ModEq.add_left_cancel' k h1
    rw [Nat.mod_eq_of_lt (show n - j < n by omega)] at h2
    by_cases h0 : i = 0
    · subst h0; rw [Nat.sub_zero, Nat.mod_self] at h2; omega
    · rw [Nat.mod_eq_of_lt (by omega)] at h2; omega

theorem goesUp_iff (n : Nat) : ∀ (m : List Nat), goesUp n m = true ↔
    ∀ j a b, m[j]? = some a → m[j+1]? = some b → (a < b ∨ (a = n - 1 ∧ b = 0))
  | [] => by simp [goesUp]
  | [x] => by simp [goesUp]
  | x :: y :: m => by
    rw [goesUp, Bool.and_eq_true, goesUp_iff n (y :: m)]
    constructor
    · rintro ⟨h1, h2⟩ j a b ha hb
      cases j with
      | zero =>
        simp at ha hb
        subst ha hb
        simp only [Bool.not_eq_true', Bool.and_eq_false_iff, Bool.not_eq_false',
          Bool.and_eq_true, decide_eq_true_eq, decide_eq_false_iff_not] at h1
        omega
      | succ j => exact h2 j a b (by simpa using ha) (by simpa using hb)
    · intro h
      refine ⟨?_, fun j a b ha hb => h (j+1) a b (by simpa using ha) (by simpa using hb)⟩
      have := h 0 x y (by simp) (by simp)
      simp only [Bool.not_eq_true', Bool.and_eq_false_iff, Bool.not_eq_false',
        Bool.and_eq_true, decide_eq_true_eq, decide_eq_false_iff_not]
      omega

theorem goesDown_iff (n : Nat) : ∀ (m : List Nat), goesDown n m = true ↔
    ∀ j a b, m[j]? = some a → m[j+1]? = some b → (b < a ∨ (a = 0 ∧ b = n - 1))
  | [] => by simp [goesDown]
  | [x] => by simp [goesDown]
  | x :: y :: m => by
    rw [goesDown, Bool.and_eq_true, goesDown_iff n (y :: m)]
    constructor
    · rintro ⟨h1, h2⟩ j a b ha hb
      cases j with
      | zero =>
        simp at ha hb
        subst ha hb
        simp only [Bool.not_eq_true', Bool.and_eq_false_iff, Bool.not_eq_false',
          Bool.and_eq_true, decide_eq_true_eq, decide_eq_false_iff_not] at h1
        omega
      | succ j => exact h2 j a b (by simpa using ha) (by simpa using hb)
    · intro h
      refine ⟨?_, fun j a b ha hb => h (j+1) a b (by simpa using ha) (by simpa using hb)⟩
      have := h 0 x y (by simp) (by simp)
      simp only [Bool.not_eq_true', Bool.and_eq_false_iff, Bool.not_eq_false',
        Bool.and_eq_true, decide_eq_true_eq, decide_eq_false_iff_not]
      omega

theorem cyclicOk_R {n : Nat} (hn : 1 ≤ n) (k : Nat) : cyclicOk (R n k) = true := by
  have hp := R_perm k hn
  rw [show List.range n = List.range (R n k).length by simp] at hp
  have hv := PermM.valid_iff.mp hp
  unfold cyclicOk
  rw [Bool.and_eq_true, Bool.and_eq_true, PermM.allBelow_iff, PermM.noRepeat_iff]
  refine ⟨hv, ?_⟩
  rw [R_length, goesUp_iff]
  intro j a b ha hb
  have hj : j + 1 < n := by
    by_contra h
    rw [List.getElem?_eq_none (by simp; omega)] at hb
    simp at hb
  rw [R_get (by omega)] at ha
  rw [R_get hj] at hb
  have ha := Option.some.inj ha
  have hb := Option.some.inj hb
  rw [show j + 1 + k = j + k + 1 by omega] at hb
  have hlt := Nat.mod_lt (j + k) (show 0 < n by omega)
  rw [ha] at hlt
  rw [← Nat.mod_add_mod, ha] at hb
  by_cases h : a + 1 < n
  · rw [Nat.mod_eq_of_lt h] at hb; omega
  · have : a + 1 = n := by omega
    rw [this, Nat.mod_self] at hb; omega

/-- **C11 (what holds).** Full claim: the checkers accept exactly the group elements.
Proved part: everything accepted is a bijection of `0..n-1`, and every group element
(hence everything the iterators produce, by C08 and C09) is accepted. Missing: that
nothing else is accepted, which is false, see `C11_dihedral_ok_exact_false`. -/
theorem C11_checkers_partial (n : Nat) (hn : 1 ≤ n) :
    (∀ d, dihedralOk d = true → d.map.Perm (List.range d.map.length) ∧ d.orient ≠ .unset) ∧
    (∀ m, cyclicOk m = true → m.Perm (List.range m.length)) ∧
    (∀ d, IsDihedral n d → dihedralOk d = true) ∧
    (∀ m, IsRotation n m → cyclicOk m = true) := by
  refine ⟨?_, ?_, ?_, ?_⟩
  · intro d h
    unfold dihedralOk at h
    rw [Bool.and_eq_true, Bool.and_eq_true, PermM.allBelow_iff, PermM.noRepeat_iff] at h
    refine ⟨PermM.valid_iff.mpr h.1, fun h' => ?_⟩
    rw [h'] at h
    simp at h
  · intro m h
    unfold cyclicOk at h
    rw [Bool.and_eq_true, Bool.and_eq_true, PermM.allBelow_iff, PermM.noRepeat_iff] at h
    exact PermM.valid_iff.mpr h.1
  · rintro ⟨m, o⟩ (⟨h, h'⟩ | ⟨h, h'⟩)
    · simp only at h h'
      subst h
      obtain ⟨k, _, rfl⟩ := isRotation_iff.mp h'
      have := cyclicOk_R hn k
      unfold cyclicOk at this
      exact this
    · simp only at h h'
      subst h
      obtain ⟨k, hk, rfl⟩ := isReflection_iff.mp h'
      have hp := S_perm k hn
      rw [show List.range n = List.range (S n k).length by simp] at hp
      unfold dihedralOk
      simp only [Bool.and_eq_true, PermM.allBelow_iff, PermM.noRepeat_iff]
      refine ⟨PermM.valid_iff.mp hp, ?_⟩
      rw [S_length, goesDown_iff]
      intro j a b ha hb
      have hj : j + 1 < n := by
        by_contra h
        rw [List.getElem?_eq_none (by simp; omega)] at hb
        simp at hb
      rw [S_get (by omega)] at ha
      rw [S_get hj] at hb
      have ha := Option.some.inj ha
      have hb := Option.some.inj hb
      rw [show k + (n - j) = k + (n - (j + 1)) + 1 by omega, ← Nat.mod_add_mod, hb] at ha
      have hlt := Nat.mod_lt (k + (n - (j+1))) (show 0 < n by omega)
      rw [hb] at hlt
      by_cases h : b + 1 < n
      · rw [Nat.mod_eq_of_lt h] at ha; omega
      · have : b + 1 = n := by omega
        rw [this, Nat.mod_self] at ha; omega
  · intro m h
    obtain ⟨k, _, rfl⟩ := isRotation_iff.mp h
    exact cyclicOk_R hn k

example : IsDihedral 3 ⟨[2, 1, 0], .neg⟩ :=
  Or.inr ⟨rfl, rfl, 2, by omega, by decide⟩

end Plc.Iters
