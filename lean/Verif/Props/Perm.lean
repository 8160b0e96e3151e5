import Verif.Model.Perm
import Verif.Spec.Iter
import Verif.Proofs.PermGroup
import Mathlib.Tactic.IntervalCases

/-! # Properties C05-C07: permutations (`src/pd_perm.c`) -/

namespace Plc.PermM

open List

/-- **C05.** For every `n ≥ 1`: the maps seen after `0, 1, ..., n!-1` calls of
`pd_increment_perm` on a new perm are strictly increasing in lexicographic order (so
pairwise different), they are exactly the permutations of `0..n-1`, and after `n!` calls
the perm is again the new one. No call faults. -/
theorem C05_perm_iterator (n : Nat) (hn : 1 ≤ n) :
    ∃ visit : Nat → Perm, (∀ i, iterRes incPerm i (newPerm n) = .ok (visit i)) ∧
      (∀ i j, i < j → j < n.factorial → (visit i).map < (visit j).map) ∧
      (∀ q : List Nat, q ~ List.range n ↔ ∃ i, i < n.factorial ∧ (visit i).map = q) ∧
      visit n.factorial = newPerm n := by
  have hmap : ∀ i, i < n.factorial → (stateAt n i).map = nth n i := by
    intro i hi
    unfold stateAt
    rw [Nat.mod_eq_of_lt hi]
    split <;> rfl
  refine ⟨stateAt n, fun i => iter_incPerm hn i, ?_, ?_, ?_⟩
  · intro i j hij hj
    rw [hmap i (by omega), hmap j hj]
    exact nth_lt hn hij hj
  · intro q
    constructor
    · intro h
      obtain ⟨i, hi, h⟩ := nth_surj hn h
      exact ⟨i, hi, by rw [hmap i hi, h]⟩
    · rintro ⟨i, hi, rfl⟩
      rw [hmap i hi]
      exact mem_allPerms.mp ((nth_enum hn).1 i hi).1
  · rw [newPerm_stateAt]
    unfold stateAt
    simp

/-- An instance beyond the precomputed tables: the first step on seven letters. -/
example : incPerm (newPerm 7) = .ok ⟨[0, 1, 2, 3, 4, 6, 5], 0⟩ := by decide

/-- **C05, count.** `pd_nperms` is `n!` as long as `n!` fits in 32 bits. -/
theorem C05_nperms (p : Perm) (hn : 1 ≤ p.n) (h12 : p.n ≤ 12) :
    nperms p = .ok p.n.factorial := by
  unfold nperms
  split
  · rename_i h
    exact rd_ok (nPc_fact _ (by unfold MAX_PC at h; omega) (by omega))
  · rw [factLoop_eq, Nat.mod_eq_of_lt]
    calc p.n.factorial ≤ (12).factorial := Nat.factorial_le h12
      _ < 2 ^ 32 := by decide

/-- From 13 letters on the count wraps around. -/
theorem C05_nperms_wraps : nperms (newPerm 13) = .ok 1932053504 ∧
    (13).factorial = 6227020800 := by
  constructor
  · unfold nperms
    rw [if_neg (by simp [Perm.n, newPerm, MAX_PC]), factLoop_eq]
    simp [Perm.n, newPerm, Nat.factorial]
  · decide

/-- A perm over no letters: `pd_increment_perm` computes `% 0`. -/
theorem C05_zero_letters_undefined : incPerm (newPerm 0) = .error .ub := by decide

/-- The map of a perm is a bijection of `0..n-1`. -/
def IsPermutation (p : Perm) : Prop := p.map ~ List.range p.n

instance (p : Perm) : Decidable (IsPermutation p) := by unfold IsPermutation; infer_instance

/-- **C06, composition.** The composite is a permutation and is `x ↦ A(B(x))`. -/
theorem C06_compose (bs : BSearch) (A B : Perm) (hA : IsPermutation A) (hB : IsPermutation B)
    (hn : A.n = B.n) (h1 : 1 ≤ A.n) :
    ∃ C, compose bs A B = .ok C ∧ IsPermutation C ∧ C.n = A.n ∧
      ∀ (i b : Nat), B.map[i]? = some b → C.map[i]? = A.map[b]? := by
  unfold IsPermutation Perm.n at *
  have hBlt : ∀ x ∈ B.map, x < A.map.length := fun x hx => by rw [hn]; exact valid_lt hB hx
  have hv := compose_valid hA hB hn
  have hlen : (B.map.map (ap A.map)).length = A.map.length := by simp [hn]
  rw [← hlen] at hv
  obtain ⟨C, e1, e2, _⟩ := regenPc_spec bs hv (by omega)
  refine ⟨C, ?_, ?_, ?_, ?_⟩
  · unfold compose
    rw [assertC_ok (by simp [Perm.n, hn]), composeMap_ok hBlt]
    exact e1
  · rw [e2]; exact hv
  · rw [e2, hlen]
  · intro i b hb
    rw [e2, List.getElem?_map, hb]
    have := hBlt b (List.mem_of_getElem? hb)
    rw [List.getElem?_eq_getElem this, Option.map_some, ap_lt this]

/-- **C06, associativity**, including the cached index. -/
theorem C06_compose_assoc (bs : BSearch) (A B C : Perm) (hA : IsPermutation A)
    (hB : IsPermutation B) (hC : IsPermutation C) (hAB : A.n = B.n) (hBC : B.n = C.n)
    (h1 : 1 ≤ A.n) :
    ∃ D, (compose bs A B >>= fun X => compose bs X C) = .ok D ∧
      (compose bs B C >>= fun X => compose bs A X) = .ok D := by
  obtain ⟨X, x1, x2, x3, x4⟩ := C06_compose bs A B hA hB hAB h1
  obtain ⟨Y, y1, y2, y3, y4⟩ := C06_compose bs B C hB hC hBC (by omega)
  obtain ⟨D, d1, d2, d3, d4⟩ := C06_compose bs X C x2 hC (by omega) (by omega)
  refine ⟨D, by rw [x1]; exact d1, ?_⟩
  rw [y1, ok_bind, ← d1]
  unfold compose
  rw [assertC_ok (by simp; omega), assertC_ok (by simp; omega), ok_bind, ok_bind]
  unfold IsPermutation Perm.n at *
  rw [composeMap_ok (fun x hx => by have := valid_lt y2 hx; omega),
    composeMap_ok (fun x hx => by have := valid_lt hC hx; omega)]
  have hX : X.map = B.map.map (ap A.map) := by
    apply List.ext_getElem?
    intro i
    rw [List.getElem?_map]
    cases hb : B.map[i]? with
    | none =>
      have := List.getElem?_eq_none_iff.mp hb
      exact List.getElem?_eq_none (by omega)
    | some b =>
      have := valid_lt hB (List.mem_of_getElem? hb)
      rw [x4 i b hb, List.getElem?_eq_getElem (by omega), Option.map_some, ap_lt (by omega)]
  have hY : Y.map = C.map.map (ap B.map) := by
    apply List.ext_getElem?
    intro i
    rw [List.getElem?_map]
    cases hb : C.map[i]? with
    | none =>
      have := List.getElem?_eq_none_iff.mp hb
      exact List.getElem?_eq_none (by omega)
    | some b =>
      have := valid_lt hC (List.mem_of_getElem? hb)
      rw [y4 i b hb, List.getElem?_eq_getElem (by omega), Option.map_some, ap_lt (by omega)]
  rw [hX, hY, compose_assoc_map (fun x hx => by have := valid_lt hC hx; omega)]

/-- **C06, unit.** Composing with a new perm on either side leaves the map alone. -/
theorem C06_compose_unit (bs : BSearch) (A : Perm) (hA : IsPermutation A) (h1 : 1 ≤ A.n) :
    (∃ C, compose bs A (newPerm A.n) = .ok C ∧ C.map = A.map) ∧
    (∃ C, compose bs (newPerm A.n) A = .ok C ∧ C.map = A.map) := by
  have hI : IsPermutation (newPerm A.n) := by simp [IsPermutation, newPerm, Perm.n]
  have hIn : (newPerm A.n).n = A.n := by simp [newPerm, Perm.n]
  obtain ⟨C, c1, c2, c3, c4⟩ := C06_compose bs A (newPerm A.n) hA hI hIn.symm h1
  obtain ⟨D, d1, d2, d3, d4⟩ := C06_compose bs (newPerm A.n) A hI hA hIn (by omega)
  refine ⟨⟨C, c1, ?_⟩, ⟨D, d1, ?_⟩⟩
  · apply List.ext_getElem?
    intro i
    by_cases hi : i < A.n
    · exact c4 i i (by simp [newPerm, hi])
    · unfold Perm.n at *
      rw [List.getElem?_eq_none (by omega), List.getElem?_eq_none (by omega)]
  · apply List.ext_getElem?
    intro i
    by_cases hi : i < A.n
    · have hi' : i < A.map.length := hi
      have := valid_lt hA (List.getElem_mem hi')
      rw [d4 i A.map[i] (List.getElem?_eq_getElem hi'), List.getElem?_eq_getElem hi']
      simp [newPerm, Perm.n, this]
    · unfold Perm.n at *
      rw [List.getElem?_eq_none (by omega), List.getElem?_eq_none (by omega)]

/-- **C06, inverse.** `pd_inverse_perm` gives a permutation that undoes `A` on both
sides. -/
theorem C06_inverse (bs : BSearch) (A : Perm) (hA : IsPermutation A) (h1 : 1 ≤ A.n) :
    ∃ B, inverse bs A = .ok B ∧ IsPermutation B ∧ B.n = A.n ∧
      (∃ C, compose bs A B = .ok C ∧ C.map = List.range A.n) ∧
      (∃ C, compose bs B A = .ok C ∧ C.map = List.range A.n) := by
  obtain ⟨m, m1, m2, m3, m4, m5⟩ := invLoop_inverse hA
  have hv : m ~ List.range m.length := by rw [m2]; exact m5
  have hAl : 1 ≤ A.map.length := h1
  obtain ⟨B, b1, b2, _⟩ := regenPc_spec bs hv (by omega)
  have hB : IsPermutation B := by unfold IsPermutation Perm.n; rw [b2]; exact hv
  have hBn : B.n = A.n := by unfold Perm.n; rw [b2, m2]
  obtain ⟨C, c1, c2, c3, c4⟩ := C06_compose bs A B hA hB hBn.symm h1
  obtain ⟨D, d1, d2, d3, d4⟩ := C06_compose bs B A hB hA hBn (by omega)
  refine ⟨B, ?_, hB, hBn, ⟨C, c1, ?_⟩, ⟨D, d1, ?_⟩⟩
  · unfold inverse Perm.n
    rw [m1]; exact b1
  · apply List.ext_getElem?
    intro i
    by_cases hi : i < A.map.length
    · have him : i < m.length := by omega
      have hlt : m[i] < A.map.length := by
        have := valid_lt hv (List.getElem_mem him); omega
      rw [c4 i m[i] (by rw [b2, List.getElem?_eq_getElem him]), List.getElem?_eq_getElem hlt]
      have := m4 i hi
      rw [ap_lt him, ap_lt hlt] at this
      simp [this, Perm.n, hi]
    · unfold Perm.n at *
      rw [List.getElem?_eq_none (by omega), List.getElem?_eq_none (by simp; omega)]
  · apply List.ext_getElem?
    intro i
    by_cases hi : i < A.map.length
    · have hlt : A.map[i] < m.length := by
        have := valid_lt hA (List.getElem_mem hi); unfold Perm.n at this; omega
      rw [d4 i A.map[i] (List.getElem?_eq_getElem hi), b2, List.getElem?_eq_getElem hlt]
      have := m3 i hi
      rw [ap_lt hi, ap_lt hlt] at this
      simp [this, Perm.n, hi]
    · unfold Perm.n at *
      rw [List.getElem?_eq_none (by omega), List.getElem?_eq_none (by simp; omega)]

example : IsPermutation ⟨[2, 0, 1], 4⟩ ∧ 1 ≤ Perm.n ⟨[2, 0, 1], 4⟩ := by decide

/-- `A(x)`; letters outside `0..n-1` stay put. -/
def Perm.apply (A : Perm) (x : Nat) : Nat := A.map.getD x x

/-- `A` applied `k` times returns every letter to itself. -/
def FixesAllAfter (A : Perm) (k : Nat) : Prop :=
  ∀ i, i < A.n → A.apply^[k] i = i

/-- **C06, period (what the code computes).** `pd_perm_period` returns the least
positive `k` with `A^k = e` if that is below 10000. Full claim: it always returns the
least such `k`. Missing: periods of 10000 and more, where the failsafe assertion stops
the program, see `C06_period_failsafe`. -/
theorem C06_period_partial (A : Perm) (hA : IsPermutation A) (k : Nat) (hk : 0 < k)
    (hfix : FixesAllAfter A k) (hleast : ∀ j, 0 < j → j < k → ¬ FixesAllAfter A j)
    (hsmall : k < 10000) : period A = .ok k := by
  obtain ⟨p, p1, p2, p3, p4, p5⟩ := periodLoop_spec (fun x hx => valid_lt hA hx) 9999 A 1
    ⟨rfl, fun i _ => rfl⟩
  have hpk : p ≤ k := by
    by_contra h
    exact p4 k hk (by omega) hfix
  have : p = k := by
    by_contra h
    exact hleast p (by omega) (by omega) (p5 (by omega))
  subst this
  unfold period
  rw [p1, ok_bind, assertC_ok (by simpa using hsmall)]
  rfl

example : FixesAllAfter ⟨[2, 0, 1], 4⟩ 3 ∧
    ∀ j, 0 < j → j < 3 → ¬ FixesAllAfter ⟨[2, 0, 1], 4⟩ j := by
  constructor
  · intro i hi
    have : i < 3 := hi
    interval_cases i <;> rfl
  · intro j h1 h2 h
    have := h 0 (by decide)
    interval_cases j <;> revert this <;> decide

/-- **C06, period failsafe.** If no power below 10000 is the identity, the call stops
with a failed assertion; so it never returns a wrong period. -/
theorem C06_period_failsafe (A : Perm) (hA : IsPermutation A)
    (hlong : ∀ j, 0 < j → j < 10000 → ¬ FixesAllAfter A j) : period A = .error .die := by
  obtain ⟨p, p1, p2, p3, p4, p5⟩ := periodLoop_spec (fun x hx => valid_lt hA hx) 9999 A 1
    ⟨rfl, fun i _ => rfl⟩
  have : p = 10000 := by
    by_contra h
    exact hlong p (by omega) (by omega) (p5 (by omega))
  subst this
  unfold period
  rw [p1, ok_bind]
  rfl

/-- Cycles of lengths 2, 3, 5, 7, 11 and 13 on 41 letters. -/
def longPerm : Perm :=
  ⟨[1, 0, 3, 4, 2, 6, 7, 8, 9, 5, 11, 12, 13, 14, 15, 16, 10,
    18, 19, 20, 21, 22, 23, 24, 25, 26, 27, 17,
    29, 30, 31, 32, 33, 34, 35, 36, 37, 38, 39, 40, 28], 0⟩

theorem longPerm_cycle (s L : Nat) (hL : 0 < L)
    (hc : ∀ r, r < L → longPerm.apply (s + r) = s + (r + 1) % L) (k : Nat) :
    longPerm.apply^[k] s = s + k % L := by
  induction k with
  | zero => simp
  | succ k ih =>
    rw [Function.iterate_succ_apply', ih, hc _ (Nat.mod_lt _ hL)]
    simp [Nat.add_mod]

theorem no_small_multiple {j : Nat} (h0 : 0 < j) (h : j < 10000) (h2 : j % 2 = 0)
    (h3 : j % 3 = 0) (h5 : j % 5 = 0) (h7 : j % 7 = 0) (h11 : j % 11 = 0) (h13 : j % 13 = 0) :
    False := by
  have e6 : j % 6 = 0 := by clear h5 h7 h11 h13; omega
  have e30 : j % 30 = 0 := by clear h2 h3 h7 h11 h13; omega
  have e210 : j % 210 = 0 := by clear h2 h3 h5 h11 h13 e6; omega
  have e2310 : j % 2310 = 0 := by clear h2 h3 h5 h7 h13 e6 e30; omega
  clear h2 h3 h5 h7 h11 e6 e30 e210
  omega

/-- **C06: the unrestricted period claim is false of the code.** There is a permutation
(of 41 letters, order 30030) on which `pd_perm_period` stops with a failed assertion. -/
theorem C06_period_unrestricted_false :
    IsPermutation longPerm ∧ FixesAllAfter longPerm 30030 ∧ period longPerm = .error .die := by
  have hp : IsPermutation longPerm := by decide
  have c2 := longPerm_cycle 0 2 (by decide) (by decide)
  have c3 := longPerm_cycle 2 3 (by decide) (by decide)
  have c5 := longPerm_cycle 5 5 (by decide) (by decide)
  have c7 := longPerm_cycle 10 7 (by decide) (by decide)
  have c11 := longPerm_cycle 17 11 (by decide) (by decide)
  have c13 := longPerm_cycle 28 13 (by decide) (by decide)
  refine ⟨hp, ?_, ?_⟩
  · have key : ∀ s L, 0 < L → 30030 % L = 0 →
        (∀ r, r < L → longPerm.apply (s + r) = s + (r + 1) % L) →
        ∀ r, r < L → longPerm.apply^[30030] (s + r) = s + r := by
      intro s L hL hd hc r hr
      have h1 := longPerm_cycle s L hL hc r
      rw [Nat.mod_eq_of_lt hr] at h1
      rw [← h1, ← Function.iterate_add_apply, longPerm_cycle s L hL hc]
      rw [Nat.add_mod, hd, longPerm_cycle s L hL hc]
      simp
    intro i hi
    have hi41 : i < 41 := hi
    rcases Nat.lt_or_ge i 2 with h | h
    · have := key 0 2 (by decide) (by decide) (by decide) i h
      rwa [Nat.zero_add] at this
    rcases Nat.lt_or_ge i 5 with h | h
    · have := key 2 3 (by decide) (by decide) (by decide) (i - 2) (by omega)
      rwa [show 2 + (i - 2) = i by omega] at this
    rcases Nat.lt_or_ge i 10 with h | h
    · have := key 5 5 (by decide) (by decide) (by decide) (i - 5) (by omega)
      rwa [show 5 + (i - 5) = i by omega] at this
    rcases Nat.lt_or_ge i 17 with h | h
    · have := key 10 7 (by decide) (by decide) (by decide) (i - 10) (by omega)
      rwa [show 10 + (i - 10) = i by omega] at this
    rcases Nat.lt_or_ge i 28 with h | h
    · have := key 17 11 (by decide) (by decide) (by decide) (i - 17) (by omega)
      rwa [show 17 + (i - 17) = i by omega] at this
    · have := key 28 13 (by decide) (by decide) (by decide) (i - 28) (by omega)
      rwa [show 28 + (i - 28) = i by omega] at this
  · apply C06_period_failsafe _ hp
    intro j hj hj2 h
    have d2 : longPerm.apply^[j] 0 = 0 := h 0 (by decide)
    have d3 : longPerm.apply^[j] 2 = 2 := h 2 (by decide)
    have d5 : longPerm.apply^[j] 5 = 5 := h 5 (by decide)
    have d7 : longPerm.apply^[j] 10 = 10 := h 10 (by decide)
    have d11 : longPerm.apply^[j] 17 = 17 := h 17 (by decide)
    have d13 : longPerm.apply^[j] 28 = 28 := h 28 (by decide)
    rw [c2] at d2
    rw [c3] at d3
    rw [c5] at d5
    rw [c7] at d7
    rw [c11] at d11
    rw [c13] at d13
    exact no_small_multiple hj hj2 (Nat.add_left_cancel d2) (Nat.add_left_cancel d3)
      (Nat.add_left_cancel d5) (Nat.add_left_cancel d7) (Nat.add_left_cancel d11)
      (Nat.add_left_cancel d13)

/-- **C07.** For `1 ≤ n` and a cached index different from the (out of range) value
`n!`, `pd_perm_ok` answers true exactly when the map is a bijection of `0..n-1` and, for
`n ≤ 6`, the cached index is the number of permutations before it in lexicographic
order. -/
theorem C07_perm_ok_exact (p : Perm) (h1 : 1 ≤ p.n)
    (hpc : p.n ≤ 6 → p.pc ≠ p.n.factorial) :
    ∃ b, permOk p = .ok b ∧ (b = true ↔ (p.map ~ List.range p.n ∧
      (p.n ≤ 6 → ((List.range p.n).permutations.filter (fun q => decide (q < p.map))).length
        = p.pc))) := by
  have hbasic : (allBelow p.map && noRepeat p.map) = true ↔ p.map ~ List.range p.n := by
    unfold Perm.n
    rw [Bool.and_eq_true, allBelow_iff, noRepeat_iff, valid_iff]
  have hrank : ∀ i, i < p.n.factorial →
      ((List.range p.n).permutations.filter (fun q => decide (q < nth p.n i))).length = i := by
    intro i hi
    have h := ((nth_enum h1).1 i hi).2
    have hnd : ((List.range p.n).permutations.filter
        (fun q => decide (q < nth p.n i))).Nodup :=
      ((List.nodup_permutations_iff).mpr List.nodup_range).filter _
    rw [← List.toFinset_card_of_nodup hnd, List.toFinset_filter]
    simpa [allPerms] using h
  unfold permOk
  by_cases h6 : p.n ≤ MAX_PC
  · have h6' : p.n ≤ 6 := h6
    rw [if_pos h6, rd_ok (nPc_fact _ (by omega) (by omega))]
    simp only [ok_bind]
    by_cases hgt : p.pc > p.n.factorial
    · rw [if_pos hgt]
      refine ⟨false, rfl, ?_⟩
      simp only [Bool.false_eq_true, false_iff]
      rintro ⟨_, h⟩
      have h := h h6'
      have := List.length_filter_le (fun q => decide (q < p.map)) (List.range p.n).permutations
      rw [h, List.length_permutations, List.length_range] at this
      omega
    · rw [if_neg hgt, if_neg (by omega)]
      have hlt : p.pc < p.n.factorial := by have := hpc h6'; omega
      obtain ⟨t, t1, t2, t3⟩ := table_spec h1 h6'
      rw [rd_ok t1, ok_bind, rd_ok (t3 _ hlt), ok_bind]
      have hrow : ∀ (m row : List Nat), m.length = row.length → ∀ r i, i + r = m.length →
          rowEq m row r i = .ok (decide (m.drop i = row.drop i)) := by
        intro m row hl r
        induction r with
        | zero =>
          intro i hi
          rw [rowEq, List.drop_eq_nil_of_le (by omega), List.drop_eq_nil_of_le (by omega)]
          simp
        | succ r ih =>
          intro i hi
          rw [rowEq, rd_lt (by omega : i < m.length), rd_lt (by omega : i < row.length),
            ok_bind, ok_bind, List.drop_eq_getElem_cons (by omega : i < m.length),
            List.drop_eq_getElem_cons (by omega : i < row.length)]
          by_cases he : m[i] = row[i]
          · rw [if_pos he, ih (i+1) (by omega)]
            simp only [List.cons.injEq, he, true_and]
          · rw [if_neg he]
            simp only [List.cons.injEq, he, false_and, decide_false]
      have hl := nth_length h1 hlt
      rw [hrow p.map (nth p.n p.pc) (by rw [hl]; rfl) p.n 0 (by unfold Perm.n; omega)]
      simp only [List.drop_zero, ok_bind]
      by_cases he : p.map = nth p.n p.pc
      · refine ⟨_, by rw [if_pos (by simpa using he)], ?_⟩
        rw [hbasic]
        constructor
        · intro h
          refine ⟨h, fun _ => ?_⟩
          rw [he]
          exact hrank _ hlt
        · rintro ⟨h, _⟩; exact h
      · refine ⟨false, by rw [if_neg (by simpa using he)], ?_⟩
        simp only [Bool.false_eq_true, false_iff]
        rintro ⟨h, h'⟩
        obtain ⟨i, hi, hi'⟩ := nth_surj h1 h
        have h' := h' h6'
        rw [← hi', hrank i hi] at h'
        subst h'
        exact he hi'.symm
  · rw [if_neg h6]
    refine ⟨_, rfl, ?_⟩
    rw [hbasic]
    constructor
    · intro h; exact ⟨h, fun h' => absurd h' h6⟩
    · rintro ⟨h, _⟩; exact h

example : 1 ≤ Perm.n ⟨[2, 0, 1], 4⟩ ∧ (Perm.n ⟨[2, 0, 1], 4⟩ ≤ 6 → 4 ≠ (Perm.n ⟨[2, 0, 1], 4⟩).factorial) ∧
    permOk ⟨[2, 0, 1], 4⟩ = .ok true ∧ permOk ⟨[2, 0, 1], 3⟩ = .ok false := by decide

/-- **C07, the excluded point.** The range check is `pc_idx > n!` where `≥` is needed:
for `1 ≤ n ≤ 6` and cached index exactly `n!` the checker reads past the end of the
precomputed table. -/
theorem C07_perm_ok_reads_past_table (m : List Nat) (h1 : 1 ≤ m.length) (h6 : m.length ≤ 6) :
    permOk ⟨m, m.length.factorial⟩ = .error .ub := by
  obtain ⟨t, t1, t2, t3⟩ := table_spec h1 h6
  have h6' : m.length ≤ MAX_PC := h6
  unfold permOk Perm.n
  simp only [if_pos h6', rd_ok (nPc_fact _ (by omega : m.length < 7) (by omega)), ok_bind]
  rw [if_neg (by omega), if_neg (by omega), rd_ok t1, ok_bind]
  have : rd t m.length.factorial = .error .ub := by
    unfold rd
    rw [List.getElem?_eq_none (by omega)]
  rw [this]
  rfl

/-- **C06/C07.** Composites and inverses pass `pd_perm_ok`. -/
theorem C06_results_ok (bs : BSearch) (A B : Perm) (hA : IsPermutation A)
    (hB : IsPermutation B) (hn : A.n = B.n) (h1 : 1 ≤ A.n) :
    (∃ C, compose bs A B = .ok C ∧ permOk C = .ok true) ∧
    (∃ C, inverse bs A = .ok C ∧ permOk C = .ok true) := by
  have main : ∀ m : List Nat, m ~ List.range m.length → 1 ≤ m.length →
      ∃ C, regenPc bs m = .ok C ∧ permOk C = .ok true := by
    intro m hm hm1
    obtain ⟨C, c1, c2, c3, c4⟩ := regenPc_spec bs hm hm1
    refine ⟨C, c1, ?_⟩
    have hCn : C.n = m.length := by unfold Perm.n; rw [c2]
    obtain ⟨b, b1, b2⟩ := C07_perm_ok_exact C (by omega)
      (fun h => by rw [hCn] at h ⊢; have := (c3 h).1; omega)
    rw [b1]
    congr 1
    rw [b2]
    refine ⟨by rw [hCn, c2]; exact hm, fun h => ?_⟩
    rw [hCn] at h ⊢
    have h4 := (nth_enum hm1).1 _ (c3 h).1
    rw [(c3 h).2] at h4
    rw [c2]
    have hnd : ((List.range m.length).permutations.filter (fun q => decide (q < m))).Nodup :=
      ((List.nodup_permutations_iff).mpr List.nodup_range).filter _
    rw [← List.toFinset_card_of_nodup hnd, List.toFinset_filter]
    simpa [allPerms] using h4.2
  constructor
  · have hv := compose_valid hA hB hn
    unfold Perm.n at *
    have hlen : (B.map.map (ap A.map)).length = A.map.length := by simp [hn]
    rw [← hlen] at hv
    obtain ⟨C, c1, c2⟩ := main _ hv (by omega)
    refine ⟨C, ?_, c2⟩
    unfold compose
    rw [assertC_ok (by simp [Perm.n, hn]),
      composeMap_ok (fun x hx => by rw [hn]; exact valid_lt hB hx)]
    exact c1
  · obtain ⟨m, m1, m2, m3, m4, m5⟩ := invLoop_inverse hA
    unfold Perm.n at *
    obtain ⟨C, c1, c2⟩ := main m (by rw [m2]; exact m5) (by omega)
    refine ⟨C, ?_, c2⟩
    unfold inverse Perm.n
    rw [m1]; exact c1

end Plc.PermM
