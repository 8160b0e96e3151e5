import Verif.Model.Hypersimplex
import Verif.Props.Kascent
import Mathlib.Algebra.BigOperators.Group.List.Basic
import Mathlib.Algebra.Order.BigOperators.Group.List
import Mathlib.Tactic.FieldSimp

namespace Plc.Hyper

variable {K : Type} [Field K] [LinearOrder K] [IsStrictOrderedRing K]

/-- Number of places `j < m` with `y[j] ≥ y[j+1]`. -/
def drops (y : List K) (m : Nat) : Nat :=
  ((List.range m).filter fun j => decide (y.getD (j + 1) 0 ≤ y.getD j 0)).length

theorem drops_succ (y : List K) (m : Nat) :
    drops y (m + 1) = drops y m + (if y.getD (m + 1) 0 ≤ y.getD m 0 then 1 else 0) := by
  unfold drops
  rw [List.range_succ, List.filter_append, List.length_append]
  by_cases h : y.getD (m + 1) 0 ≤ y.getD m 0
  · rw [if_pos h, List.filter_cons_of_pos (by simpa using h)]; rfl
  · rw [if_neg h, List.filter_cons_of_neg (by simpa using h)]; rfl

theorem getD_of_lt {α : Type} (l : List α) (d : α) {i : Nat} (h : i < l.length) : l.getD i d = l[i] := by
  simp [List.getD, h]

theorem psiLoop_ok (y : List K) : ∀ (todo i : Nat) (x : List K), 1 ≤ i → i + todo ≤ y.length → x.length = i →
    (∀ m, m < i → (x.take (m + 1)).sum = y.getD m 0 + (drops y m : K)) →
    (∀ m, m < i → x.getD m 0 = if m = 0 then y.getD 0 0 else if y.getD (m - 1) 0 < y.getD m 0 then
      y.getD m 0 - y.getD (m - 1) 0 else y.getD m 0 - y.getD (m - 1) 0 + 1) →
    ∃ x', psiLoop y todo i x = .ok x' ∧ x'.length = i + todo ∧
      (∀ m, m < i + todo → (x'.take (m + 1)).sum = y.getD m 0 + (drops y m : K)) ∧
      (∀ m, m < i + todo → x'.getD m 0 = if m = 0 then y.getD 0 0 else if y.getD (m - 1) 0 < y.getD m 0 then
        y.getD m 0 - y.getD (m - 1) 0 else y.getD m 0 - y.getD (m - 1) 0 + 1) := by
  intro todo
  induction todo with
  | zero => intro i x _ _ hx h1 h2; exact ⟨x, rfl, hx, h1, h2⟩
  | succ t ih =>
    intro i x hi hle hx h1 h2
    have e1 : y[i - 1] = y.getD (i - 1) 0 := (getD_of_lt y 0 (by omega)).symm
    have e2 : y[i] = y.getD i 0 := (getD_of_lt y 0 (by omega)).symm
    rw [psiLoop, rd_lt (by omega), ok_bind, rd_lt (by omega), ok_bind, e1, e2]
    have k1 : ∀ m, m < i + 1 → ((x ++ [if y.getD (i - 1) 0 < y.getD i 0 then
      y.getD i 0 - y.getD (i - 1) 0 else y.getD i 0 - y.getD (i - 1) 0 + 1]).take (m + 1)).sum = y.getD m 0 + (drops y m : K) := by
      intro m hm
      by_cases hmi : m < i
      · rw [List.take_append_of_le_length (by omega)]
        exact h1 m hmi
      · have : m = i := by omega
        subst this
        rw [List.take_of_length_le (by simp [hx]), List.sum_append, List.sum_singleton]
        have hp := h1 (m - 1) (by omega)
        rw [List.take_of_length_le (by omega)] at hp
        rw [hp]
        obtain ⟨j, rfl⟩ : ∃ j, m = j + 1 := ⟨m - 1, by omega⟩
        rw [drops_succ]
        simp only [Nat.add_sub_cancel]
        by_cases hc : y.getD j 0 < y.getD (j + 1) 0
        · rw [if_pos hc, if_neg (not_le.mpr hc)]
          push_cast; ring
        · rw [if_neg hc, if_pos (not_lt.mp hc)]
          push_cast; ring
    have k2 : ∀ m, m < i + 1 → (x ++ [if y.getD (i - 1) 0 < y.getD i 0 then
      y.getD i 0 - y.getD (i - 1) 0 else y.getD i 0 - y.getD (i - 1) 0 + 1]).getD m 0 = if m = 0 then y.getD 0 0 else if y.getD (m - 1) 0 < y.getD m 0 then
        y.getD m 0 - y.getD (m - 1) 0 else y.getD m 0 - y.getD (m - 1) 0 + 1 := by
      intro m hm
      by_cases hmi : m < i
      · have : (x ++ [if y.getD (i - 1) 0 < y.getD i 0 then
          y.getD i 0 - y.getD (i - 1) 0 else y.getD i 0 - y.getD (i - 1) 0 + 1]).getD m 0 = x.getD m 0 := by
          simp only [List.getD]
          rw [List.getElem?_append_left (by omega)]
        rw [this]
        exact h2 m hmi
      · have : m = i := by omega
        subst this
        rw [if_neg (show ¬ m = 0 by omega)]
        simp only [List.getD]
        rw [List.getElem?_append_right (by omega), hx]
        simp
    obtain ⟨x', r1, r2, r3, r4⟩ := ih (i + 1) _ (by omega) (by omega) (by simp [hx]) k1 k2
    exact ⟨x', r1, by omega, fun m hm => r3 m (by omega), fun m hm => r4 m (by omega)⟩

/-- **C38.** The map takes a point `y` of the half-open cube [0,1)^(n-1) to a point `x` of the cube
[0,1]^(n-1) whose coordinates have the partial sums `y[m]` + (number of places before `m` where `y` does
not increase). In particular the whole sum is the last coordinate of `y` plus the number of descents, and
`y` can be recovered from `x` (fractional parts of the partial sums). -/
theorem C38_psi_inverse (n : Nat) (y : List K) (hn : 2 ≤ n) (hy : y.length + 1 = n) (h0 : ∀ a ∈ y, 0 ≤ a) (h1 : ∀ a ∈ y, a < 1) :
    ∃ x : List K, psiInverse n y = .ok x ∧ x.length = y.length ∧ (∀ a ∈ x, 0 ≤ a ∧ a ≤ 1) ∧
      (∀ (m : Nat) (a : K), y[m]? = some a → (x.take (m + 1)).sum = a + (drops y m : K)) ∧
      (∀ a : K, y.getLast? = some a → x.sum = a + (drops y (y.length - 1) : K)) := by
  have hl : 0 < y.length := by omega
  obtain ⟨x, r1, r2, r3, r4⟩ := psiLoop_ok y (n - 2) 1 [y[0]] (by omega) (by omega) rfl (by
    intro m hm
    have : m = 0 := by omega
    subst this
    rw [getD_of_lt y 0 hl]
    simp [drops]) (by
    intro m hm
    have : m = 0 := by omega
    subst this
    rw [getD_of_lt y 0 hl]
    simp)
  have hlen : x.length = y.length := by omega
  refine ⟨x, ?_, hlen, ?_, ?_, ?_⟩
  · unfold psiInverse
    rw [if_neg (by omega), rd_lt hl, ok_bind, r1]
  · intro a ha
    obtain ⟨m, hm, rfl⟩ := List.getElem_of_mem ha
    have e := r4 m (by omega)
    rw [getD_of_lt x 0 hm] at e
    rw [e]
    have b1 := h0 (y.getD m 0) (by rw [getD_of_lt y 0 (by omega)]; exact List.getElem_mem _)
    have b2 := h1 (y.getD m 0) (by rw [getD_of_lt y 0 (by omega)]; exact List.getElem_mem _)
    have b3 := h0 (y.getD (m - 1) 0) (by rw [getD_of_lt y 0 (by omega)]; exact List.getElem_mem _)
    have b4 := h1 (y.getD (m - 1) 0) (by rw [getD_of_lt y 0 (by omega)]; exact List.getElem_mem _)
    by_cases hz : m = 0
    · subst hz
      rw [if_pos rfl]
      exact ⟨b1, b2.le⟩
    · rw [if_neg hz]
      split
      · next h => exact ⟨by linarith, by linarith⟩
      · next h => exact ⟨by linarith, by linarith [not_lt.mp h]⟩
  · intro m a ha
    obtain ⟨hm, rfl⟩ := List.getElem?_eq_some_iff.mp ha
    rw [r3 m (by omega), getD_of_lt y 0 hm]
  · intro a ha
    rw [List.getLast?_eq_getElem?] at ha
    obtain ⟨hm, rfl⟩ := List.getElem?_eq_some_iff.mp ha
    have := r3 (y.length - 1) (by omega)
    rw [List.take_of_length_le (by omega), getD_of_lt y 0 hm] at this
    exact this

/-- The partial sums. -/
theorem sumLoop_ok (theta : List K) (hpos : ∀ a ∈ theta, 0 < a) : ∀ (todo i : Nat) (s : List K), 1 ≤ i →
    i + todo ≤ theta.length → s.length = i → (∀ m, m < i → s.getD m 0 = (theta.take (m + 1)).sum) →
    ∃ s', sumLoop theta todo i s = .ok s' ∧ s'.length = i + todo ∧
      (∀ m, m < i + todo → s'.getD m 0 = (theta.take (m + 1)).sum) := by
  intro todo
  induction todo with
  | zero => intro i s _ _ hs h; exact ⟨s, rfl, hs, h⟩
  | succ t ih =>
    intro i s hi hle hs h
    have e1 : s[i - 1] = s.getD (i - 1) 0 := (getD_of_lt s 0 (by omega)).symm
    rw [sumLoop, rd_lt (by omega), ok_bind, rd_lt (by omega), ok_bind, e1, h (i - 1) (by omega)]
    obtain ⟨s', r1, r2, r3⟩ := ih (i + 1) (s ++ [(theta.take (i - 1 + 1)).sum + theta[i]]) (by omega) (by omega) (by simp [hs]) (by
      intro m hm
      by_cases hmi : m < i
      · rw [← h m hmi]
        simp only [List.getD]
        rw [List.getElem?_append_left (by omega)]
      · have : m = i := by omega
        subst this
        simp only [List.getD]
        rw [List.getElem?_append_right (by omega), hs]
        rw [show m - 1 + 1 = m by omega, List.take_succ_eq_append_getElem (i := m) (by omega), List.sum_append, List.sum_singleton]
        simp)
    exact ⟨s', r1, by omega, fun m hm => r3 m (by omega)⟩

theorem pickLoop_ok (sorted : List K) (perm : List Int) : ∀ (todo i : Nat) (x : List K), i + todo ≤ perm.length →
    (∀ j, j < perm.length → 1 ≤ perm.getD j 0 ∧ perm.getD j 0 ≤ sorted.length ∨ i + todo ≤ j) → x.length = i →
    (∀ m, m < i → x.getD m 0 = sorted.getD (perm.getD m 0 - 1).toNat 0) →
    ∃ x', pickLoop sorted perm todo i x = .ok x' ∧ x'.length = i + todo ∧
      (∀ m, m < i + todo → x'.getD m 0 = sorted.getD (perm.getD m 0 - 1).toNat 0) := by
  intro todo
  induction todo with
  | zero => intro i x _ _ hx h; exact ⟨x, rfl, hx, h⟩
  | succ t ih =>
    intro i x hle hr hx h
    have e1 : perm[i] = perm.getD i 0 := (getD_of_lt perm 0 (by omega)).symm
    have hb := (hr i (by omega)).resolve_right (by omega)
    have e2 : Kasc.rdI sorted (perm.getD i 0 - 1) = .ok (sorted.getD (perm.getD i 0 - 1).toNat 0) := by
      rw [Kasc.rdI, if_pos (by omega), rd_lt (by omega), getD_of_lt sorted 0 (by omega)]
    rw [pickLoop, rd_lt (by omega), ok_bind, e1, e2, ok_bind]
    obtain ⟨x', r1, r2, r3⟩ := ih (i + 1) (x ++ [sorted.getD (perm.getD i 0 - 1).toNat 0]) (by omega)
      (fun j hj => by have := hr j hj; omega) (by simp [hx]) (by
      intro m hm
      by_cases hmi : m < i
      · rw [← h m hmi]
        simp only [List.getD]
        rw [List.getElem?_append_left (by omega)]
      · have : m = i := by omega
        subst this
        simp only [List.getD]
        rw [List.getElem?_append_right (by omega), hx]
        simp)
    exact ⟨x', r1, by omega, fun m hm => r3 m (by omega)⟩

theorem sum_take_lt (theta : List K) (hpos : ∀ a ∈ theta, 0 < a) {i j : Nat} (hij : i < j) (hj : j ≤ theta.length) :
    (theta.take i).sum < (theta.take j).sum := by
  obtain ⟨d, rfl⟩ : ∃ d, j = i + (d + 1) := ⟨j - i - 1, by omega⟩
  rw [List.take_add, List.sum_append]
  have hi : i < theta.length := by omega
  have : 0 < ((theta.drop i).take (d + 1)).sum := by
    refine List.sum_pos _ (fun a ha => hpos a (List.mem_of_mem_drop (List.mem_of_mem_take ha))) ?_
    intro h0
    have := congrArg List.length h0
    simp at this
    omega
  linarith

/-- **C38, the sampler.** For `1 ≤ k ≤ n-2`, positive weights `theta` with sum 1 and any random numbers,
`hypersimplex_sample` returns a point of the cube whose coordinate sum lies strictly between k-1 and k. -/
theorem C38_hypersimplex_sample (tab : List Rat) (u : Nat → Rat) (v : Nat → Nat) (theta : List K) (junk : List Int) (k n : Nat)
    (hT : Kasc.TableOk tab (n - 1)) (hu : ∀ i, u i < 1) (hk1 : 1 ≤ k) (hk : k + 2 ≤ n)
    (hlen : theta.length = n) (hpos : ∀ a ∈ theta, 0 < a) (hsum : theta.sum = 1) (hj : junk.length = n) :
    ∃ x : List K, hypersimplexSample tab u v theta junk k n = .ok x ∧ x.length = n - 1 ∧
      (∀ a ∈ x, 0 ≤ a ∧ a ≤ 1) ∧ (k : K) - 1 < x.sum ∧ x.sum < (k : K) := by
  obtain ⟨s, s1, s2, s3⟩ := sumLoop_ok theta hpos (n - 2) 1 [theta[0]] (by omega) (by omega) rfl (by
    intro m hm
    have : m = 0 := by omega
    subst this
    rw [List.take_succ_eq_append_getElem (by omega)]
    simp)
  have slen : s.length = n - 1 := by omega
  obtain ⟨p, p1, p2, p3⟩ := Kasc.C37_k_descents tab u v (n - 1) (k - 1) junk hT hu (by omega) (by omega)
  have plen : p.length = n - 1 := by rw [p2.length_eq]; simp
  have hpm : ∀ j, j < n - 1 → (p ++ junk.drop (n - 1)).getD j 0 = p.getD j 0 := by
    intro j hjn
    simp only [List.getD]
    rw [List.getElem?_append_left (by omega)]
  have hpb : ∀ j, j < n - 1 → 1 ≤ p.getD j 0 ∧ p.getD j 0 ≤ (n - 1 : Nat) := by
    intro j hjn
    have : p.getD j 0 ∈ p := by rw [getD_of_lt p 0 (by omega)]; exact List.getElem_mem _
    exact Kasc.mem_upto.mp (p2.mem_iff.mp this)
  obtain ⟨x, x1, x2, x3⟩ := pickLoop_ok s (p ++ junk.drop (n - 1)) (n - 1) 0 [] (by simp; omega) (by
    intro j hjl
    by_cases hjn : j < n - 1
    · left
      rw [hpm j hjn, slen]
      exact hpb j hjn
    · right; omega) rfl (by intro m hm; omega)
  have xval : ∀ m, m < n - 1 → x.getD m 0 = (theta.take (p.getD m 0).toNat).sum := by
    intro m hm
    have hb := hpb m hm
    rw [x3 m (by omega), hpm m hm, s3 _ (by omega), show (p.getD m 0 - 1).toNat + 1 = (p.getD m 0).toNat by omega]
  have xrange : ∀ m, m < n - 1 → 0 < x.getD m 0 ∧ x.getD m 0 < 1 := by
    intro m hm
    have hb := hpb m hm
    rw [xval m hm]
    constructor
    · have := sum_take_lt theta hpos (i := 0) (j := (p.getD m 0).toNat) (by omega) (by omega)
      simpa using this
    · have := sum_take_lt theta hpos (i := (p.getD m 0).toNat) (j := theta.length) (by omega) (by omega)
      rwa [List.take_length, hsum] at this
  have xmem : ∀ a ∈ x, 0 < a ∧ a < 1 := by
    intro a ha
    obtain ⟨m, hm, rfl⟩ := List.getElem_of_mem ha
    have := xrange m (by omega)
    rwa [getD_of_lt x 0 hm] at this
  obtain ⟨z, z1, z2, z3, _, z5⟩ := C38_psi_inverse n x (by omega) (by omega) (fun a ha => (xmem a ha).1.le) (fun a ha => (xmem a ha).2)
  have hd : drops x (x.length - 1) = k - 1 := by
    rw [← p3, Kasc.descents, drops, show x.length = p.length by omega]
    congr 1
    refine List.filter_congr (fun j hjr => ?_)
    have hjr := List.mem_range.mp hjr
    rw [xval j (by omega), xval (j + 1) (by omega)]
    have b1 := hpb j (by omega)
    have b2 := hpb (j + 1) (by omega)
    have hnd : p.Nodup := p2.nodup_iff.mpr (Kasc.nodup_upto _)
    have hne : p.getD j 0 ≠ p.getD (j + 1) 0 := by
      rw [getD_of_lt p 0 (by omega), getD_of_lt p 0 (by omega)]
      intro he
      have := (List.Nodup.getElem_inj_iff hnd).mp he
      omega
    rw [decide_eq_decide]
    constructor
    · intro hle
      by_contra hc
      have := sum_take_lt theta hpos (i := (p.getD j 0).toNat) (j := (p.getD (j + 1) 0).toNat) (by omega) (by omega)
      exact absurd hle (not_le.mpr this)
    · intro hgt
      exact (sum_take_lt theta hpos (i := (p.getD (j + 1) 0).toNat) (j := (p.getD j 0).toNat) (by omega) (by omega)).le
  obtain ⟨a, ha⟩ : ∃ a, x.getLast? = some a := by
    cases h : x.getLast? with
    | none => rw [List.getLast?_eq_none_iff] at h; subst h; simp at x2; omega
    | some a => exact ⟨a, rfl⟩
  have hz := z5 a ha
  have hab := xmem a (List.mem_of_getLast? ha)
  rw [hd, Nat.cast_sub hk1] at hz
  refine ⟨z, ?_, by omega, z3, ?_, ?_⟩
  · unfold hypersimplexSample
    rw [if_neg (by omega), rd_lt (by omega), ok_bind, s1, ok_bind, show ((k : Int) - 1) = ((k - 1 : Nat) : Int) by omega, p1, ok_bind,
      x1, ok_bind, z1]
  · rw [hz]; push_cast; linarith [hab.1]
  · rw [hz]; push_cast; linarith [hab.2]

/-- **C38, the last slice.** The slice `k = n-1` of the documented range cannot be sampled: the function
asks for a permutation without ascents and leaves its buffers (C37, k = 0). -/
theorem C38_last_slice (tab : List Rat) (u : Nat → Rat) (v : Nat → Nat) (theta : List K) (junk : List Int) (n : Nat)
    (hT : Kasc.TableOk tab (n - 1)) (hu : ∀ i, u i < 1) (hn : 2 ≤ n) (hpos : ∀ a ∈ theta, 0 < a) (hlen : theta.length = n) :
    hypersimplexSample tab u v theta junk (n - 1) n = .error .ub := by
  obtain ⟨s, s1, s2, s3⟩ := sumLoop_ok theta hpos (n - 2) 1 [theta[0]] (by omega) (by omega) rfl (by
    intro m hm
    have : m = 0 := by omega
    subst this
    rw [List.take_succ_eq_append_getElem (by omega)]
    simp)
  unfold hypersimplexSample
  rw [if_neg (by omega), rd_lt (by omega), ok_bind, s1, ok_bind, Kasc.randomKDescent,
    show ((n - 1 : Nat) : Int) - 1 - (((n - 1 : Nat) : Int) - 1) = 0 by omega,
    Kasc.C37_zero_ascents tab u v (n - 1) junk hT hu (by omega)]
  rfl

/-- A point with two descents, one of them a tie. -/
example : psiInverse (K := Rat) 5 [1/2, 3/4, 3/4, 1/4] = .ok [1/2, 1/4, 1, 1/2] ∧
    ([1/2, 1/4, 1, 1/2] : List Rat).sum = 1/4 + 2 ∧ drops ([1/2, 3/4, 3/4, 1/4] : List Rat) 3 = 2 := by decide +kernel

/-- A sample for k = 2, n = 5. -/
example : hypersimplexSample (K := Rat) Kasc.tab4 (fun _ => 1/10) (fun i => i) [1/2, 1/8, 1/8, 1/8, 1/8] [0, 0, 0, 0, 0] 2 5 =
    .ok [5/8, 1/8, 3/4, 3/8] ∧ ([5/8, 1/8, 3/4, 3/8] : List Rat).sum = 15/8 := by decide +kernel

end Plc.Hyper
