import Verif.Model.Geyer
import Verif.Spec.Geyer
import Verif.Proofs.Basic
import Mathlib.Tactic.Ring
import Mathlib.Tactic.Linarith
import Mathlib.Tactic.FieldSimp
import Mathlib.Tactic.LinearCombination
import Mathlib.Algebra.BigOperators.Intervals

/-! # Lemmas on the estimators -/

namespace Plc.Geyer

open Finset Spec

/-! ## The mean -/

theorem halve_sum : ∀ (e f : Nat) (x : Nat → ℝ), e ≤ f → halve f (2 ^ e) x 0 = ∑ i ∈ range (2 ^ e), x i
  | 0, f, x, _ => by
    cases f with
    | zero => simp [halve]
    | succ f => simp [halve]
  | e + 1, 0, x, h => by omega
  | e + 1, f + 1, x, h => by
    have h2 : 2 ^ (e + 1) / 2 = 2 ^ e := by rw [pow_succ]; omega
    have h1 : 2 ^ (e + 1) > 1 := by
      have := Nat.one_le_two_pow (n := e)
      rw [pow_succ]; omega
    unfold halve
    rw [if_pos h1, h2, halve_sum e f _ (by omega), show 2 ^ (e + 1) = 2 ^ e + 2 ^ e from by rw [pow_succ]; omega, sum_range_add, ← sum_add_distrib]
    refine sum_congr rfl fun i hi => ?_
    rw [if_pos (mem_range.mp hi), Nat.add_comm]

theorem sampleMean_eq (x : Nat → ℝ) {n : Nat} (hn : 0 < n) : sampleMean x n = mean x n := by
  unfold sampleMean mean
  have hlog : Nat.log 2 n ≤ n := Nat.log_le_self 2 n
  have h1 : 2 ^ Nat.log 2 n ≤ n := Nat.pow_log_le_self 2 (by omega)
  have h2 : n < 2 ^ (Nat.log 2 n + 1) := Nat.lt_pow_succ_log_self (by omega) n
  show halve n (2 ^ Nat.log 2 n) _ 0 / n = _
  rw [halve_sum _ _ _ hlog]
  congr 1
  rw [pow_succ] at h2
  generalize 2 ^ Nat.log 2 n = p at h1 h2 ⊢
  obtain ⟨q, rfl⟩ : ∃ q, n = p + q := ⟨n - p, by omega⟩
  obtain ⟨r, rfl⟩ : ∃ r, p = q + r := ⟨p - q, by omega⟩
  rw [show q + r + q - (q + r) = q from by omega, sum_range_add _ (q + r) q, sum_range_add _ q r]
  have e1 : ∑ i ∈ range q, (if i < q then x i + x (i + (q + r)) else x i) = ∑ i ∈ range q, x i + ∑ i ∈ range q, x (q + r + i) := by
    rw [← sum_add_distrib]
    refine sum_congr rfl fun i hi => ?_
    rw [if_pos (mem_range.mp hi), Nat.add_comm i]
  have e2 : ∑ i ∈ range r, (if q + i < q then x (q + i) + x (q + i + (q + r)) else x (q + i)) = ∑ i ∈ range r, x (q + i) :=
    sum_congr rfl fun i _ => by rw [if_neg (by omega)]
  rw [e1, e2, sum_range_add x q r]
  ring

/-! ## The direct estimator -/

theorem ddot_gam (x : Nat → ℝ) (n l : Nat) :
    1 / (n : ℝ) * ddot (n - l) (fun i => x i - mean x n) (fun i => x (i + l) - mean x n) = gam x n l := by
  unfold ddot gam
  ring

theorem gammas_ok (x : Nat → ℝ) (n : Nat) : ∀ (f k : Nat) (gs : List ℝ) (s : ℝ), ∃ j, 
    (gammas n (fun i => x i - mean x n) f k gs s).2.2 = s + ∑ i ∈ range j, Gam x n (k + i) ∧
    (∀ i, i < j → 0 < Gam x n (k + i)) ∧ j ≤ f ∧
    ((j = f ∧ (gammas n (fun i => x i - mean x n) f k gs s).1 = k + f) ∨ (j < f ∧ Gam x n (k + j) ≤ 0 ∧ (gammas n (fun i => x i - mean x n) f k gs s).1 = k + j + 1))
  | 0, k, gs, s => ⟨0, by simp [gammas], by omega, le_refl _, Or.inl ⟨rfl, by simp [gammas]⟩⟩
  | f + 1, k, gs, s => by
    have hG : 1 / (n : ℝ) * (ddot (n - 2 * k) (fun i => x i - mean x n) (fun i => (fun i => x i - mean x n) (i + 2 * k)) +
        ddot (n - (2 * k + 1)) (fun i => x i - mean x n) (fun i => (fun i => x i - mean x n) (i + (2 * k + 1)))) = Gam x n k := by
      rw [mul_add, ddot_gam, ddot_gam]; rfl
    unfold gammas
    simp only [hG]
    by_cases h : Gam x n k ≤ 0
    · rw [if_pos h]
      exact ⟨0, by simp, by omega, by omega, Or.inr ⟨by omega, by simpa using h, rfl⟩⟩
    · rw [if_neg h]
      obtain ⟨j, h1, h2, h3, h4⟩ := gammas_ok x n f (k + 1) (gs ++ [Gam x n k]) (s + Gam x n k)
      refine ⟨j + 1, ?_, ?_, by omega, ?_⟩
      · rw [h1, sum_range_succ', add_zero]
        have : ∑ i ∈ range j, Gam x n (k + 1 + i) = ∑ i ∈ range j, Gam x n (k + (i + 1)) := sum_congr rfl fun i _ => by rw [show k + 1 + i = k + (i + 1) from by omega]
        rw [this]; ring
      · intro i hi
        cases i with
        | zero => simpa using h
        | succ i => have := h2 i (by omega); rwa [show k + 1 + i = k + (i + 1) from by omega] at this
      · rcases h4 with ⟨a, b⟩ | ⟨a, b, c⟩
        · exact Or.inl ⟨by omega, by rw [b]; omega⟩
        · exact Or.inr ⟨by omega, by rwa [show k + 1 + j = k + (j + 1) from by omega] at b, by rw [c]; omega⟩

theorem gam_zero_nonneg (x : Nat → ℝ) (n : Nat) : 0 ≤ gam x n 0 := by
  unfold gam
  refine div_nonneg (sum_nonneg fun i _ => ?_) (Nat.cast_nonneg n)
  simpa using mul_self_nonneg (x i - mean x n)

open Classical in
theorem sigmaEst_ok (x : Nat → ℝ) {n : Nat} (hn : 0 < n) : ∃ e K, sigmaEst (fun i => x i - mean x n) n = .ok e ∧ Initial (Gam x n) (n / 2) K ∧
    e.sigma = Real.sqrt (if 0 ≤ est x n K then est x n K else gam x n 0) ∧ (e.n1 = 0 ↔ n < 4) := by
  obtain ⟨j, h1, h2, h3, h4⟩ := gammas_ok x n (n / 2 - 1) 1 [] 0
  have hs : 0 ≤ (gammas n (fun i => x i - mean x n) (n / 2 - 1) 1 [] 0).2.2 := by
    rw [h1, zero_add]
    exact sum_nonneg fun i hi => le_of_lt (h2 i (mem_range.mp hi))
  have g0 : 1 / (n : ℝ) * ddot n (fun i => x i - mean x n) (fun i => x i - mean x n) = gam x n 0 := by
    have := ddot_gam x n 0
    simpa using this
  have g1 : 1 / (n : ℝ) * ddot (n - 1) (fun i => x i - mean x n) (fun i => (fun i => x i - mean x n) (i + 1)) = gam x n 1 := ddot_gam x n 1
  have hest : gam x n 0 + 2 * gam x n 1 + 2 * (gammas n (fun i => x i - mean x n) (n / 2 - 1) 1 [] 0).2.2 = est x n j := by
    unfold est
    rw [h1, zero_add]
    congr 2
    exact sum_congr rfl fun i _ => by rw [Nat.add_comm]
  unfold sigmaEst
  rw [g0, g1]
  rw [assertC_ok (by simpa using hn), ok_bind]
  simp only []
  rw [assertC_ok (by simpa using hs), ok_bind, assertC_ok (by simpa using gam_zero_nonneg x n), ok_bind]
  refine ⟨_, j, rfl, ?_, ?_, ?_⟩
  · refine ⟨fun k hk1 hk2 => ?_, ?_, by omega⟩
    · have := h2 (k - 1) (by omega)
      rwa [show 1 + (k - 1) = k from by omega] at this
    · rcases h4 with ⟨a, b⟩ | ⟨a, b, c⟩
      · exact Or.inl (by omega)
      · exact Or.inr ⟨by omega, by rwa [Nat.add_comm] at b⟩
  · simp only [hest, ge_iff_le]
    split <;> rfl
  · show _ - 1 = 0 ↔ _
    rcases h4 with ⟨a, b⟩ | ⟨a, b, c⟩
    · rw [b]; omega
    · rw [c]; omega

/-- The initial sequence is determined. -/
theorem initial_unique {G : Nat → ℝ} {top K K' : Nat} (h : Initial G top K) (h' : Initial G top K') : K = K' := by
  obtain ⟨a1, a2, a3⟩ := h
  obtain ⟨b1, b2, b3⟩ := h'
  by_contra hne
  rcases Nat.lt_or_gt_of_ne hne with hlt | hlt
  · rcases a2 with c | ⟨c, d⟩
    · omega
    · exact absurd (b1 (K + 1) (by omega) (by omega)) (not_lt.mpr d)
  · rcases b2 with c | ⟨c, d⟩
    · omega
    · exact absurd (a1 (K' + 1) (by omega) (by omega)) (not_lt.mpr d)

/-! ## Lagged products -/

/-- The lagged product of the first N values. -/
noncomputable def lag (D : Nat → ℝ) (N l : Nat) : ℝ := ∑ j ∈ range (N - l), D j * D (j + l)

theorem laggedDot_eq (l u : Nat) (v : Nat → ℝ) : laggedDot l u v = ∑ i ∈ range (u - l), v i * v (i + l) := by
  unfold laggedDot
  split
  · rw [show u - l = 0 from by omega]; simp
  · rfl

theorem lag_split (D : Nat → ℝ) {N L l : Nat} (u : Nat) (hl : l < L) (hL : L ≤ N) (a b : Nat → ℝ) (ha : ∀ i, i < L → a i = D (N - L + i)) (hb : ∀ i, i < u → b i = D (N + i)) :
    lag D (N + u) l = lag D N l + laggedDot l u b + splitDot l L a u b := by
  have e1 : lag D (N + u) l = lag D N l + ∑ i ∈ range u, D (N - l + i) * D (N + i) := by
    unfold lag
    rw [show N + u - l = (N - l) + u from by omega, sum_range_add]
    congr 1
    exact sum_congr rfl fun i _ => by rw [show N - l + i + l = N + i from by omega]
  have e2 : splitDot l L a u b = ∑ i ∈ range (min l u), D (N - l + i) * D (N + i) := by
    unfold splitDot
    refine sum_congr rfl fun t ht => ?_
    have := mem_range.mp ht
    rw [if_pos (by omega), ha _ (by omega), hb _ (by omega), show N - L + (L + t - l) = N - l + t from by omega]
  have e3 : laggedDot l u b = ∑ i ∈ range (u - l), D (N - l + (min l u + i)) * D (N + (min l u + i)) := by
    rw [laggedDot_eq]
    refine sum_congr rfl fun i hi => ?_
    have := mem_range.mp hi
    rw [hb _ (by omega), hb _ (by omega), show N - l + (min l u + i) = N + i from by omega, show N + (i + l) = N + (min l u + i) from by omega]
  rw [e1, e2, e3, show range u = range (min l u + (u - l)) from by congr 1; omega, sum_range_add]
  ring

/-- The correction for the mean. -/
theorem lag_mean (D : Nat → ℝ) {n l : Nat} (hl : l ≤ n) (hn : 0 < n) :
    (lag D n l + mean D n * (∑ i ∈ range l, D i + ∑ i ∈ range l, D (n - 1 - i)) - mean D n * mean D n * ((n + l : Nat) : ℝ)) / n = gam D n l := by
  unfold gam
  congr 1
  have hn' : (n : ℝ) ≠ 0 := by exact_mod_cast (show n ≠ 0 by omega)
  have hS : ∑ i ∈ range n, D i = mean D n * n := by unfold mean; field_simp
  obtain ⟨μ, hμ⟩ : ∃ μ, μ = mean D n := ⟨_, rfl⟩
  rw [← hμ] at hS ⊢
  obtain ⟨r, rfl⟩ : ∃ r, n = l + r := ⟨n - l, by omega⟩
  have f1 : ∑ i ∈ range (l + r), D i = ∑ i ∈ range l, D i + ∑ j ∈ range r, D (j + l) := by
    rw [sum_range_add]
    congr 1
    exact sum_congr rfl fun i _ => by rw [Nat.add_comm]
  have f2 : ∑ i ∈ range (l + r), D i = ∑ i ∈ range r, D i + ∑ i ∈ range l, D (l + r - 1 - i) := by
    rw [Nat.add_comm l r, sum_range_add]
    congr 1
    rw [← sum_range_reflect]
    refine sum_congr rfl fun i hi => ?_
    have := mem_range.mp hi
    rw [show r + (l - 1 - i) = r + l - 1 - i from by omega]
  rw [show l + r - l = r from by omega]
  unfold lag
  rw [show l + r - l = r from by omega]
  have e : ∑ j ∈ range r, (D j - μ) * (D (j + l) - μ) = ∑ j ∈ range r, D j * D (j + l) - μ * ∑ j ∈ range r, D j - μ * ∑ j ∈ range r, D (j + l) + r * μ ^ 2 := by
    rw [mul_sum, mul_sum, ← sum_sub_distrib, ← sum_sub_distrib, show (r : ℝ) * μ ^ 2 = ∑ _j ∈ range r, μ ^ 2 from by simp, ← sum_add_distrib]
    exact sum_congr rfl fun i _ => by ring
  rw [e]
  rw [hS] at f1 f2
  push_cast at f1 f2 ⊢
  linear_combination (-μ) * f1 - μ * f2

/-- γ 0 + γ 1 is not negative. -/
theorem Gam_zero_nonneg (x : Nat → ℝ) (n : Nat) : 0 ≤ Gam x n 0 := by
  have key : ∀ (y : Nat → ℝ) (m : Nat), (y m) ^ 2 / 2 ≤ ∑ j ∈ range (m + 1), y j * y j + ∑ j ∈ range m, y j * y (j + 1) := by
    intro y m
    induction m with
    | zero => simp; nlinarith [mul_self_nonneg (y 0)]
    | succ m ih =>
      rw [sum_range_succ (fun j => y j * y j) (m + 1), sum_range_succ (fun j => y j * y (j + 1)) m]
      nlinarith [sq_nonneg (y m + y (m + 1))]
  unfold Gam gam
  rw [← add_div]
  refine div_nonneg ?_ (Nat.cast_nonneg n)
  cases n with
  | zero => simp
  | succ m =>
    have h := key (fun j => x j - mean x (m + 1)) m
    have h0 := sq_nonneg (x m - mean x (m + 1))
    simp only [Nat.mul_zero, Nat.sub_zero, Nat.add_zero, Nat.zero_add, Nat.add_sub_cancel]
    linarith

/-! ## The buffers -/

theorem mod_ne {L j n : Nat} (h1 : j < n) (h2 : n < j + L) : j % L ≠ n % L := by
  intro h
  have hd : L ∣ n - j := (Nat.modEq_iff_dvd' (by omega)).mp h
  have := Nat.le_of_dvd (by omega) hd
  omega

/-- What the buffers hold after n values of D. -/
structure Full (D : Nat → ℝ) (n q : Nat) (g : Gips) : Prop where
  q1 : 1 ≤ q
  u1 : 1 ≤ g.used
  u2 : g.used ≤ g.size
  hn : n = q * g.size + g.used
  buf : ∀ i, i < g.used → g.buf i = D (q * g.size + i)
  nl : g.nldots = g.ifsize
  if1 : min 50 g.size ≤ g.ifsize
  if2 : g.ifsize ≤ g.size
  init : ∀ i, i < g.ifsize → g.initbuf i = D i
  fin : ∀ j, j < n → n ≤ j + g.ifsize → g.finalbuf (j % g.ifsize) = D j
  ldot : ∀ l, l < g.nldots → g.ldot l = lag D (q * g.size) l
  over : ∀ i, i < g.nldots → g.overlap i = D (q * g.size - g.nldots + i)

structure Inv (D : Nat → ℝ) (n B : Nat) (g : Gips) : Prop where
  B1 : 0 < B
  size : g.size = B
  samples : g.samples = n
  sum : g.sum = ∑ i ∈ range n, D i
  phase : (n ≤ B ∧ g.used = n ∧ (∀ i, i < n → g.buf i = D i) ∧ g.ifsize = 0) ∨ ∃ q, Full D n q g

theorem inv_new (D : Nat → ℝ) (nan : ℝ) {B : Nat} (h : 0 < B) : Inv D 0 B (new nan B) :=
  ⟨h, rfl, rfl, by simp [new], Or.inl ⟨by omega, rfl, by omega, rfl⟩⟩

theorem fill_ok (buf f0 : Nat → ℝ) (B L s : Nat) (t : Nat) (ht : t ≤ L) : ∀ j, s ≤ j → j < s + t →
    (List.range' s t).foldl (fun f i => set f (i % L) (buf (i % B))) f0 (j % L) = buf (j % B) := by
  induction t with
  | zero => intro j h1 h2; omega
  | succ t ih =>
    intro j h1 h2
    rw [List.range'_1_concat, List.foldl_append, List.foldl_cons, List.foldl_nil]
    by_cases e : j = s + t
    · subst e; simp [set]
    · unfold set
      rw [if_neg (mod_ne (by omega) (by omega))]
      exact ih (by omega) j h1 (by omega)

theorem mean_eq {D : Nat → ℝ} {n B : Nat} {g : Gips} (h : Inv D n B g) : g.sum / g.samples = mean D n := by
  rw [h.sum, h.samples]; rfl

theorem restart_full {D : Nat → ℝ} {nan : ℝ} {n q : Nat} {g : Gips} (hB : 0 < g.size) (hs : g.samples = n) (hq : n = q * g.size) (q1 : 1 ≤ q) (nl : g.nldots = g.ifsize)
    (if1 : min 50 g.size ≤ g.ifsize) (if2 : g.ifsize ≤ g.size) (init : ∀ i, i < g.ifsize → g.initbuf i = D i)
    (fin : ∀ j, j < n → n ≤ j + g.ifsize → g.finalbuf (j % g.ifsize) = D j) (ldot : ∀ l, l < g.nldots → g.ldot l = lag D (q * g.size) l)
    (over : ∀ i, i < g.nldots → g.overlap i = D (q * g.size - g.nldots + i)) : Full D (n + 1) q (restart nan g (D n)) := by
  refine ⟨q1, le_refl _, hB, ?_, ?_, nl, if1, if2, init, ?_, ldot, over⟩
  · show n + 1 = q * g.size + 1
    omega
  · intro i hi
    have hi : i < 1 := hi
    obtain rfl : i = 0 := by omega
    show set (fun _ => nan) 0 (D n) 0 = D (q * g.size + 0)
    simp [set, hq]
  · intro j h1 h2
    show set g.finalbuf (g.samples % g.ifsize) (D n) (j % g.ifsize) = D j
    have h2 : n + 1 ≤ j + g.ifsize := h2
    rw [hs]
    by_cases e : j = n
    · subst e; simp [set]
    · unfold set
      rw [if_neg (mod_ne (by omega) (by omega))]
      exact fin j (by omega) (by omega)

theorem add_ok {D : Nat → ℝ} {n B : Nat} {g : Gips} (nan : ℝ) (h : Inv D n B g) : ∃ g', add nan g (D n) = .ok g' ∧ Inv D (n + 1) B g' := by
  have hB := h.B1
  have hsz := h.size
  have hsa := h.samples
  have hsum := h.sum
  have hgB : 0 < g.size := by omega
  unfold add
  rcases h.phase with ⟨p1, p2, p3, p4⟩ | ⟨q, F⟩
  · by_cases hu : g.used < g.size
    · rw [if_pos hu]
      refine ⟨_, rfl, hB, hsz, by show g.samples + 1 = n + 1; omega, ?_, Or.inl ⟨by omega, by show g.used + 1 = n + 1; omega, ?_, p4⟩⟩
      · show g.sum + D n = _
        rw [sum_range_succ, hsum]
      · intro i hi
        show set g.buf (g.samples % g.size) (D n) i = D i
        rw [Nat.mod_eq_of_lt (by omega), hsa]
        unfold set
        by_cases e : i = n
        · rw [if_pos e, e]
        · rw [if_neg e]; exact p3 i (by omega)
    · rw [if_neg hu, if_pos (by omega)]
      have hnB : n = g.size := by omega
      have hm : g.sum / (g.size : ℝ) = mean g.buf g.size := by
        unfold mean
        rw [hsum, ← hnB]
        congr 1
        exact sum_congr rfl fun i hi => (p3 i (mem_range.mp hi)).symm
      simp only [hm]
      obtain ⟨e, K, he, _, _, _⟩ := sigmaEst_ok g.buf hgB
      rw [he, ok_bind]
      refine ⟨_, rfl, hB, hsz, by show g.samples + 1 = n + 1; omega, ?_, Or.inr ⟨1, ?_⟩⟩
      · show g.sum + D n = _
        rw [sum_range_succ, hsum]
      · have hL : min (max (6 * e.n1) 50) g.size ≤ g.size := Nat.min_le_right _ _
        refine restart_full hgB hsa (by show n = 1 * g.size; omega) (le_refl _) rfl ?_ hL ?_ ?_ ?_ ?_
        · show min 50 g.size ≤ min (max (6 * e.n1) 50) g.size
          omega
        · intro i hi
          have hi : i < min (max (6 * e.n1) 50) g.size := hi
          exact p3 i (by omega)
        · intro j h1 h2
          have h2 : n ≤ j + min (max (6 * e.n1) 50) g.size := h2
          show fillFinal g _ (j % _) = D j
          unfold fillFinal
          rw [fill_ok _ _ _ _ _ _ (le_refl _) j (by omega) (by omega), Nat.mod_eq_of_lt (by omega)]
          exact p3 j h1
        · intro l hl
          show laggedDot l g.size g.buf = lag D (1 * g.size) l
          rw [laggedDot_eq, Nat.one_mul]
          unfold lag
          refine sum_congr rfl fun i hi => ?_
          have := mem_range.mp hi
          rw [p3 _ (by omega), p3 _ (by omega)]
        · intro i hi
          have hi : i < min (max (6 * e.n1) 50) g.size := hi
          show g.buf (g.size - _ + i) = D (1 * g.size - _ + i)
          rw [p3 _ (by omega), Nat.one_mul]
  · obtain ⟨q1, u1, u2, hn, buf, nl, if1, if2, init, fin, ldot, over⟩ := F
    have hif : 0 < g.ifsize := by omega
    have hqB : g.size ≤ q * g.size := Nat.le_mul_of_pos_left _ q1
    by_cases hu : g.used < g.size
    · rw [if_pos hu]
      have hmod : g.samples % g.size = g.used := by
        rw [hsa, hn, Nat.mul_comm, Nat.mul_add_mod, Nat.mod_eq_of_lt hu]
      refine ⟨_, rfl, hB, hsz, by show g.samples + 1 = n + 1; omega, ?_, Or.inr ⟨q, q1, ?_, ?_, ?_, ?_, nl, if1, if2, init, ?_, ldot, over⟩⟩
      · show g.sum + D n = _
        rw [sum_range_succ, hsum]
      · show 1 ≤ g.used + 1
        omega
      · show g.used + 1 ≤ g.size
        omega
      · show n + 1 = q * g.size + (g.used + 1)
        omega
      · intro i hi
        have hi : i < g.used + 1 := hi
        show set g.buf (g.samples % g.size) (D n) i = D (q * g.size + i)
        rw [hmod]
        unfold set
        by_cases e : i = g.used
        · rw [if_pos e, e, hn]
        · rw [if_neg e]; exact buf i (by omega)
      · intro j h1 h2
        have h2 : n + 1 ≤ j + g.ifsize := h2
        show (if g.ifsize > 0 then set g.finalbuf (g.samples % g.ifsize) (D n) else g.finalbuf) (j % g.ifsize) = D j
        rw [if_pos hif, hsa]
        by_cases e : j = n
        · subst e; simp [set]
        · unfold set
          rw [if_neg (mod_ne (by omega) (by omega))]
          exact fin j (by omega) (by omega)
    · have hus : g.used = g.size := by omega
      have hq2 : n = (q + 1) * g.size := by rw [hn, hus, Nat.succ_mul]
      rw [if_neg hu, if_neg (by omega)]
      refine ⟨_, rfl, hB, hsz, by show g.samples + 1 = n + 1; omega, ?_, Or.inr ⟨q + 1, ?_⟩⟩
      · show g.sum + D n = _
        rw [sum_range_succ, hsum]
      · refine restart_full hgB hsa hq2 (by omega) nl if1 if2 init fin ?_ ?_
        · intro l hl
          have hl : l < g.nldots := hl
          show g.ldot l + laggedDot l g.size g.buf + splitDot l g.nldots g.overlap g.used g.buf = lag D ((q + 1) * g.size) l
          rw [Nat.succ_mul, ldot l hl, lag_split D g.size hl (by omega) g.overlap g.buf over (fun i hi => buf i (by omega)), hus]
        · intro i hi
          have hi : i < g.nldots := hi
          show g.buf (g.size - g.nldots + i) = D ((q + 1) * g.size - g.nldots + i)
          rw [buf _ (by omega), Nat.succ_mul, show q * g.size + (g.size - g.nldots + i) = q * g.size + g.size - g.nldots + i from by omega]

theorem addAll_ok (nan : ℝ) {B : Nat} (hB : 0 < B) : ∀ (es ds : List ℝ) (g : Gips), Inv (fun i => (ds ++ es).getD i 0) ds.length B g →
    ∃ g', addAll nan g es = .ok g' ∧ Inv (fun i => (ds ++ es).getD i 0) (ds ++ es).length B g'
  | [], ds, g, h => ⟨g, rfl, by simpa using h⟩
  | e :: es, ds, g, h => by
    obtain ⟨g1, a1, i1⟩ := add_ok nan h
    have hd : (ds ++ e :: es).getD ds.length 0 = e := by simp
    rw [hd] at a1
    have hl : ds ++ e :: es = (ds ++ [e]) ++ es := by simp
    rw [hl] at i1 ⊢
    have hlen : ds.length + 1 = (ds ++ [e]).length := by simp
    rw [hlen] at i1
    obtain ⟨g2, a2, i2⟩ := addAll_ok nan hB es (ds ++ [e]) g1 i1
    refine ⟨g2, ?_, i2⟩
    unfold addAll at a2 ⊢
    rw [List.foldlM_cons, a1]
    exact a2

/-! ## The value -/

theorem gam_congr {x y : Nat → ℝ} {n : Nat} (h : ∀ i, i < n → x i = y i) : gam x n = gam y n := by
  have hm : mean x n = mean y n := by
    unfold mean
    congr 1
    exact sum_congr rfl fun i hi => h i (mem_range.mp hi)
  funext l
  unfold gam
  rw [hm]
  congr 1
  refine sum_congr rfl fun i hi => ?_
  have := mem_range.mp hi
  rw [h i (by omega), h (i + l) (by omega)]

theorem dataVal_init {D : Nat → ℝ} {n q B : Nat} {g : Gips} (h : Inv D n B g) (F : Full D n q g) {i : Nat} (hi : i < g.ifsize) : dataVal g i = .ok (D i) := by
  have hsa := h.samples
  have hqB : g.size ≤ q * g.size := Nat.le_mul_of_pos_left _ F.q1
  have := F.hn
  have := F.u1
  have := F.if2
  unfold dataVal
  rw [assertC_ok (by simp; omega), ok_bind, if_neg (by omega), if_pos (by omega), if_pos hi, F.init i hi]
  rfl

theorem dataVal_fin {D : Nat → ℝ} {n q B : Nat} {g : Gips} (h : Inv D n B g) (F : Full D n q g) {i : Nat} (hi : i < g.ifsize) : dataVal g (g.samples - 1 - i) = .ok (D (n - 1 - i)) := by
  have hsa := h.samples
  have hqB : g.size ≤ q * g.size := Nat.le_mul_of_pos_left _ F.q1
  have := F.hn
  have := F.u1
  have := F.if2
  by_cases hlt : g.samples - 1 - i < g.ifsize
  · rw [dataVal_init h F hlt, hsa]
  · unfold dataVal
    rw [assertC_ok (by simp; omega), ok_bind, if_neg (by omega), if_pos (by omega), if_neg hlt, if_pos (by omega), hsa, F.fin _ (by omega) (by omega)]
    rfl

theorem corrections {D : Nat → ℝ} {n q B : Nat} {g : Gips} (h : Inv D n B g) (F : Full D n q g) : ∀ l, l ≤ g.ifsize →
    (List.range l).foldlM (fun (acc : ℝ × ℝ) i => (do
      let a ← dataVal g i
      let b ← dataVal g (g.samples - 1 - i)
      pure (acc.1 + a, acc.2 + b) : Res (ℝ × ℝ))) (0, 0) = .ok (∑ i ∈ range l, D i, ∑ i ∈ range l, D (n - 1 - i))
  | 0, _ => by simp; rfl
  | l + 1, hl => by
    rw [List.range_succ, List.foldlM_append, corrections h F l (by omega), ok_bind, List.foldlM_cons, dataVal_init h F (by omega), ok_bind, dataVal_fin h F (by omega), ok_bind,
      sum_range_succ, sum_range_succ]
    rfl

theorem zeroMeaned_ok {D : Nat → ℝ} {n q B : Nat} {g : Gips} (h : Inv D n B g) (F : Full D n q g) {l : Nat} (hl : l < g.ifsize) :
    zeroMeaned g l (lag D n l) (mean D n) = .ok (gam D n l) := by
  have hqB : g.size ≤ q * g.size := Nat.le_mul_of_pos_left _ F.q1
  have := F.hn
  have := F.u1
  have := F.if2
  unfold zeroMeaned
  rw [assertC_ok (by simpa using hl), ok_bind, corrections h F l (by omega), ok_bind, ← lag_mean D (show l ≤ n by omega) (by omega), h.samples]
  rfl

theorem mapM_ok {f : Nat → Res ℝ} {r : Nat → ℝ} : ∀ l : List Nat, (∀ i, i ∈ l → f i = .ok (r i)) → l.mapM f = .ok (l.map r)
  | [], _ => rfl
  | a :: l, h => by
    rw [List.mapM_cons, h a (by simp), ok_bind, mapM_ok l (fun i hi => h i (by simp [hi])), ok_bind]
    rfl

theorem positives_ok {G : Nat → ℝ} {L : Nat} : ∀ (f n : Nat), L ≤ f + n → 1 ≤ n → (n = 1 ∨ 2 * (n - 1) + 1 < L) → (∀ i, i + 1 < n → 0 < G i) →
    ∃ R, positives G L f n = R ∧ 1 ≤ R ∧ (R = 1 ∨ 2 * (R - 1) + 1 < L) ∧ (∀ i, i + 1 < R → 0 < G i) ∧ (G (R - 1) ≤ 0 ∨ L ≤ 2 * R + 1)
  | 0, n, h, h1, h2, h3 => ⟨n, rfl, h1, h2, h3, Or.inr (by omega)⟩
  | f + 1, n, h, h1, h2, h3 => by
    unfold positives
    by_cases hc : G (n - 1) > 0 ∧ 2 * n + 1 < L
    · rw [if_pos hc]
      refine positives_ok f (n + 1) (by omega) (by omega) (Or.inr (by omega)) ?_
      intro i hi
      by_cases e : i = n - 1
      · rw [e]; exact hc.1
      · exact h3 i (by omega)
    · rw [if_neg hc]
      refine ⟨n, rfl, h1, h2, h3, ?_⟩
      by_cases hg : G (n - 1) > 0
      · right; by_contra hh; exact hc ⟨hg, by omega⟩
      · left; exact not_lt.mp hg

/-- The value with more samples than fit in the buffer. -/
theorem value_full {D : Nat → ℝ} {n q B : Nat} {g : Gips} (h : Inv D n B g) (F : Full D n q g) (hB : 2 ≤ B) : ∃ R, 1 ≤ R ∧ (R = 1 ∨ 2 * (R - 1) + 1 < g.nldots) ∧
    (∀ i, i + 1 < R → 0 < Gam D n i) ∧ (Gam D n (R - 1) ≤ 0 ∨ g.nldots ≤ 2 * R + 1) ∧
    value g = .ok ⟨mean D n, (sqrtC (-(gam D n 0) + ∑ i ∈ range (if Gam D n (R - 1) < 0 then R - 1 else R), 2 * Gam D n i)).map (fun s => 1.96 * s / Real.sqrt n),
      some (decide (Gam D n (R - 1) < 0))⟩ := by
  have hqB : g.size ≤ q * g.size := Nat.le_mul_of_pos_left _ F.q1
  have k1 := F.hn
  have k2 := F.u1
  have k3 := F.if2
  have k4 := F.if1
  have k5 := F.nl
  have hsz := h.size
  have hsa := h.samples
  have hL : 2 ≤ g.nldots := by omega
  unfold value
  rw [if_neg (by omega)]
  simp only [mean_eq h]
  rw [if_neg (by omega)]
  have hz : ∀ i, i ∈ List.range g.nldots → zeroMeaned g i ((if i < min g.nldots g.used then g.ldot i + laggedDot i g.used g.buf else g.ldot i) + splitDot i g.nldots g.overlap g.used g.buf) (mean D n) =
      .ok (gam D n i) := by
    intro i hi
    have hi := List.mem_range.mp hi
    have e : (if i < min g.nldots g.used then g.ldot i + laggedDot i g.used g.buf else g.ldot i) = g.ldot i + laggedDot i g.used g.buf := by
      split
      · rfl
      · rw [laggedDot_eq, show g.used - i = 0 from by omega]; simp
    rw [e, F.ldot i hi, ← lag_split D g.used hi (by omega) g.overlap g.buf F.over F.buf, ← k1]
    exact zeroMeaned_ok h F (by omega)
  rw [mapM_ok _ hz, ok_bind, if_neg (by omega)]
  have hget : ∀ i, i < g.nldots → ((List.range g.nldots).map (gam D n)).getD i 0 = gam D n i := by
    intro i hi
    simp [hi]
  obtain ⟨R, r1, r2, r3, r4, r5⟩ := positives_ok (G := fun i => ((List.range g.nldots).map (gam D n)).getD (2 * i) 0 + ((List.range g.nldots).map (gam D n)).getD (2 * i + 1) 0)
    (L := g.nldots) g.nldots 1 (by omega) (le_refl _) (Or.inl rfl) (by omega)
  have hG : ∀ i, 2 * i + 1 < g.nldots → ((List.range g.nldots).map (gam D n)).getD (2 * i) 0 + ((List.range g.nldots).map (gam D n)).getD (2 * i + 1) 0 = Gam D n i := by
    intro i hi
    rw [hget _ (by omega), hget _ hi]; rfl
  have hlast : 2 * (R - 1) + 1 < g.nldots := by rcases r3 with rfl | r3 <;> omega
  refine ⟨R, r2, r3, ?_, ?_, ?_⟩
  · intro i hi
    have := r4 i hi
    rwa [hG i (by omega)] at this
  · rcases r5 with r5 | r5
    · left
      rwa [hG _ hlast] at r5
    · exact Or.inr r5
  · simp only [r1, hG _ hlast, hget 0 (by omega), hsa]
    have hs : ∑ i ∈ range (if Gam D n (R - 1) < 0 then R - 1 else R), 2 * (((List.range g.nldots).map (gam D n)).getD (2 * i) 0 + ((List.range g.nldots).map (gam D n)).getD (2 * i + 1) 0) =
        ∑ i ∈ range (if Gam D n (R - 1) < 0 then R - 1 else R), 2 * Gam D n i := by
      refine sum_congr rfl fun i hi => ?_
      have hi := mem_range.mp hi
      rw [hG i (by split at hi <;> omega)]
    rw [hs]
    rfl

end Plc.Geyer
