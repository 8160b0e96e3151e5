import Verif.Model.NVect
import Mathlib.Algebra.BigOperators.Field

/-!
# C106: vectors of any dimension
-/

namespace Plc.NVect

open Finset

/-- `V` points to an allocated block of its own dimension. -/
def Valid (m : Mem) (V : NV) : Prop := V.p < m.next ∧ m.size V.p = V.n

/-- `R` is a new vector of dimension `n` with values `f`, and nothing else has changed. -/
def NewVec (m m' : Mem) (R : NV) (n : ℕ) (f : ℕ → ℝ) : Prop :=
  Valid m' R ∧ R.n = n ∧ m.next ≤ R.p ∧ (∀ i < n, m'.val R.p i = f i) ∧
    m.next ≤ m'.next ∧ ∀ q < m.next, m'.size q = m.size q ∧ m'.val q = m.val q

theorem rd_valid {m : Mem} {V : NV} (h : Valid m V) {i : ℕ} (hi : i < V.n) :
    rd m V i = some (m.val V.p i) := by
  unfold rd; rw [if_pos ⟨h.1, by rw [h.2]; exact hi⟩]

theorem accum_sum {f : ℕ → Option ℝ} {g : ℕ → ℝ} : ∀ {n : ℕ}, (∀ i < n, f i = some (g i)) →
    accum f n = some (∑ i ∈ range n, g i)
  | 0, _ => by simp [accum]
  | n + 1, h => by
    rw [accum, accum_sum (fun i hi => h i (by omega)), h n (by omega), sum_range_succ]; rfl

/-- The loop writes the first `k` values and nothing else. -/
theorem fill_ok (R : NV) (f : Mem → ℕ → Option ℝ) (g : ℕ → ℝ) (m : Mem) (hR : Valid m R)
    (hf : ∀ m' i, i < R.n → m'.next = m.next → m'.size = m.size →
      (∀ q, q ≠ R.p → m'.val q = m.val q) → (∀ j, i ≤ j → m'.val R.p j = m.val R.p j) → f m' i = some (g i)) :
    ∀ k, k ≤ R.n → ∃ m', fill R f k m = some m' ∧ m'.next = m.next ∧ m'.size = m.size ∧
      (∀ q, q ≠ R.p → m'.val q = m.val q) ∧ (∀ j, k ≤ j → m'.val R.p j = m.val R.p j) ∧
      ∀ j < k, m'.val R.p j = g j
  | 0, _ => ⟨m, rfl, rfl, rfl, fun _ _ => rfl, fun _ _ => rfl, fun _ h => absurd h (by omega)⟩
  | k + 1, hk => by
    obtain ⟨m1, h1, hn, hs, ho, ht, hg⟩ := fill_ok R f g m hR hf k (by omega)
    refine ⟨{ m1 with val := Function.update m1.val R.p (Function.update (m1.val R.p) k (g k)) }, ?_,
      hn, hs, ?_, ?_, ?_⟩
    · rw [fill, h1]
      simp only [Option.bind_some]
      rw [hf m1 k (by omega) hn hs ho ht]
      simp only [Option.bind_some]
      unfold wr
      rw [if_pos]
      refine ⟨by rw [hn]; exact hR.1, ?_⟩
      rw [hs, hR.2]; omega
    · intro q hq
      simp only [Function.update_of_ne hq]
      exact ho q hq
    · intro j hj
      simp only [Function.update_self]
      rw [Function.update_of_ne (by omega)]
      exact ht j (by omega)
    · intro j hj
      simp only [Function.update_self]
      by_cases h : j = k
      · subst h; simp
      · rw [Function.update_of_ne h]; exact hg j (by omega)

theorem map2_ok (g : ℝ → ℝ → ℝ) (m : Mem) (A B : NV) (hA : Valid m A) (hB : Valid m B) (hn : A.n = B.n) :
    ∃ m' R, map2 g m A B = some (m', R) ∧
      NewVec m m' R A.n (fun i => g (m.val A.p i) (m.val B.p i)) := by
  have hAp : A.p ≠ m.next := by have := hA.1; omega
  have hBp : B.p ≠ m.next := by have := hB.1; omega
  obtain ⟨m', h, h1, h2, h3, h4, h5⟩ := fill_ok ⟨A.n, m.next⟩
    (fun m i => (rd m A i).bind fun a => (rd m B i).bind fun b => some (g a b))
    (fun i => g (m.val A.p i) (m.val B.p i)) (vnew m A.n).1
    ⟨by simp [vnew], by simp [vnew]⟩
    (by
      intro m' i hi hn' hs hv _
      have vA : Valid m' A := ⟨by rw [hn']; simp only [vnew]; have := hA.1; omega, by
        rw [hs]; simp only [vnew]; rw [Function.update_of_ne hAp]; exact hA.2⟩
      have vB : Valid m' B := ⟨by rw [hn']; simp only [vnew]; have := hB.1; omega, by
        rw [hs]; simp only [vnew]; rw [Function.update_of_ne hBp]; exact hB.2⟩
      simp only at hi
      rw [rd_valid vA hi, rd_valid vB (by omega)]
      simp only [Option.bind_some]
      rw [hv _ hAp, hv _ hBp]
      simp only [vnew]
      rw [Function.update_of_ne hAp, Function.update_of_ne hBp])
    A.n (le_refl _)
  refine ⟨m', ⟨A.n, m.next⟩, ?_, ?_, rfl, le_refl _, ?_, ?_, ?_⟩
  · unfold map2 vdim
    rw [if_pos hn]
    simp only [Option.bind_some]
    show ((fill ⟨A.n, m.next⟩ _ A.n (vnew m A.n).1).bind fun m2 => some (m2, (⟨A.n, m.next⟩ : NV))) = _
    rw [h]; rfl
  · refine ⟨by rw [h1]; simp [vnew], by rw [h2]; simp [vnew]⟩
  · exact h5
  · rw [h1]; simp [vnew]
  · intro q hq
    have hq' : q ≠ m.next := by omega
    refine ⟨by rw [h2]; simp only [vnew]; rw [Function.update_of_ne hq'], ?_⟩
    rw [h3 q hq']; simp only [vnew]; rw [Function.update_of_ne hq']

theorem dot_ok (m : Mem) (A B : NV) (hA : Valid m A) (hB : Valid m B) (hn : A.n = B.n) :
    dot m A B = some (∑ i ∈ range A.n, m.val A.p i * m.val B.p i) := by
  unfold dot vdim
  rw [if_pos hn]
  simp only [Option.bind_some]
  refine accum_sum fun i hi => ?_
  rw [rd_valid hA hi, rd_valid hB (by omega)]; rfl

theorem norm_ok (m : Mem) (A : NV) (hA : Valid m A) :
    norm m A = some (Real.sqrt (∑ i ∈ range A.n, m.val A.p i ^ 2)) := by
  unfold norm
  rw [dot_ok m A A hA hA rfl]
  simp [sq]

/-- Lagrange's identity. -/
theorem lagrange (a b : ℕ → ℝ) (n : ℕ) :
    ∑ j ∈ range n, ∑ i ∈ range j, (a i * b j - a j * b i) * (a i * b j - a j * b i) =
      (∑ i ∈ range n, a i ^ 2) * (∑ i ∈ range n, b i ^ 2) - (∑ i ∈ range n, a i * b i) ^ 2 := by
  induction n with
  | zero => simp
  | succ n ih =>
    rw [sum_range_succ, ih, sum_range_succ, sum_range_succ, sum_range_succ]
    have : ∑ i ∈ range n, (a i * b n - a n * b i) * (a i * b n - a n * b i) =
        b n ^ 2 * (∑ i ∈ range n, a i ^ 2) - 2 * (a n * b n) * (∑ i ∈ range n, a i * b i) +
          a n ^ 2 * ∑ i ∈ range n, b i ^ 2 := by
      rw [mul_sum, mul_sum, mul_sum, ← sum_sub_distrib, ← sum_add_distrib]
      exact sum_congr rfl fun i _ => by ring
    rw [this]; ring

/-- **C106.** Sums, differences, products by components, multiples and combinations of
vectors are new vectors with the expected values; the arguments keep theirs. -/
theorem C106_ops (m : Mem) (A B : NV) (hA : Valid m A) (hB : Valid m B) (hn : A.n = B.n) (s t : ℝ) :
    (∃ m' R, vsum m A B = some (m', R) ∧ NewVec m m' R A.n fun i => m.val A.p i + m.val B.p i) ∧
    (∃ m' R, vdiff m A B = some (m', R) ∧ NewVec m m' R A.n fun i => m.val A.p i - m.val B.p i) ∧
    (∃ m' R, cmult m A B = some (m', R) ∧ NewVec m m' R A.n fun i => m.val A.p i * m.val B.p i) ∧
    (∃ m' R, scale s m A = some (m', R) ∧ NewVec m m' R A.n fun i => s * m.val A.p i) ∧
    (∃ m' R, vlincomb s t m A B = some (m', R) ∧
      NewVec m m' R A.n fun i => s * m.val A.p i + t * m.val B.p i) ∧
    (∃ m' R, vweighted s m A B = some (m', R) ∧
      NewVec m m' R A.n fun i => (1 - s) * m.val A.p i + s * m.val B.p i) := by
  refine ⟨map2_ok _ m A B hA hB hn, map2_ok _ m A B hA hB hn, map2_ok _ m A B hA hB hn,
    map2_ok _ m A A hA hA rfl, ?_, ?_⟩
  · obtain ⟨m', R, h, k⟩ := map2_ok (fun x y => 0 + (s * x + t * y)) m A B hA hB hn
    refine ⟨m', R, h, ?_⟩
    simpa only [zero_add] using k
  · obtain ⟨m', R, h, k⟩ := map2_ok (fun x y => 0 + ((1 - s) * x + s * y)) m A B hA hB hn
    refine ⟨m', R, h, ?_⟩
    simpa only [zero_add] using k

/-- **C106.** The distance is the root of the sum of the squares of the differences. Partial: the
full claim also has `nplc_sq_dist` as its square, which is false (`C106_sqDist`). -/
theorem C106_distance_partial (m : Mem) (A B : NV) (hA : Valid m A) (hB : Valid m B) (hn : A.n = B.n) :
    distance m A B = some (Real.sqrt (∑ i ∈ range A.n, (m.val A.p i - m.val B.p i) ^ 2)) := by
  obtain ⟨m', R, h, hv, hRn, _, hval, _⟩ := (C106_ops m A B hA hB hn 0 0).2.1
  unfold distance
  rw [h]
  simp only [Option.bind_some]
  rw [norm_ok m' R hv, hRn]
  congr 2
  exact sum_congr rfl fun i hi => by rw [hval i (mem_range.mp hi)]

/-- **C106.** The angle lies in `[0, π]` and has the right cosine; if `*ok` is set, neither
vector is zero. -/
theorem C106_angle (m : Mem) (A B : NV) (hA : Valid m A) (hB : Valid m B) (hn : A.n = B.n) :
    ∃ θ ok, angle m A B = some (θ, ok) ∧ 0 ≤ θ ∧ θ ≤ Real.pi ∧
      ((∃ i < A.n, m.val A.p i ≠ 0) → (∃ i < A.n, m.val B.p i ≠ 0) →
        Real.cos θ = (∑ i ∈ range A.n, m.val A.p i * m.val B.p i) /
          (Real.sqrt (∑ i ∈ range A.n, m.val A.p i ^ 2) * Real.sqrt (∑ i ∈ range A.n, m.val B.p i ^ 2))) ∧
      (ok = true → (∃ i < A.n, m.val A.p i ≠ 0) ∧ ∃ i < A.n, m.val B.p i ≠ 0) := by
  set a := m.val A.p with ha
  set b := m.val B.p with hb
  set n := A.n with hnn
  have hl : accum (fun j => accum (minor2 m A B j) j) n =
      some ((∑ i ∈ range n, a i ^ 2) * (∑ i ∈ range n, b i ^ 2) - (∑ i ∈ range n, a i * b i) ^ 2) := by
    rw [← lagrange]
    refine accum_sum fun j hj => accum_sum fun i hi => ?_
    unfold minor2
    rw [rd_valid hA (by omega), rd_valid hB (by omega), rd_valid hA (by omega), rd_valid hB (by omega)]
    rfl
  have hl0 : 0 ≤ (∑ i ∈ range n, a i ^ 2) * (∑ i ∈ range n, b i ^ 2) - (∑ i ∈ range n, a i * b i) ^ 2 := by
    rw [← lagrange]
    exact sum_nonneg fun j _ => sum_nonneg fun i _ => mul_self_nonneg _
  set P := ∑ i ∈ range n, a i ^ 2 with hP
  set Q := ∑ i ∈ range n, b i ^ 2 with hQ
  set d := ∑ i ∈ range n, a i * b i with hd
  refine ⟨Complex.arg ⟨d, Real.sqrt (P * Q - d ^ 2)⟩,
    decide (|Real.sqrt (P * Q - d ^ 2)| > 1e-12 ∨ |d| > 1e-12), ?_, ?_, Complex.arg_le_pi _, ?_, ?_⟩
  · unfold angle vdim
    rw [if_pos hn]
    simp only [Option.bind_some]
    rw [hl, dot_ok m A B hA hB hn]
    rfl
  · exact Complex.arg_nonneg_iff.mpr (Real.sqrt_nonneg _)
  · rintro ⟨i, hi, hai⟩ ⟨j, hj, hbj⟩
    have pos : ∀ (c : ℕ → ℝ) i, i < n → c i ≠ 0 → 0 < ∑ i ∈ range n, c i ^ 2 := fun c i hi hc =>
      sum_pos' (fun _ _ => sq_nonneg _) ⟨i, mem_range.mpr hi, by positivity⟩
    have hPp : 0 < P := pos a i hi hai
    have hQp : 0 < Q := pos b j hj hbj
    have hnorm : ‖(⟨d, Real.sqrt (P * Q - d ^ 2)⟩ : ℂ)‖ = Real.sqrt P * Real.sqrt Q := by
      rw [Complex.norm_def, Complex.normSq_mk, ← Real.sqrt_mul hPp.le]
      congr 1
      rw [Real.mul_self_sqrt hl0]; ring
    have hne : (⟨d, Real.sqrt (P * Q - d ^ 2)⟩ : ℂ) ≠ 0 := by
      rw [← norm_pos_iff, hnorm]
      exact mul_pos (Real.sqrt_pos.mpr hPp) (Real.sqrt_pos.mpr hQp)
    rw [Complex.cos_arg hne, hnorm]
  · intro hok
    have key : ∀ x y : ℕ → ℝ, (∀ i < n, x i = 0 ∨ y i = 0) → ∑ i ∈ range n, x i * y i = 0 := fun x y h =>
      sum_eq_zero fun i hi => by rcases h i (mem_range.mp hi) with h | h <;> rw [h] <;> ring
    have hz : ∀ {x : ℝ}, P * Q = 0 → d = 0 → x = P * Q - d ^ 2 → False := by
      intro x h1 h2 _
      rw [h1, h2] at hok
      simp at hok
      norm_num at hok
    refine ⟨?_, ?_⟩
    · by_contra hno
      push Not at hno
      have h1 : P = 0 := sum_eq_zero fun i hi => by rw [hno i (mem_range.mp hi)]; ring
      exact hz (by rw [h1]; ring) (key a b fun i hi => Or.inl (hno i hi)) rfl
    · by_contra hno
      push Not at hno
      have h1 : Q = 0 := sum_eq_zero fun i hi => by rw [hno i (mem_range.mp hi)]; ring
      exact hz (by rw [h1]; ring) (key a b fun i hi => Or.inr (hno i hi)) rfl

/-- **C106.** Normalizing gives a new vector of length 1 in the same direction, unless the
norm is below the bound. -/
theorem C106_normalize (eps : ℝ) (heps : 0 < eps) (m : Mem) (V : NV) (hV : Valid m V)
    (hbig : eps ≤ Real.sqrt (∑ i ∈ range V.n, m.val V.p i ^ 2)) :
    ∃ m' R, normalize eps m V = some (m', R) ∧
      (NewVec m m' R V.n fun i => m.val V.p i / Real.sqrt (∑ i ∈ range V.n, m.val V.p i ^ 2)) ∧
      norm m' R = some 1 := by
  set r := Real.sqrt (∑ i ∈ range V.n, m.val V.p i ^ 2) with hr
  obtain ⟨m', R, h, k⟩ := (C106_ops m V V hV hV rfl (1 / r) 0).2.2.2.1
  have k' : NewVec m m' R V.n fun i => m.val V.p i / r := by
    have e : (fun i => m.val V.p i / r) = fun i => 1 / r * m.val V.p i := by funext i; ring
    rw [e]; exact k
  have hr0 : 0 < r := lt_of_lt_of_le heps hbig
  refine ⟨m', R, ?_, k', ?_⟩
  · unfold normalize
    rw [norm_ok m V hV]
    simp only [Option.bind_some]
    rw [if_neg (by intro hc; exact absurd hc.1 (not_lt.mpr hbig))]
    exact h
  · rw [norm_ok m' R k'.1, k'.2.1]
    have e : ∑ i ∈ range V.n, m'.val R.p i ^ 2 = (∑ i ∈ range V.n, m.val V.p i ^ 2) / r ^ 2 := by
      rw [sum_div]
      exact sum_congr rfl fun i hi => by rw [k'.2.2.2.1 i (mem_range.mp hi), div_pow]
    rw [e, hr, Real.sq_sqrt (sum_nonneg fun _ _ => sq_nonneg _), div_self, Real.sqrt_one]
    intro h0
    rw [hr, h0, Real.sqrt_zero] at hr0
    exact lt_irrefl _ hr0

/-- **C106 fails for `nplc_sq_dist`.** It is the product of the vectors, so it is the square
of the distance only if `|A|² + |B|² = 3 A·B`. -/
theorem C106_sqDist (m : Mem) (A B : NV) (hA : Valid m A) (hB : Valid m B) (hn : A.n = B.n) (x d : ℝ)
    (hx : sqDist m A B = some x) (hd : distance m A B = some d) :
    x = d ^ 2 ↔ (∑ i ∈ range A.n, m.val A.p i ^ 2) + (∑ i ∈ range A.n, m.val B.p i ^ 2) =
      3 * ∑ i ∈ range A.n, m.val A.p i * m.val B.p i := by
  have h1 : sqDist m A B = dot m A B := rfl
  rw [h1, dot_ok m A B hA hB hn] at hx
  rw [C106_distance_partial m A B hA hB hn] at hd
  obtain rfl := Option.some.inj hx
  obtain rfl := Option.some.inj hd
  rw [Real.sq_sqrt (sum_nonneg fun _ _ => sq_nonneg _)]
  have e : ∑ i ∈ range A.n, (m.val A.p i - m.val B.p i) ^ 2 = (∑ i ∈ range A.n, m.val A.p i ^ 2) +
      (∑ i ∈ range A.n, m.val B.p i ^ 2) - 2 * ∑ i ∈ range A.n, m.val A.p i * m.val B.p i := by
    rw [mul_sum, ← sum_add_distrib, ← sum_sub_distrib]
    exact sum_congr rfl fun i _ => by ring
  rw [e]
  constructor <;> intro h <;> linarith

/-- **C106.** `nplc_vmadd` returns `A + sB`, but in place of `A`: the argument is lost. -/
theorem C106_vmadd (m : Mem) (A B : NV) (hA : Valid m A) (hB : Valid m B) (hn : A.n = B.n) (s : ℝ) :
    ∃ m', vmadd m A s B = some (m', A) ∧ Valid m' A ∧
      (∀ i < A.n, m'.val A.p i = m.val A.p i + s * m.val B.p i) ∧
      m'.next = m.next ∧ m'.size = m.size ∧ ∀ q, q ≠ A.p → m'.val q = m.val q := by
  obtain ⟨m', h, h1, h2, h3, h4, h5⟩ := fill_ok A
    (fun m i => (rd m A i).bind fun a => (rd m B i).bind fun b => some (a + s * b))
    (fun i => m.val A.p i + s * m.val B.p i) m hA
    (by
      intro m' i hi hn' hs hv ht
      have vA : Valid m' A := ⟨by rw [hn']; exact hA.1, by rw [hs]; exact hA.2⟩
      have vB : Valid m' B := ⟨by rw [hn']; exact hB.1, by rw [hs]; exact hB.2⟩
      rw [rd_valid vA hi, rd_valid vB (by omega)]
      simp only [Option.bind_some]
      rw [ht i (le_refl _)]
      by_cases hp : B.p = A.p
      · rw [hp, ht i (le_refl _)]
      · rw [hv _ hp])
    A.n (le_refl _)
  refine ⟨m', ?_, ⟨by rw [h1]; exact hA.1, by rw [h2]; exact hA.2⟩, h5, h1, h2, h3⟩
  unfold vmadd vdim
  rw [if_pos hn]
  simp only [Option.bind_some]
  rw [h]; rfl

/-- Two vectors of dimension 4 in memory, `(1,2,3,4)` and `(1,1,1,1)`. -/
noncomputable def sampleMem : Mem := ⟨2, fun _ => 4, fun p i => if p = 0 then i + 1 else 1⟩

example : Valid sampleMem ⟨4, 0⟩ ∧ Valid sampleMem ⟨4, 1⟩ := by
  refine ⟨⟨?_, rfl⟩, ⟨?_, rfl⟩⟩ <;> decide

/-- For these vectors the square of the distance is 14, and `nplc_sq_dist` gives 10. -/
example : distance sampleMem ⟨4, 0⟩ ⟨4, 1⟩ = some (Real.sqrt 14) ∧
    sqDist sampleMem ⟨4, 0⟩ ⟨4, 1⟩ = some 10 := by
  have vA : Valid sampleMem ⟨4, 0⟩ := ⟨by decide, rfl⟩
  have vB : Valid sampleMem ⟨4, 1⟩ := ⟨by decide, rfl⟩
  constructor
  · rw [C106_distance_partial _ _ _ vA vB rfl]
    norm_num [sum_range_succ, sampleMem]
  · show dot _ _ _ = _
    rw [dot_ok _ _ _ vA vB rfl]
    norm_num [sum_range_succ, sampleMem]

/-- The bound of `C106_normalize` holds for the first. -/
example : (1 : ℝ) / 2 ≤ Real.sqrt (∑ i ∈ range 4, sampleMem.val 0 i ^ 2) := by
  apply Real.le_sqrt_of_sq_le
  norm_num [sum_range_succ, sampleMem]

end Plc.NVect
