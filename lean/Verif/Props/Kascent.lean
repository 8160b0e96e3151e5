import Verif.Proofs.Kascent2
import Batteries.Lean.Except
import Mathlib.Tactic.IntervalCases

namespace Plc.Kasc

theorem ascentLoop_ok (p : List Int) : ∀ (todo i cnt : Nat), i + todo + 1 ≤ p.length →
    ascentLoop p todo i cnt = .ok (cnt + ((List.range' i todo).filter fun i => p.getD i 0 < p.getD (i + 1) 0).length) := by
  intro todo
  induction todo with
  | zero => intro i cnt _; rfl
  | succ t ih =>
    intro i cnt h
    rw [ascentLoop, rd_lt (by omega), ok_bind, rd_lt (by omega), ok_bind, ih (i + 1) _ (by omega), List.range'_succ,
      List.filter_cons]
    have e1 : p.getD i 0 = p[i] := by simp [List.getD, show i < p.length by omega]
    have e2 : p.getD (i + 1) 0 = p[i + 1] := by simp [List.getD, show i + 1 < p.length by omega]
    rw [e1, e2]
    by_cases hc : p[i] < p[i + 1]
    · simp [hc]; omega
    · simp [hc]

/-- **C37.** For `1 ≤ k ≤ n-1`, and whatever numbers `u i < 1` and `v i` the random generator
supplies, `random_k_ascent_permutation` returns without touching memory outside its buffers:
the first n places of the buffer hold a permutation of 1..n with exactly k ascents (as
`ascent_count` will confirm), the rest of the buffer is untouched. The table must have an entry
for each pair it is asked for, with 1 where k = n-1. -/
theorem C37_k_ascents (tab : List Rat) (u : Nat → Rat) (v : Nat → Nat) (n k : Nat) (perm : List Int)
    (hT : TableOk tab n) (hu : ∀ i, u i < 1) (h1 : 1 ≤ k) (hk : k + 1 ≤ n) (hp : n ≤ perm.length) :
    ∃ p : List Int, randomKAscent tab u v n k perm = .ok (p ++ perm.drop n) ∧
      p.Perm ((List.range n).map (fun i : Nat => (i : Int) + 1)) ∧ ascents p = k ∧
      ascentCount (p ++ perm.drop n) n = .ok k := by
  obtain ⟨l, r1, r2, r3⟩ := choiceLoop_ok hT hu (n + 1) [] (n : Int) (k : Int) (by omega) (by omega) (by simp) (by omega)
  simp only [List.nil_append] at r1
  obtain ⟨e, e1, e2, e3, e4⟩ := r2.last
  obtain ⟨wp, m1, m2⟩ := make_ok n e e2 (by omega) e3
  obtain ⟨wp', i1, vs, ixs, i2, i3, i4, i5⟩ := insLoop_ok (v := v) r2 (le_refl _) (l.length - 1) e wp e1 m2
  simp only [Int.toNat_natCast] at i3 i4
  have hlen : vs.length = n := by rw [i3.length_eq]; simp [upto]
  have hc := convert_ok wp'.node ixs vs wp'.start (wp'.max + 1) 0 perm i2.seg (by have := i2.len; have := i2.fits; omega) (by omega)
  rw [List.take_zero, List.nil_append, Nat.zero_add, hlen] at hc
  have hasc : ascents vs = k := by rw [ascents_eq]; omega
  refine ⟨vs, ?_, i3, hasc, ?_⟩
  · unfold randomKAscent
    rw [buildChoice, r1, ok_bind, rd_eq_ok.mpr e1, ok_bind, m1, ok_bind, i1, ok_bind, hc]
  · rw [ascentCount, ascentLoop_ok _ _ _ _ (by simp; omega), Nat.zero_add, ← List.range_eq_range']
    congr 1
    rw [← hasc, ascents, hlen]
    congr 1
    refine List.filter_congr (fun i hi => ?_)
    have hi := List.mem_range.mp hi
    have e1 : (vs ++ perm.drop n).getD i 0 = vs.getD i 0 := by
      simp only [List.getD]
      rw [List.getElem?_append_left (by omega)]
    have e2 : (vs ++ perm.drop n).getD (i + 1) 0 = vs.getD (i + 1) 0 := by
      simp only [List.getD]
      rw [List.getElem?_append_left (by omega)]
    rw [e1, e2]

/-- **C37, descents.** `random_k_descent_permutation` for `0 ≤ k ≤ n-2`. -/
theorem C37_k_descents (tab : List Rat) (u : Nat → Rat) (v : Nat → Nat) (n k : Nat) (perm : List Int)
    (hT : TableOk tab n) (hu : ∀ i, u i < 1) (hk : k + 2 ≤ n) (hp : n ≤ perm.length) :
    ∃ p : List Int, randomKDescent tab u v n k perm = .ok (p ++ perm.drop n) ∧
      p.Perm ((List.range n).map (fun i : Nat => (i : Int) + 1)) ∧ descents p = k := by
  obtain ⟨p, r1, r2, r3, _⟩ := C37_k_ascents tab u v n (n - 1 - k) perm hT hu (by omega) (by omega) hp
  refine ⟨p, ?_, r2, ?_⟩
  · unfold randomKDescent
    rw [show (n : Int) - 1 - k = ((n - 1 - k : Nat) : Int) by omega, r1]
  · have hlen : p.length = n := by rw [r2.length_eq]; simp
    have := adj_sum p (r2.nodup_iff.mpr (nodup_upto n)) (by intro h; subst h; simp at hlen; omega)
    rw [← ascents_eq, ← descents_eq, r3] at this
    omega

theorem euler_ge : ∀ (n k : Nat), n ≤ k → 1 ≤ k → euler n k = 0
  | 0, k + 1, _, _ => rfl
  | n + 1, 0, _, h => by omega
  | n + 1, k + 1, h, _ => by
    have h1 : euler n (k + 1) = 0 := euler_ge n (k + 1) (by omega) (by omega)
    have h2 : n - k = 0 := by omega
    rw [euler, h1, h2]
    simp

theorem euler_top : ∀ n : Nat, euler (n + 1) n = 1
  | 0 => rfl
  | n + 1 => by
    have h1 : euler (n + 1) (n + 1) = 0 := euler_ge _ _ (le_refl _) (by omega)
    have h2 : n + 1 - n = 1 := by omega
    rw [euler, h1, h2, euler_top n]
    simp

/-- **C37, the table.** A table with the values of the comment, (n-k) E(n-1,k-1) / E(n,k) with
Eulerian numbers E, has what the code needs. -/
theorem C37_table (tab : List Rat) (N : Nat) (h : Documented tab N) : TableOk tab N := by
  constructor
  · intro n k h1 h2 h3 h4
    exact ⟨_, h n k h1 h2 h3 h4⟩
  · intro n h1 h2
    obtain ⟨m, rfl⟩ : ∃ m, n = m + 2 := ⟨n - 2, by omega⟩
    have := h (m + 2) (m + 1) h1 h2 (by omega) (by omega)
    rw [show m + 2 - 1 = m + 1 by omega, show m + 2 - (m + 1) = 1 by omega, show m + 1 - 1 = m by omega, euler_top m] at this
    rw [show m + 2 - 1 = m + 1 by omega]
    rw [show m + 2 - 2 = m by omega] at this ⊢
    rw [this, show m + 2 = (m + 1) + 1 from rfl, euler_top (m + 1)]
    norm_num

theorem choiceLoop_neg {tab : List Rat} {u : Nat → Rat} {N : Nat} : ∀ (fuel : Nat) (cv : List (Int × Int)) (n k : Int),
    k < 0 → 2 ≤ n → choiceLoop tab u N fuel cv n k = .error .ub := by
  intro fuel
  induction fuel with
  | zero => intro cv n k _ _; rfl
  | succ f ih =>
    intro cv n k hk hn
    unfold choiceLoop
    split
    · cases hp : nap tab n k with
      | error e =>
        unfold nap rdI rd at hp
        split at hp
        · split at hp
          · simp at hp
          · simp at hp; subst hp; rfl
        · simp at hp; subst hp; rfl
      | ok p =>
        rw [ok_bind]
        simp only
        have h3 : 3 ≤ n := by
          by_contra hc
          have : n = 2 := by omega
          subst this
          unfold nap rdI at hp
          rw [if_neg (by norm_num; omega)] at hp
          simp at hp
        generalize hk' : (if u cv.length < p then k - 1 else k) = k'
        have : k' < 0 := by split at hk' <;> omega
        rw [if_pos ⟨by omega, by omega⟩]
        exact ih _ _ _ this (by omega)
    · rfl

/-- **C37, k = 0.** The range of `k` cannot be extended to 0, although there is a permutation
without ascents: for every n ≥ 1 and every random stream the loop that builds the choice vector
leaves its table or its buffer. -/
theorem C37_zero_ascents (tab : List Rat) (u : Nat → Rat) (v : Nat → Nat) (n : Nat) (perm : List Int)
    (hT : TableOk tab n) (hu : ∀ i, u i < 1) (h1 : 1 ≤ n) : randomKAscent tab u v n 0 perm = .error .ub := by
  have hb : buildChoice tab u n 0 = .error .ub := by
    unfold buildChoice choiceLoop
    rw [if_pos (by simp; omega)]
    by_cases h3 : n ≤ 2
    · have : nap tab n 0 = .error .ub := by
        unfold nap rdI
        rw [if_neg]
        interval_cases n <;> decide
      rw [this]; rfl
    · obtain ⟨m, rfl⟩ : ∃ m, n = m + 3 := ⟨n - 3, by omega⟩
      have hone := hT.one (m + 2) (by omega) (by omega)
      have e : (2 - 3 * ((m + 3 : Nat) : Int) + ((m + 3 : Nat) : Int) * ((m + 3 : Nat) : Int)) = ((m + 2) * (m + 1) : Nat) := by
        push_cast; ring
      have ediv : (m + 2) * (m + 1) / 2 = (m + 1) * m / 2 + (m + 1) := by
        have : (m + 2) * (m + 1) = (m + 1) * m + 2 * (m + 1) := by ring
        rw [this, Nat.add_mul_div_left _ _ (by norm_num)]
      have hn : nap tab ((m + 3 : Nat) : Int) 0 = .ok 1 := by
        unfold nap
        have e2 : ((2 - 3 * ((m + 3 : Nat) : Int) + ((m + 3 : Nat) : Int) * ((m + 3 : Nat) : Int)).tdiv 2 + 0 - 1) =
            (((m + 1) * m / 2 + m : Nat) : Int) := by
          rw [e, Int.tdiv_eq_ediv_of_nonneg (by positivity)]
          have : (((m + 2) * (m + 1) : Nat) : Int) / 2 = (((m + 2) * (m + 1) / 2 : Nat) : Int) := by simp
          rw [this, ediv]
          push_cast
          ring
        rw [e2, rdI_nat]
        exact rd_eq_ok.mpr hone
      rw [hn, ok_bind]
      simp only [List.length_nil]
      rw [if_pos (hu 0), if_pos ⟨by omega, by omega⟩]
      exact choiceLoop_neg _ _ _ _ (by omega) (by omega)
  unfold randomKAscent
  rw [hb]
  rfl

/-- The first three rows of the table, as the comment describes them (the test suite of the
repository checks these numbers too). -/
def tab4 : List Rat := [1, 1/2, 1, 3/11, 8/11, 1]

example : Documented tab4 4 := by
  intro n k h1 h2 h3 h4
  have : k ≤ 3 := by omega
  interval_cases n <;> interval_cases k <;> first | omega | decide +kernel

/-- A run: n = 4, k = 2. -/
example : randomKAscent tab4 (fun i => if i = 0 then 9/10 else 1/10) (fun i => i) 4 2 [0, 0, 0, 0] = .ok [1, 2, 4, 3] ∧
    ascents [1, 2, 4, 3] = 2 := by decide +kernel
example : randomKAscent tab4 (fun _ => 1/10) (fun i => i) 4 2 [0, 0, 0, 0] = .ok [2, 3, 1, 4] := by decide +kernel

/-- The value 1 is needed: with anything less in its place (here 9/10, and a random number above
it), the function leaves its buffers. -/
example : randomKAscent [9/10] (fun _ => 19/20) (fun i => i) 2 1 [0, 0] = .error .ub := by decide +kernel

end Plc.Kasc
