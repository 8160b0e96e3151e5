import Verif.Model.Iters
import Verif.Spec.Iter
import Verif.Proofs.Basic
import Verif.Proofs.PermGroup

namespace Plc.Iters

theorem fill_spec (f : Nat → Nat) : ∀ (c i : Nat) (m : List Nat), i + c ≤ m.length →
    ∃ m', fill f c i m = .ok m' ∧ m'.length = m.length ∧
      ∀ j, m'[j]? = if i ≤ j ∧ j < i + c then some (f j) else m[j]?
  | 0, i, m, _ => ⟨m, rfl, rfl, by intro j; rw [if_neg (by omega)]⟩
  | c + 1, i, m, h => by
    rw [fill, wr_lt (by omega), ok_bind]
    obtain ⟨m', h1, h2, h3⟩ := fill_spec f c (i+1) (m.set i (f i)) (by rw [List.length_set]; omega)
    refine ⟨m', h1, by rw [h2, List.length_set], fun j => ?_⟩
    rw [h3 j]
    by_cases hj : j = i
    · subst hj
      rw [if_neg (by omega), if_pos (by omega), List.getElem?_set_self (by omega)]
    · rw [List.getElem?_set_ne (Ne.symm hj)]
      by_cases hc : i + 1 ≤ j ∧ j < i + 1 + c
      · rw [if_pos hc, if_pos (by omega)]
      · rw [if_neg hc, if_neg (by omega)]

theorem shiftLoop_spec : ∀ (c i : Nat) (m : List Nat), i + c + 1 ≤ m.length →
    ∃ m', shiftLoop c i m = .ok m' ∧ m'.length = m.length ∧
      ∀ j, m'[j]? = if i ≤ j ∧ j < i + c then m[j+1]? else m[j]?
  | 0, i, m, _ => ⟨m, rfl, rfl, by intro j; rw [if_neg (by omega)]⟩
  | c + 1, i, m, h => by
    rw [shiftLoop, rd_lt (by omega : i + 1 < m.length), ok_bind, wr_lt (by omega), ok_bind]
    obtain ⟨m', h1, h2, h3⟩ := shiftLoop_spec c (i+1) (m.set i m[i+1]) (by rw [List.length_set]; omega)
    refine ⟨m', h1, by rw [h2, List.length_set], fun j => ?_⟩
    rw [h3 j]
    by_cases hj : j = i
    · subst hj
      rw [if_neg (by omega), if_pos (by omega), List.getElem?_set_self (by omega),
        List.getElem?_eq_getElem (by omega : j + 1 < m.length)]
    · by_cases hc : i + 1 ≤ j ∧ j < i + 1 + c
      · rw [if_pos hc, if_pos (by omega), List.getElem?_set_ne (by omega)]
      · rw [if_neg hc, if_neg (by omega), List.getElem?_set_ne (Ne.symm hj)]

theorem rotate1_spec (m : List Nat) (hn : 0 < m.length) :
    ∃ m', rotate1 m = .ok m' ∧ m'.length = m.length ∧
      ∀ j, j < m.length → m'[j]? = m[(j + 1) % m.length]? := by
  unfold rotate1
  obtain ⟨m1, h1, h2, h3⟩ := shiftLoop_spec (m.length - 1) 0 m (by omega)
  rw [rd_lt hn, ok_bind, h1, ok_bind, wr_lt (by omega)]
  refine ⟨_, rfl, by rw [List.length_set, h2], fun j hj => ?_⟩
  by_cases hl : j = m.length - 1
  · rw [hl, h2, List.getElem?_set_self (by omega)]
    have : (m.length - 1 + 1) % m.length = 0 := by
      rw [Nat.sub_add_cancel hn, Nat.mod_self]
    rw [this, List.getElem?_eq_getElem hn]
  · rw [h2, List.getElem?_set_ne (by omega), h3 j, if_pos (by omega),
      Nat.mod_eq_of_lt (by omega)]

/-- Rotation by `k`. -/
def R (n k : Nat) : List Nat := (List.range n).map (fun j => (j + k) % n)

/-- Reflection `j ↦ k - j`. -/
def S (n k : Nat) : List Nat := (List.range n).map (fun j => (k + (n - j)) % n)

@[simp] theorem R_length (n k : Nat) : (R n k).length = n := by simp [R]
@[simp] theorem S_length (n k : Nat) : (S n k).length = n := by simp [S]

theorem R_get {n k j : Nat} (h : j < n) : (R n k)[j]? = some ((j + k) % n) := by
  simp [R, h]

theorem S_get {n k j : Nat} (h : j < n) : (S n k)[j]? = some ((k + (n - j)) % n) := by
  simp [S, h]

theorem R_zero (n : Nat) : R n 0 = List.range n := by
  apply List.ext_getElem (by simp)
  intro i h1 h2
  simp at h2
  simp [R, Nat.mod_eq_of_lt h2]

theorem R_mod (n k : Nat) : R n (k % n) = R n k := by
  unfold R; apply List.map_congr_left; intro j _; simp [Nat.add_mod]

theorem list_ext_lt {m m' : List Nat} {n : Nat} (h1 : m.length = n) (h2 : m'.length = n)
    (h : ∀ j, j < n → m[j]? = m'[j]?) : m = m' := by
  apply List.ext_getElem?
  intro j
  by_cases hj : j < n
  · exact h j hj
  · rw [List.getElem?_eq_none (by omega), List.getElem?_eq_none (by omega)]

theorem rotate1_R {n : Nat} (hn : 0 < n) (k : Nat) : rotate1 (R n k) = .ok (R n (k + 1)) := by
  obtain ⟨m', h1, h2, h3⟩ := rotate1_spec (R n k) (by simpa using hn)
  rw [h1]
  congr 1
  rw [R_length] at h2 h3
  refine list_ext_lt h2 (R_length _ _) (fun j hj => ?_)
  rw [h3 j hj, R_get (Nat.mod_lt _ hn), R_get hj]
  congr 1
  rw [Nat.mod_add_mod]
  congr 1; omega

theorem rotate1_S {n : Nat} (hn : 0 < n) (k : Nat) :
    rotate1 (S n (k + 1)) = .ok (S n k) := by
  obtain ⟨m', h1, h2, h3⟩ := rotate1_spec (S n (k+1)) (by simpa using hn)
  rw [h1]
  congr 1
  rw [S_length] at h2 h3
  refine list_ext_lt h2 (S_length _ _) (fun j hj => ?_)
  rw [h3 j hj, S_get (Nat.mod_lt _ hn), S_get hj]
  congr 1
  by_cases hl : j + 1 = n
  · rw [hl, Nat.mod_self]
    have : n - j = 1 := by omega
    rw [this]; simp
  · rw [Nat.mod_eq_of_lt (by omega : j + 1 < n)]
    congr 1; omega

theorem S_mod_add (n k : Nat) : S n (k + n) = S n k := by
  unfold S; apply List.map_congr_left; intro j _
  rw [show k + n + (n - j) = k + (n - j) + n by omega, Nat.add_mod_right]

/-- State of the dihedral iterator after `i` calls, `n ≥ 2`, `i ≤ 2n`. -/
def dState (n i : Nat) : Dihedral :=
  if i < n then ⟨R n i, .pos⟩
  else if i < 2 * n then ⟨S n (2 * n - i), .neg⟩
  else ⟨R n 0, .pos⟩

theorem R_head {n k : Nat} (hn : 0 < n) : rd (R n k) 0 = .ok (k % n) := by
  rw [rd_ok]; rw [R_get hn]; simp

theorem S_head {n k : Nat} (hn : 0 < n) : rd (S n k) 0 = .ok (k % n) := by
  rw [rd_ok]; rw [S_get hn]; simp

theorem incDihedral_step {n : Nat} (hn : 2 ≤ n) {i : Nat} (hi : i < 2 * n) :
    incDihedral (dState n i) = .ok (dState n (i + 1)) := by
  unfold dState
  by_cases h1 : i < n
  · rw [if_pos h1]
    unfold incDihedral
    simp only [R_length]
    rw [if_neg (by omega), R_head (by omega), ok_bind, Nat.mod_eq_of_lt h1]
    by_cases hl : i = n - 1
    · rw [if_pos (by simp [hl]), if_neg (by omega), if_pos (by omega)]
      rw [wr_lt (by simp; omega), ok_bind]
      obtain ⟨m, e1, e2, e3⟩ := fill_spec (fun i => n - i) (n - 1) 1 ((R n i).set 0 0)
        (by simp; omega)
      rw [e1, ok_bind]
      congr 2
      have : 2 * n - (i + 1) = 0 + n := by omega
      rw [this, S_mod_add]
      refine list_ext_lt (by rw [e2]; simp) (S_length _ _) (fun j hj => ?_)
      rw [e3 j, S_get hj]
      by_cases hj0 : j = 0
      · subst hj0
        rw [if_neg (by omega), List.getElem?_set_self (by simp; omega)]
        simp
      · rw [if_pos (by omega)]
        simp only [Nat.zero_add]
        rw [Nat.mod_eq_of_lt (by omega)]
    · rw [if_neg (by simp; omega), if_neg (by simp), if_pos (by omega), rotate1_R (by omega)]
      rfl
  · rw [if_neg h1, if_pos hi, if_neg (by omega)]
    unfold incDihedral
    simp only [S_length]
    rw [if_neg (by omega), S_head (by omega), ok_bind, if_neg (by simp)]
    by_cases hl : i = 2 * n - 1
    · have : (2 * n - i) % n = 1 := by
        rw [show 2 * n - i = 1 by omega, Nat.mod_eq_of_lt (by omega)]
      rw [if_pos (by simp [this]), if_neg (by omega)]
      obtain ⟨m, e1, e2, e3⟩ := fill_spec (fun i => i) n 0 (S n (2 * n - i)) (by simp)
      rw [e1, ok_bind]
      congr 2
      rw [R_zero]
      refine list_ext_lt (n := n) (by rw [e2]; simp) (by simp) (fun j hj => ?_)
      rw [e3 j, if_pos (by omega)]
      simp [hj]
    · have : (2 * n - i) % n ≠ 1 := by
        by_cases hin : i = n
        · rw [show 2 * n - i = n by omega, Nat.mod_self]; omega
        · rw [Nat.mod_eq_of_lt (by omega)]; omega
      rw [if_neg (by simp [this]), if_pos (by omega)]
      rw [show 2 * n - i = (2 * n - (i + 1)) + 1 by omega, rotate1_S (by omega)]
      rfl

end Plc.Iters
