import Verif.Proofs.Perm
import Mathlib.Data.Nat.Factorial.Basic
import Mathlib.Data.Finset.Range
import Mathlib.Data.List.Nodup

namespace Plc.PermM

open List

/-- All permutations of `0..n-1`. -/
def allPerms (n : Nat) : Finset (List Nat) := (List.range n).permutations.toFinset

theorem mem_allPerms {n : Nat} {q : List Nat} : q ∈ allPerms n ↔ q ~ List.range n := by
  simp [allPerms, List.mem_permutations]

theorem card_allPerms (n : Nat) : (allPerms n).card = n.factorial := by
  rw [allPerms, List.toFinset_card_of_nodup, List.length_permutations, List.length_range]
  exact (List.nodup_permutations_iff).mpr List.nodup_range

/-- Pure version of `nextLex`. -/
def nextF (l : List Nat) : List Nat :=
  match nextLex l with
  | .ok m => m
  | .error _ => l

theorem range_sorted (n : Nat) : (List.range n).Pairwise (· ≤ ·) :=
  List.pairwise_lt_range.imp (fun h => le_of_lt h)

theorem range_rev_sorted (n : Nat) : (List.range n).reverse.Pairwise (· ≥ ·) := by
  rw [List.pairwise_reverse]; exact range_sorted n

theorem nextLex_ok {m : List Nat} (hne : m ≠ []) : nextLex m = .ok (nextF m) := by
  unfold nextF
  rcases nextLex_spec m hne with ⟨_, h⟩ | ⟨m', h, _⟩ <;> rw [h]

theorem nextF_range_rev {n : Nat} (hn : 1 ≤ n) : nextF (List.range n).reverse = List.range n := by
  have hne : (List.range n).reverse ≠ [] := by
    intro h
    have := congrArg List.length h
    simp at this; omega
  rcases nextLex_spec _ hne with ⟨_, h⟩ | ⟨m', h, h1, h2, _⟩
  · unfold nextF; rw [h]; simp
  · exact absurd h2 (not_lt.mpr (le_desc_of_perm _ _ (range_rev_sorted n) h1))

theorem nextF_succ {n : Nat} (hn : 1 ≤ n) (x : List Nat) (hx : x ∈ allPerms n)
    (hne : x ≠ (List.range n).reverse) :
    nextF x ∈ allPerms n ∧ x < nextF x ∧ ∀ y ∈ allPerms n, x < y → nextF x ≤ y := by
  rw [mem_allPerms] at hx
  have hx0 : x ≠ [] := by
    rintro rfl
    have := hx.length_eq
    simp at this; omega
  rcases nextLex_spec x hx0 with ⟨hd, _⟩ | ⟨m', h, h1, h2, h3⟩
  · exfalso
    apply hne
    have hr : x ~ (List.range n).reverse := hx.trans (List.reverse_perm _).symm
    exact le_antisymm (le_desc_of_perm _ _ (range_rev_sorted n) hr)
      (le_desc_of_perm _ _ hd hr.symm)
  · have : nextF x = m' := by unfold nextF; rw [h]
    rw [this]
    refine ⟨mem_allPerms.mpr (h1.trans hx), h2, fun y hy => ?_⟩
    exact h3 y ((mem_allPerms.mp hy).trans hx.symm)

/-- The `i`-th permutation of `0..n-1`. -/
def nth (n i : Nat) : List Nat := nextF^[i] (List.range n)

theorem nth_enum {n : Nat} (hn : 1 ≤ n) :
    (∀ i, i < n.factorial → nth n i ∈ allPerms n ∧
      ((allPerms n).filter (· < nth n i)).card = i) ∧ nth n n.factorial = List.range n := by
  have := enum_succ (allPerms n) nextF (List.range n) (List.range n).reverse
    (mem_allPerms.mpr (List.Perm.refl _))
    (fun x hx => sorted_le_of_perm _ _ (range_sorted n) (mem_allPerms.mp hx))
    (mem_allPerms.mpr (List.reverse_perm _))
    (fun x hx => le_desc_of_perm _ _ (range_rev_sorted n)
      ((mem_allPerms.mp hx).trans (List.reverse_perm _).symm))
    (nextF_succ hn) (nextF_range_rev hn)
  rwa [card_allPerms] at this

theorem nth_lt {n : Nat} (hn : 1 ≤ n) {i j : Nat} (hij : i < j) (hj : j < n.factorial) :
    nth n i < nth n j := by
  obtain ⟨h1, h2⟩ := (nth_enum hn).1 i (by omega)
  obtain ⟨h3, h4⟩ := (nth_enum hn).1 j hj
  by_contra hle
  have hsub : (allPerms n).filter (· < nth n j) ⊆ (allPerms n).filter (· < nth n i) := by
    intro x hx
    simp only [Finset.mem_filter] at hx ⊢
    exact ⟨hx.1, lt_of_lt_of_le hx.2 (not_lt.mp hle)⟩
  have := Finset.card_le_card hsub
  omega

theorem nth_surj {n : Nat} (hn : 1 ≤ n) {q : List Nat} (hq : q ~ List.range n) :
    ∃ i, i < n.factorial ∧ nth n i = q := by
  have himg : (Finset.range n.factorial).image (nth n) = allPerms n := by
    apply Finset.eq_of_subset_of_card_le
    · intro x hx
      simp only [Finset.mem_image, Finset.mem_range] at hx
      obtain ⟨i, hi, rfl⟩ := hx
      exact ((nth_enum hn).1 i hi).1
    · rw [card_allPerms, Finset.card_image_of_injOn, Finset.card_range]
      intro i hi j hj hij
      simp only [Finset.coe_range, Set.mem_Iio] at hi hj
      rcases lt_trichotomy i j with h | h | h
      · exact absurd hij (ne_of_lt (nth_lt hn h hj))
      · exact h
      · exact absurd hij.symm (ne_of_lt (nth_lt hn h hi))
  have : q ∈ (Finset.range n.factorial).image (nth n) := by rw [himg]; exact mem_allPerms.mpr hq
  simpa using this

/-! ## The table -/

/-- What the kernel checks about the table: each row is followed by its Knuth successor,
the first is the identity, the sizes are right. -/
def tableOk (n : Nat) : Bool :=
  match pcTable[n]?, nPc[n]? with
  | some t, some k =>
    decide (k = t.length) && decide (t.head? = some (List.range n)) &&
      decide (t.map nextLex = (t.tail ++ [List.range n]).map .ok)
  | _, _ => false

theorem tables_ok : ∀ n < 7, n ≠ 0 → tableOk n = true := by decide +kernel

theorem nPc_fact : ∀ n < 7, n ≠ 0 → nPc[n]? = some n.factorial := by decide

theorem table_spec {n : Nat} (h1 : 1 ≤ n) (h2 : n ≤ 6) :
    ∃ t, pcTable[n]? = some t ∧ t.length = n.factorial ∧
      ∀ i, i < n.factorial → t[i]? = some (nth n i) := by
  have ht := tables_ok n (by omega) (by omega)
  have hf := nPc_fact n (by omega) (by omega)
  unfold tableOk at ht
  rw [hf] at ht
  cases hp : pcTable[n]? with
  | none => rw [hp] at ht; simp at ht
  | some t =>
    rw [hp] at ht
    simp only [Bool.and_eq_true, decide_eq_true_eq] at ht
    obtain ⟨⟨hl, hh⟩, hm⟩ := ht
    refine ⟨t, rfl, hl.symm, ?_⟩
    intro i
    induction i with
    | zero => intro _; rw [← List.head?_eq_getElem?, hh]; rfl
    | succ i ih =>
      intro hi
      have hi0 := ih (by omega)
      have hmi := congrArg (fun l => l[i]?) hm
      simp only [List.getElem?_map, hi0, Option.map_some] at hmi
      have htl : i < t.tail.length := by rw [List.length_tail]; omega
      rw [List.getElem?_append_left htl] at hmi
      rw [List.getElem?_tail] at hmi
      have hti : i + 1 < t.length := by omega
      rw [List.getElem?_eq_getElem hti] at hmi ⊢
      simp only [Option.map_some, Option.some.injEq] at hmi
      have hne : nth n i ≠ [] := by
        have := mem_allPerms.mp ((nth_enum h1).1 i (by omega)).1
        rintro h
        rw [h] at this
        have := this.length_eq
        simp at this; omega
      rw [nextLex_ok hne] at hmi
      have : nth n (i+1) = nextF (nth n i) := by
        unfold nth; rw [Function.iterate_succ_apply']
      rw [this]
      exact congrArg some (Except.ok.inj hmi).symm

/-! ## Incrementing -/

theorem nth_length {n : Nat} (hn : 1 ≤ n) {i : Nat} (hi : i < n.factorial) :
    (nth n i).length = n := by
  have := (mem_allPerms.mp ((nth_enum hn).1 i hi).1).length_eq
  simpa using this

/-- State of the iterator after `i` calls. -/
def stateAt (n i : Nat) : Perm :=
  if n ≤ 6 then ⟨nth n (i % n.factorial), i % n.factorial⟩ else ⟨nth n (i % n.factorial), 0⟩

theorem nth_mod_succ {n : Nat} (hn : 1 ≤ n) (i : Nat) :
    nextF (nth n (i % n.factorial)) = nth n ((i + 1) % n.factorial) := by
  have hp := Nat.factorial_pos n
  have hlt := Nat.mod_lt i hp
  have e : nextF (nth n (i % n.factorial)) = nth n (i % n.factorial + 1) := by
    unfold nth; rw [Function.iterate_succ_apply']
  rw [e]
  rcases Nat.lt_or_eq_of_le hlt with h | h
  · have : (i + 1) % n.factorial = i % n.factorial + 1 := by
      rw [Nat.add_mod]
      by_cases h1 : n.factorial = 1
      · omega
      · rw [Nat.mod_eq_of_lt (by omega : 1 < n.factorial)]
        exact Nat.mod_eq_of_lt h
    rw [this]
  · have : (i + 1) % n.factorial = 0 := by
      have : i + 1 = n.factorial * (i / n.factorial) + n.factorial := by
        have := Nat.div_add_mod i n.factorial
        omega
      rw [this]; simp
    rw [this]
    have h' : i % n.factorial + 1 = n.factorial := h
    rw [h', (nth_enum hn).2]
    rfl

theorem incPerm_stateAt {n : Nat} (hn : 1 ≤ n) (i : Nat) :
    incPerm (stateAt n i) = .ok (stateAt n (i + 1)) := by
  have hp := Nat.factorial_pos n
  have hlt := Nat.mod_lt i hp
  have hlt' := Nat.mod_lt (i+1) hp
  unfold stateAt
  by_cases h6 : n ≤ 6
  · rw [if_pos h6, if_pos h6]
    unfold incPerm Perm.n
    simp only [nth_length hn hlt]
    rw [if_pos (show n ≤ MAX_PC from h6), rd_ok (nPc_fact n (by omega) (by omega))]
    obtain ⟨t, ht1, ht2, ht3⟩ := table_spec hn h6
    simp only [ok_bind]
    rw [if_neg (by omega), rd_ok ht1]
    simp only [ok_bind]
    have : (i % n.factorial + 1) % n.factorial = (i + 1) % n.factorial := by
      simp [Nat.add_mod]
    rw [this, rd_ok (ht3 _ hlt')]
    rfl
  · rw [if_neg h6, if_neg h6]
    unfold incPerm Perm.n
    simp only [nth_length hn hlt]
    rw [if_neg (show ¬ n ≤ MAX_PC from h6)]
    have hne : nth n (i % n.factorial) ≠ [] := by
      rintro h
      have := nth_length hn hlt
      rw [h] at this
      simp at this; omega
    rw [nextLex_ok hne, nth_mod_succ hn]
    rfl

theorem newPerm_stateAt (n : Nat) : newPerm n = stateAt n 0 := by
  unfold newPerm stateAt
  simp [nth]

theorem iter_incPerm {n : Nat} (hn : 1 ≤ n) (i : Nat) :
    iterRes incPerm i (newPerm n) = .ok (stateAt n i) := by
  induction i with
  | zero => rw [newPerm_stateAt]; rfl
  | succ i ih => rw [iterRes, ih, ok_bind, incPerm_stateAt hn]

theorem factLoop_eq (n : Nat) : factLoop n = n.factorial % 2 ^ 32 := by
  induction n with
  | zero => rfl
  | succ n ih =>
    rw [factLoop, ih, Nat.factorial_succ, Nat.mod_mul_mod, Nat.mul_comm]

end Plc.PermM
