import Verif.Model.Builders
import Verif.Proofs.Basic
import Verif.Proofs.Std
import Mathlib.Tactic.SplitIfs
import Batteries.Lean.Except

/-! # C43: the example builders -/

namespace Plc

open Plc.Build Plc.Cmp

/-- An `n`-crossing list is legal: every number `0..2n-1` is written exactly twice, and no other number. -/
def Legal (n : Nat) (cross : List Cross) : Prop :=
  cross.length = n ∧ ∀ e, (cross.flatMap edges).count e = if e < 2 * n then 2 else 0

namespace Build

theorem wr_mid {α : Type} (pre suf : List α) (x y : α) {i : Nat} (hi : i = pre.length) :
    wr (pre ++ x :: suf) i y = .ok (pre ++ y :: suf) := by
  subst hi
  rw [wr_lt (by simp)]
  simp

theorem suf_cons {α : Type} {r : Nat} {suf : List α} (h : r + 1 ≤ suf.length) :
    ∃ x t, suf = x :: t ∧ r ≤ t.length := by
  cases suf with
  | nil => simp at h
  | cons x t => exact ⟨x, t, rfl, by simpa using h⟩

theorem wr_zero {α : Type} (x y : α) (suf : List α) : wr (x :: suf) 0 y = .ok (y :: suf) := wr_mid [] suf x y rfl

theorem wr_one {α : Type} (a x y : α) (suf : List α) : wr (a :: x :: suf) 1 y = .ok (a :: y :: suf) :=
  wr_mid [a] suf x y rfl

/-- Decides every condition that the hypotheses settle, and splits on the others. -/
macro "settle" : tactic =>
  `(tactic| first
    | (simp (disch := omega) only [if_pos, if_neg]; done)
    | ((try simp (disch := omega) only [if_pos, if_neg]); split_ifs <;> omega))

/-- The crossing written by the loops for twist knots and unknots. -/
def tw (i : Nat) : Cross := mk (2 * i) (2 * i + 1) (2 * i + 3) (2 * i + 2)

theorem twistLoop_ok : ∀ (r i : Nat) (pre suf : List Cross), pre.length = i + 1 → r ≤ suf.length →
    twistLoop r i (pre ++ suf) = .ok (pre ++ (List.range' i r).map tw ++ suf.drop r) := by
  intro r
  induction r with
  | zero => intro i pre suf _ _; simp [twistLoop]
  | succ r ih =>
    intro i pre suf hp hs
    obtain ⟨x, t, rfl, ht⟩ := suf_cons hs
    rw [twistLoop, wr_mid pre t x _ hp.symm, ok_bind,
      show pre ++ mk (2 * i) (2 * i + 1) (2 * i + 3) (2 * i + 2) :: t = (pre ++ [tw i]) ++ t by simp [tw],
      ih (i + 1) (pre ++ [tw i]) t (by simp [hp]) ht]
    simp [List.range'_succ]

theorem unknotLoop_ok : ∀ (r i : Nat) (pre suf : List Cross), pre.length = i → r ≤ suf.length →
    unknotLoop r i (pre ++ suf) = .ok (pre ++ (List.range' i r).map tw ++ suf.drop r) := by
  intro r
  induction r with
  | zero => intro i pre suf _ _; simp [unknotLoop]
  | succ r ih =>
    intro i pre suf hp hs
    obtain ⟨x, t, rfl, ht⟩ := suf_cons hs
    rw [unknotLoop, wr_mid pre t x _ hp.symm, ok_bind,
      show pre ++ mk (2 * i) (2 * i + 1) (2 * i + 3) (2 * i + 2) :: t = (pre ++ [tw i]) ++ t by simp [tw],
      ih (i + 1) (pre ++ [tw i]) t (by simp [hp]) ht]
    simp [List.range'_succ]

theorem count_four (e a b c d : Nat) :
    (edges (mk a b c d)).count e = (if e = a then 1 else 0) + (if e = b then 1 else 0) + (if e = c then 1 else 0) +
      (if e = d then 1 else 0) := by
  simp only [edges, mk, List.count_cons, List.count_nil, beq_iff_eq]
  simp only [eq_comm (b := e)]
  omega

theorem tw_count (e i r : Nat) : (((List.range' i r).map tw).flatMap edges).count e =
    (if 2 * i ≤ e ∧ e < 2 * i + 2 * r then 1 else 0) + (if 2 * i + 2 ≤ e ∧ e < 2 * i + 2 + 2 * r then 1 else 0) := by
  induction r generalizing i with
  | zero => rw [if_neg (by omega), if_neg (by omega)]; rfl
  | succ r ih =>
    rw [List.range'_succ, List.map_cons, List.flatMap_cons, List.count_append, ih, tw, count_four]
    split_ifs <;> omega

/-- The crossing list of a twist knot with at least two twists. -/
def twistList (n : Nat) : List Cross :=
  mk 0 1 2 (2 * n + 2) :: mk 0 (2 * n + 3) 3 1 :: (List.range' 1 n).map tw

theorem new_length {mv : Nat} (h : 2 ≤ mv) : (new mv).length = mv := by
  simp only [new, List.length_replicate, Io.capsNew]
  omega

theorem new_split {mv : Nat} (h : 2 ≤ mv) : new mv = [mk 0 0 0 0, mk 0 0 0 0] ++ List.replicate (mv - 2) (mk 0 0 0 0) := by
  rw [new]
  obtain ⟨k, rfl⟩ : ∃ k, mv = k + 2 := ⟨mv - 2, by omega⟩
  have : (Io.capsNew (k + 2)).verts = k + 2 := by simp only [Io.capsNew]; omega
  rw [this, List.replicate_succ, List.replicate_succ]
  rfl

theorem twist_eq {n : Nat} (h : 2 ≤ n) : twist n = .ok (twistList n) := by
  unfold twist
  simp only
  rw [if_neg (by omega), if_neg (by omega), new_split (by omega)]
  simp only [List.cons_append, List.nil_append, Nat.add_sub_cancel]
  rw [show 2 * (n + 2) - 2 = 2 * n + 2 by omega, show 2 * (n + 2) - 1 = 2 * n + 3 by omega]
  rw [wr_zero, ok_bind, wr_one, ok_bind,
    show mk 0 1 2 (2 * n + 2) :: mk 0 (2 * n + 3) 3 1 :: List.replicate n (mk 0 0 0 0) =
      [mk 0 1 2 (2 * n + 2), mk 0 (2 * n + 3) 3 1] ++ List.replicate n (mk 0 0 0 0) from rfl,
    twistLoop_ok n 1 _ _ rfl (by simp), ok_bind, List.drop_eq_nil_of_le (by simp), List.append_nil,
    List.take_of_length_le (by simp)]
  rfl

/-- The crossing list of an unknot with at least two crossings. -/
def unknotList (n : Nat) : List Cross :=
  mk 0 0 3 2 :: ((List.range' 1 (n - 2)).map tw ++ [mk 1 1 (2 * n - 2) (2 * n - 1)])

theorem unknot_eq {n : Nat} (h : 2 ≤ n) : unknot n = .ok (unknotList n) := by
  unfold unknot
  rw [if_neg (by omega), if_neg (by omega)]
  have hnew : new n = mk 0 0 0 0 :: (List.replicate (n - 2) (mk 0 0 0 0) ++ [mk 0 0 0 0]) := by
    rw [new_split h, ← List.replicate_succ']
    simp [List.replicate_succ]
  rw [hnew, wr_zero, ok_bind,
    show mk 0 0 3 2 :: (List.replicate (n - 2) (mk 0 0 0 0) ++ [mk 0 0 0 0]) =
      (mk 0 0 3 2 :: List.replicate (n - 2) (mk 0 0 0 0)) ++ mk 0 0 0 0 :: [] from rfl,
    wr_mid _ _ _ _ (by simp; omega), ok_bind,
    show mk 0 0 3 2 :: List.replicate (n - 2) (mk 0 0 0 0) ++ [mk 1 1 (2 * n - 2) (2 * n - 1)] =
      [mk 0 0 3 2] ++ (List.replicate (n - 2) (mk 0 0 0 0) ++ [mk 1 1 (2 * n - 2) (2 * n - 1)]) from rfl,
    unknotLoop_ok (n - 2) 1 _ _ rfl (by simp), ok_bind, List.take_of_length_le (by simp; omega), List.drop_left' (by simp),
    List.append_assoc]
  rfl

/-- Crossing `i` of a torus knot. -/
def tor (q i : Nat) : Cross := (torusCross q i).2

theorem torusCross_fst (q i : Nat) (h : 1 ≤ i) : (torusCross q i).1 = i := by
  unfold torusCross
  split <;> simp only <;> omega

theorem torusLoop_ok (q : Nat) : ∀ (r i : Nat) (pre suf : List Cross), 1 ≤ i → pre.length = i → r ≤ suf.length →
    torusLoop q r i (pre ++ suf) = .ok (pre ++ (List.range' i r).map (tor q) ++ suf.drop r) := by
  intro r
  induction r with
  | zero => intro i pre suf _ _ _; simp [torusLoop]
  | succ r ih =>
    intro i pre suf h1 hp hs
    obtain ⟨x, t, rfl, ht⟩ := suf_cons hs
    rw [torusLoop, torusCross_fst q i h1, wr_mid pre t x _ hp.symm, ok_bind,
      show pre ++ (torusCross q i).2 :: t = (pre ++ [tor q i]) ++ t by simp [tor],
      ih (i + 1) (pre ++ [tor q i]) t (by omega) (by simp [hp]) ht]
    simp [List.range'_succ]

theorem tor_count (q e i : Nat) (h1 : 1 ≤ i) (h2 : i < q) : (edges (tor q i)).count e =
    (if e = i then 1 else 0) + (if e = i - 1 then 1 else 0) + (if e = i + q then 1 else 0) +
      (if e = i + q - 1 then 1 else 0) := by
  unfold tor torusCross
  split
  · simp only
    rw [count_four, Nat.mod_eq_of_lt (by omega), Nat.mod_eq_of_lt (by omega), Nat.mod_eq_of_lt (by omega),
      show 2 * (i / 2) = i by omega]
    omega
  · simp only
    rw [count_four, Nat.mod_eq_of_lt (by omega), Nat.mod_eq_of_lt (by omega), Nat.mod_eq_of_lt (by omega),
      show 2 * ((i - 1) / 2) = i - 1 by omega, show i - 1 + q + 1 = i + q by omega, show i - 1 + q = i + q - 1 by omega,
      show i - 1 + 1 = i by omega]
    omega

theorem tors_count (q e : Nat) : ∀ (r i : Nat), 1 ≤ i → i + r ≤ q →
    (((List.range' i r).map (tor q)).flatMap edges).count e =
    (if i ≤ e ∧ e < i + r then 1 else 0) + (if i ≤ e + 1 ∧ e + 1 < i + r then 1 else 0) +
    (if i + q ≤ e ∧ e < i + q + r then 1 else 0) + (if i + q ≤ e + 1 ∧ e + 1 < i + q + r then 1 else 0) := by
  intro r
  induction r with
  | zero => intro i _ _; rw [if_neg (by omega), if_neg (by omega), if_neg (by omega), if_neg (by omega)]; rfl
  | succ r ih =>
    intro i h1 h2
    rw [List.range'_succ, List.map_cons, List.flatMap_cons, List.count_append, ih (i + 1) (by omega) (by omega),
      tor_count q e i h1 (by omega)]
    have a1 : (if e = i then 1 else 0) + (if i + 1 ≤ e ∧ e < i + 1 + r then 1 else 0) =
      (if i ≤ e ∧ e < i + (r + 1) then 1 else 0) := by split_ifs <;> omega
    have a2 : (if e = i - 1 then 1 else 0) + (if i + 1 ≤ e + 1 ∧ e + 1 < i + 1 + r then 1 else 0) =
      (if i ≤ e + 1 ∧ e + 1 < i + (r + 1) then 1 else 0) := by split_ifs <;> omega
    have a3 : (if e = i + q then 1 else 0) + (if i + 1 + q ≤ e ∧ e < i + 1 + q + r then 1 else 0) =
      (if i + q ≤ e ∧ e < i + q + (r + 1) then 1 else 0) := by split_ifs <;> omega
    have a4 : (if e = i + q - 1 then 1 else 0) + (if i + 1 + q ≤ e + 1 ∧ e + 1 < i + 1 + q + r then 1 else 0) =
      (if i + q ≤ e + 1 ∧ e + 1 < i + q + (r + 1) then 1 else 0) := by split_ifs <;> omega
    rw [← a1, ← a2, ← a3, ← a4]
    omega

/-- The crossing list of a torus knot. -/
def torusList (q : Nat) : List Cross := torusFirst q :: (List.range' 1 (q - 1)).map (tor q)

theorem torus_eq {q : Nat} (h : 2 ≤ q) : torus 2 q = .ok (torusList q) := by
  unfold torus
  rw [if_neg (by decide), if_neg (by omega), Nat.mul_one]
  have hnew : new q = mk 0 0 0 0 :: List.replicate (q - 1) (mk 0 0 0 0) := by
    rw [new_split h]
    obtain ⟨k, rfl⟩ : ∃ k, q = k + 2 := ⟨q - 2, by omega⟩
    simp [List.replicate_succ]
  rw [hnew, wr_zero, ok_bind,
    show torusFirst q :: List.replicate (q - 1) (mk 0 0 0 0) = [torusFirst q] ++ List.replicate (q - 1) (mk 0 0 0 0) from rfl,
    torusLoop_ok q (q - 1) 1 _ _ (by decide) rfl (by simp), ok_bind, List.drop_eq_nil_of_le (by simp), List.append_nil,
    List.take_of_length_le (by simp; omega)]
  rfl

/-- The two crossings written by round `i` of the loop for chains. -/
def ch1 (i : Nat) : Cross := mk (4 * i) (4 * i + 3) (4 * i + 5) (4 * i + 4)
def ch2 (i : Nat) : Cross := mk (4 * i + 2) (4 * i + 6) (4 * i + 5) (4 * i + 3)

theorem chainLoop_ok : ∀ (r i : Nat) (pre suf : List Cross), pre.length = 2 * i → 2 * r ≤ suf.length →
    chainLoop r i (pre ++ suf) = .ok (pre ++ (List.range' i r).flatMap (fun j => [ch1 j, ch2 j]) ++ suf.drop (2 * r)) := by
  intro r
  induction r with
  | zero => intro i pre suf _ _; simp [chainLoop]
  | succ r ih =>
    intro i pre suf hp hs
    obtain ⟨x, t, rfl, ht⟩ := suf_cons (r := 2 * r + 1) (by omega)
    obtain ⟨y, t, rfl, ht⟩ := suf_cons (r := 2 * r) ht
    rw [chainLoop, wr_mid pre _ x _ hp.symm, ok_bind,
      show pre ++ mk (4 * i) (4 * i + 3) (4 * i + 5) (4 * i + 4) :: y :: t = (pre ++ [ch1 i]) ++ y :: t by simp [ch1],
      wr_mid (pre ++ [ch1 i]) t y _ (by simp [hp]), ok_bind,
      show (pre ++ [ch1 i]) ++ mk (4 * i + 2) (4 * i + 6) (4 * i + 5) (4 * i + 3) :: t = (pre ++ [ch1 i, ch2 i]) ++ t by
        simp [ch2],
      ih (i + 1) (pre ++ [ch1 i, ch2 i]) t (by simp [hp]; omega) (by simp at ht; omega)]
    simp [List.range'_succ, Nat.mul_succ]

theorem ch_count (e : Nat) : ∀ (r i : Nat),
    (((List.range' i r).flatMap (fun j => [ch1 j, ch2 j])).flatMap edges).count e =
    (if 4 * i + 3 ≤ e ∧ e < 4 * (i + r) + 2 ∧ e % 2 = 1 then 2 else 0) +
    (if 4 * i ≤ e ∧ e < 4 * (i + r) ∧ e % 2 = 0 then 1 else 0) +
    (if 4 * i + 4 ≤ e ∧ e < 4 * (i + r) + 4 ∧ e % 2 = 0 then 1 else 0) := by
  intro r
  induction r with
  | zero => intro i; rw [if_neg (by omega)]; split_ifs <;> first | rfl | omega
  | succ r ih =>
    intro i
    rw [List.range'_succ, List.flatMap_cons, List.flatMap_append, List.count_append, ih (i + 1)]
    simp only [List.flatMap_cons, List.flatMap_nil, List.append_nil, List.count_append, ch1, ch2, count_four]
    rw [show i + 1 + r = i + (r + 1) by omega]
    have a1 : (if e = 4 * i + 3 then 1 else 0) + (if e = 4 * i + 5 then 1 else 0) + (if e = 4 * i + 3 then 1 else 0) +
        (if e = 4 * i + 5 then 1 else 0) +
        (if 4 * (i + 1) + 3 ≤ e ∧ e < 4 * (i + (r + 1)) + 2 ∧ e % 2 = 1 then 2 else 0) =
      (if 4 * i + 3 ≤ e ∧ e < 4 * (i + (r + 1)) + 2 ∧ e % 2 = 1 then 2 else 0) := by split_ifs <;> omega
    have a2 : (if e = 4 * i then 1 else 0) + (if e = 4 * i + 2 then 1 else 0) +
        (if 4 * (i + 1) ≤ e ∧ e < 4 * (i + (r + 1)) ∧ e % 2 = 0 then 1 else 0) =
      (if 4 * i ≤ e ∧ e < 4 * (i + (r + 1)) ∧ e % 2 = 0 then 1 else 0) := by split_ifs <;> omega
    have a3 : (if e = 4 * i + 4 then 1 else 0) + (if e = 4 * i + 6 then 1 else 0) +
        (if 4 * (i + 1) + 4 ≤ e ∧ e < 4 * (i + (r + 1)) + 4 ∧ e % 2 = 0 then 1 else 0) =
      (if 4 * i + 4 ≤ e ∧ e < 4 * (i + (r + 1)) + 4 ∧ e % 2 = 0 then 1 else 0) := by split_ifs <;> omega
    rw [← a1, ← a2, ← a3]
    omega

/-- The crossing list of a chain with at least four links. -/
def chainList (n : Nat) : List Cross :=
  [mk 0 1 5 4, mk 0 6 5 1] ++ (List.range' 1 (n - 3)).flatMap (fun j => [ch1 j, ch2 j]) ++
    [mk 2 3 (4 * n - 8) (4 * n - 5), mk 2 (4 * n - 5) (4 * n - 6) 3]

theorem flat2_length (l : List Nat) : (l.flatMap (fun j => [ch1 j, ch2 j])).length = 2 * l.length := by
  induction l with
  | nil => rfl
  | cons a l ih => simp only [List.flatMap_cons, List.length_append, ih, List.length_cons, List.length_nil]; omega

theorem chain_eq {n : Nat} (h : 4 ≤ n) : chain n = .ok (chainList n) := by
  unfold chain
  simp only
  rw [if_neg (by omega), if_neg (by omega), if_neg (by omega), if_neg (by omega), new_split (by omega)]
  simp only [List.cons_append, List.nil_append]
  rw [wr_zero, ok_bind, wr_one, ok_bind,
    show mk 0 1 5 4 :: mk 0 6 5 1 :: List.replicate (2 * (n - 1) - 2) (mk 0 0 0 0) =
      [mk 0 1 5 4, mk 0 6 5 1] ++ List.replicate (2 * (n - 1) - 2) (mk 0 0 0 0) from rfl,
    chainLoop_ok (n - 2) 1 _ _ rfl (by simp; omega), ok_bind, List.drop_eq_nil_of_le (by simp; omega), List.append_nil]
  obtain ⟨k, rfl⟩ : ∃ k, n = k + 3 := ⟨n - 3, by omega⟩
  have hr : (List.range' 1 (k + 3 - 2)).flatMap (fun j => [ch1 j, ch2 j]) =
      (List.range' 1 k).flatMap (fun j => [ch1 j, ch2 j]) ++ [ch1 (1 + k), ch2 (1 + k)] := by
    rw [show k + 3 - 2 = k + 1 by omega, List.range'_1_concat, List.flatMap_append]
    simp
  have hl := flat2_length (List.range' 1 k)
  rw [List.length_range'] at hl
  rw [hr, show [mk 0 1 5 4, mk 0 6 5 1] ++ ((List.range' 1 k).flatMap (fun j => [ch1 j, ch2 j]) ++ [ch1 (1 + k), ch2 (1 + k)]) =
      ([mk 0 1 5 4, mk 0 6 5 1] ++ (List.range' 1 k).flatMap (fun j => [ch1 j, ch2 j])) ++ ch1 (1 + k) :: [ch2 (1 + k)] by
        simp, wr_mid _ _ _ _ (by simp only [List.length_append, hl, List.length_cons, List.length_nil]; omega), ok_bind,
    show ∀ (y : Cross), ([mk 0 1 5 4, mk 0 6 5 1] ++ (List.range' 1 k).flatMap (fun j => [ch1 j, ch2 j])) ++ y :: [ch2 (1 + k)] =
      ([mk 0 1 5 4, mk 0 6 5 1] ++ (List.range' 1 k).flatMap (fun j => [ch1 j, ch2 j]) ++ [y]) ++ ch2 (1 + k) :: [] by
        simp, wr_mid _ _ _ _ (by simp only [List.length_append, hl, List.length_cons, List.length_nil]; omega), ok_bind,
    List.take_of_length_le (by simp only [List.length_append, hl, List.length_cons, List.length_nil]; omega)]
  simp [chainList]

end Build

/-- **C43.** Twist knots. -/
theorem C43_twist (n : Nat) (h : 1 ≤ n) : ∃ cross, twist n = .ok cross ∧ Legal (n + 2) cross := by
  by_cases h2 : 2 ≤ n
  · refine ⟨_, twist_eq h2, by simp [twistList], ?_⟩
    intro e
    rw [twistList, List.flatMap_cons, List.flatMap_cons, List.count_append, List.count_append, tw_count, count_four, count_four]
    have : e = 0 ∨ e = 1 ∨ e = 2 ∨ e = 3 ∨ (4 ≤ e ∧ e < 2 * n + 2) ∨ e = 2 * n + 2 ∨ e = 2 * n + 3 ∨ 2 * n + 4 ≤ e := by omega
    rcases this with h | h | h | h | h | h | h | h <;> settle
  · have : n = 1 := by omega
    subst this
    refine ⟨[mk 0 5 3 1, mk 0 1 2 4, mk 2 3 5 4], rfl, rfl, ?_⟩
    intro e
    simp only [List.flatMap_cons, List.flatMap_nil, List.count_append, List.count_nil, count_four]
    have : e = 0 ∨ e = 1 ∨ e = 2 ∨ e = 3 ∨ e = 4 ∨ e = 5 ∨ 6 ≤ e := by omega
    rcases this with h | h | h | h | h | h | h <;> settle

/-- **C43.** Torus knots and links `(2,q)`. -/
theorem C43_torus (q : Nat) (h : 2 ≤ q) : ∃ cross, torus 2 q = .ok cross ∧ Legal q cross := by
  refine ⟨_, torus_eq h, by simp [torusList]; omega, ?_⟩
  intro e
  rw [torusList, List.flatMap_cons, List.count_append, tors_count q e (q - 1) 1 (by decide) (by omega), torusFirst]
  have : e = 0 ∨ (1 ≤ e ∧ e + 1 < q) ∨ e + 1 = q ∨ e = q ∨ (q < e ∧ e + 1 < 2 * q) ∨ e + 1 = 2 * q ∨ 2 * q ≤ e := by omega
  split
  · rw [count_four]
    rcases this with h | h | h | h | h | h | h <;> settle
  · rw [count_four]
    rcases this with h | h | h | h | h | h | h <;> settle

/-- **C43.** Chains of `n ≥ 2` links (one link is the unknot without crossings). -/
theorem C43_chain (n : Nat) (h : 2 ≤ n) : ∃ cross, chain n = .ok cross ∧ Legal (2 * (n - 1)) cross := by
  by_cases h4 : 4 ≤ n
  · refine ⟨_, chain_eq h4, ?_, ?_⟩
    · simp only [chainList, List.length_append, flat2_length, List.length_cons, List.length_nil, List.length_range']
      omega
    intro e
    rw [chainList, List.flatMap_append, List.flatMap_append, List.count_append, List.count_append, ch_count]
    simp only [List.flatMap_cons, List.flatMap_nil, List.count_append, List.count_nil, count_four]
    have : e = 0 ∨ e = 1 ∨ e = 2 ∨ e = 3 ∨ e = 4 ∨ e = 5 ∨ e = 6 ∨ (7 ≤ e ∧ e + 8 < 4 * n ∧ e % 2 = 0) ∨
      (7 ≤ e ∧ e + 8 < 4 * n ∧ e % 2 = 1) ∨ e + 8 = 4 * n ∨ e + 7 = 4 * n ∨ e + 6 = 4 * n ∨ e + 5 = 4 * n ∨
      4 * n ≤ e + 4 := by omega
    rcases this with h | h | h | h | h | h | h | h | h | h | h | h | h | h
    all_goals settle
  · by_cases h3 : n = 3
    · subst h3
      refine ⟨[mk 0 2 1 5, mk 0 5 1 4, mk 2 6 3 7, mk 3 6 4 7], rfl, rfl, ?_⟩
      intro e
      simp only [List.flatMap_cons, List.flatMap_nil, List.count_append, List.count_nil, count_four]
      have : e = 0 ∨ e = 1 ∨ e = 2 ∨ e = 3 ∨ e = 4 ∨ e = 5 ∨ e = 6 ∨ e = 7 ∨ 8 ≤ e := by omega
      rcases this with h | h | h | h | h | h | h | h | h <;> settle
    · have : n = 2 := by omega
      subst this
      refine ⟨_, rfl, rfl, ?_⟩
      intro e
      have : ([⟨0, 2, 1, 3, .pos⟩, ⟨0, 3, 1, 2, .pos⟩] : List Cross).flatMap edges =
        [mk 0 2 1 3, mk 0 3 1 2].flatMap edges := rfl
      rw [this]
      simp only [List.flatMap_cons, List.flatMap_nil, List.count_append, List.count_nil, count_four]
      have : e = 0 ∨ e = 1 ∨ e = 2 ∨ e = 3 ∨ e = 4 ∨ e = 5 ∨ e = 6 ∨ e = 7 ∨ 8 ≤ e := by omega
      rcases this with h | h | h | h | h | h | h | h | h <;> settle

/-- **C43.** Unknots with `n ≥ 1` crossings. -/
theorem C43_unknot (n : Nat) (h : 1 ≤ n) : ∃ cross, unknot n = .ok cross ∧ Legal n cross := by
  by_cases h2 : 2 ≤ n
  · refine ⟨_, unknot_eq h2, by simp [unknotList]; omega, ?_⟩
    intro e
    rw [unknotList, List.flatMap_cons, List.flatMap_append, List.count_append, List.count_append, tw_count]
    simp only [List.flatMap_cons, List.flatMap_nil, List.count_append, List.count_nil, count_four]
    have : e = 0 ∨ e = 1 ∨ e = 2 ∨ e = 3 ∨ (4 ≤ e ∧ e + 2 < 2 * n) ∨ e + 2 = 2 * n ∨ e + 1 = 2 * n ∨ 2 * n ≤ e := by omega
    rcases this with h | h | h | h | h | h | h | h <;> settle
  · have : n = 1 := by omega
    subst this
    refine ⟨_, rfl, rfl, ?_⟩
    intro e
    have : ([⟨0, 0, 1, 1, .pos⟩] : List Cross).flatMap edges = [mk 0 0 1 1].flatMap edges := rfl
    rw [this]
    simp only [List.flatMap_cons, List.flatMap_nil, List.count_append, List.count_nil, count_four]
    split_ifs <;> omega

/-- The five-crossing builders. -/
example : twist 3 = .ok [mk 0 1 2 8, mk 0 9 3 1, mk 2 3 5 4, mk 4 5 7 6, mk 6 7 9 8] := by decide

example : torus 2 5 = .ok [mk 0 4 9 5, mk 6 0 5 1, mk 2 6 1 7, mk 8 2 7 3, mk 4 8 3 9] := by decide

example : chain 4 = .ok [mk 0 1 5 4, mk 0 6 5 1, mk 4 7 9 8, mk 6 10 9 7, mk 2 3 8 11, mk 2 11 10 3] := by decide

example : unknot 4 = .ok [mk 0 0 3 2, mk 2 3 5 4, mk 4 5 7 6, mk 1 1 6 7] := by decide

/-- Sizes the builders refuse, and a torus knot that is not `(2,q)`. -/
example : twist 0 = .error .die ∧ torus 2 1 = .error .die ∧ torus 3 4 = .error .die ∧ chain 0 = .error .die := by decide

end Plc
