import Verif.Model.Multidx
import Verif.Spec.Iter
import Verif.Proofs.Basic
import Mathlib.Algebra.BigOperators.Group.List.Basic

namespace Plc.Multidx

theorem set_map_range {α : Type} (n k : Nat) (f : Nat → α) (v : α) :
    ((List.range n).map f).set k v = (List.range n).map (fun p => if p = k then v else f p) := by
  apply List.ext_getElem?
  intro j
  by_cases hj : j < n
  · by_cases hk : k = j
    · subst hk
      rw [List.getElem?_set_self (by simpa using hj)]
      simp [hj]
    · rw [List.getElem?_set_ne hk]
      simp [hj, Ne.symm hk]
  · rw [List.getElem?_eq_none (by simp; omega), List.getElem?_eq_none (by simp; omega)]

theorem rd_map_range {α : Type} {n k : Nat} (f : Nat → α) (h : k < n) :
    rd ((List.range n).map f) k = .ok (f k) := by
  rw [rd_ok]; simp [h]

theorem map_range_congr {α : Type} {n : Nat} {f g : Nat → α} (h : ∀ p, p < n → f p = g p) :
    (List.range n).map f = (List.range n).map g :=
  List.map_congr_left (fun p hp => h p (List.mem_range.mp hp))

/-- A state given by functions of the position. -/
def mk {σ : Type} (n : Nat) (o : Nat → σ) (a b : Nat → Nat) : Multi σ :=
  ⟨(List.range n).map o, (List.range n).map a, (List.range n).map b⟩

theorem incLoop_spec {σ : Type} (ops : Ops σ) (n : Nat) (b : Nat → Nat) (o' : Nat → σ) :
    ∀ (c k : Nat) (o : Nat → σ) (a : Nat → Nat), k + c ≤ n →
    (∀ p, k ≤ p → p < k + c → b p ≠ 0 ∧ ops.incr (o p) = .ok (o' p)) →
    incLoop ops c k (mk n o a b) =
      .ok (mk n (fun p => if k ≤ p ∧ p < k + c then o' p else o p)
        (fun p => if k ≤ p ∧ p < k + c then (a p + 1) % b p else a p) b)
  | 0, k, o, a, _, _ => by
    rw [incLoop]
    congr 2
    · funext p; rw [if_neg (by omega)]
    · funext p; rw [if_neg (by omega)]
  | c + 1, k, o, a, hk, h => by
    have h0 := h k (by omega) (by omega)
    rw [incLoop]
    simp only [mk]
    rw [rd_map_range a (by omega), ok_bind, rd_map_range b (by omega), ok_bind, if_neg h0.1,
      wr_lt (by simp; omega), ok_bind, rd_map_range o (by omega), ok_bind, h0.2, ok_bind,
      wr_lt (by simp; omega), ok_bind, set_map_range, set_map_range]
    have ih := incLoop_spec ops n b o' c (k+1) (fun p => if p = k then o' k else o p)
      (fun p => if p = k then (a k + 1) % b k else a p) (by omega) (by
        intro p hp1 hp2
        have := h p (by omega) (by omega)
        rw [if_neg (by omega)]
        exact this)
    simp only [mk] at ih
    rw [ih]
    congr 2
    · apply map_range_congr
      intro p _
      by_cases hpk : p = k
      · subst hpk; simp
      · by_cases hr : k + 1 ≤ p ∧ p < k + 1 + c
        · rw [if_pos hr, if_pos (by omega)]
        · rw [if_neg hr, if_neg hpk, if_neg (by omega)]
    · apply map_range_congr
      intro p _
      by_cases hpk : p = k
      · subst hpk
        rw [if_neg (by omega), if_pos rfl, if_pos (by omega)]
      · by_cases hr : k + 1 ≤ p ∧ p < k + 1 + c
        · rw [if_pos hr, if_neg hpk, if_pos (by omega)]
        · rw [if_neg hr, if_neg hpk, if_neg (by omega)]

theorem countRR_spec {σ : Type} (n : Nat) (o : Nat → σ) (a b : Nat → Nat) :
    ∀ c rr, rr + c = n → (∀ q, n - rr ≤ q → q < n → a q = pred32 (b q)) →
    ∃ r, countRR (mk n o a b) c rr = .ok r ∧ rr ≤ r ∧ r ≤ n ∧
      (∀ q, n - r ≤ q → q < n → a q = pred32 (b q)) ∧
      (r < n → a (n - 1 - r) ≠ pred32 (b (n - 1 - r)))
  | 0, rr, h, hq => ⟨rr, rfl, Nat.le_refl _, by omega, hq, by omega⟩
  | c + 1, rr, h, hq => by
    rw [countRR]
    have hl : (mk n o a b).obj.length = n := by simp [mk]
    rw [hl]
    simp only [mk]
    rw [rd_map_range a (by omega), ok_bind, rd_map_range b (by omega), ok_bind]
    by_cases hne : a (n - 1 - rr) ≠ pred32 (b (n - 1 - rr))
    · rw [if_pos hne]
      exact ⟨rr, rfl, Nat.le_refl _, by omega, hq, fun _ => hne⟩
    · rw [if_neg hne]
      obtain ⟨r, h1, h2, h3, h4, h5⟩ := countRR_spec n o a b c (rr+1) (by omega) (by
        intro q hq1 hq2
        by_cases hqe : q = n - 1 - rr
        · subst hqe; exact not_ne_iff.mp hne
        · exact hq q (by omega) hq2)
      exact ⟨r, h1, by omega, h3, h4, h5⟩

/-- One increment: position `p` is advanced exactly when all later positions are at
their last value. -/
theorem incMultidx_spec {σ : Type} (ops : Ops σ) (n : Nat) (o o' : Nat → σ) (a b : Nat → Nat)
    (h : ∀ p, p < n → b p ≠ 0 ∧ ops.incr (o p) = .ok (o' p)) [DecidablePred fun p =>
      ∀ q, p < q → q < n → a q = pred32 (b q)] :
    incMultidx ops (mk n o a b) =
      .ok (mk n (fun p => if ∀ q, p < q → q < n → a q = pred32 (b q) then o' p else o p)
        (fun p => if ∀ q, p < q → q < n → a q = pred32 (b q) then (a p + 1) % b p else a p) b) := by
  obtain ⟨r, h1, _, h3, h4, h5⟩ := countRR_spec n o a b n 0 (by omega) (by intros; omega)
  have hl : (mk n o a b).obj.length = n := by simp [mk]
  unfold incMultidx
  rw [hl, h1, ok_bind]
  simp only
  have key : ∀ c, c = (if r < n then r + 1 else r) → c ≤ n ∧
      ∀ p, p < n → ((n - c ≤ p ∧ p < n - c + c) ↔ ∀ q, p < q → q < n → a q = pred32 (b q)) := by
    intro c hc
    by_cases hr : r < n
    · rw [if_pos hr] at hc
      refine ⟨by omega, fun p hp => ?_⟩
      constructor
      · intro hcp q hq1 hq2
        exact h4 q (by omega) hq2
      · intro hq
        refine ⟨?_, by omega⟩
        by_contra hlt
        exact h5 hr (hq (n - 1 - r) (by omega) (by omega))
    · rw [if_neg hr] at hc
      refine ⟨by omega, fun p hp => ?_⟩
      constructor
      · intro hcp q hq1 hq2
        exact h4 q (by omega) hq2
      · intro _; omega
  generalize hc : (if r < n then r + 1 else r) = c at *
  obtain ⟨k1, k2⟩ := key c rfl
  rw [incLoop_spec ops n b o' c (n - c) o a (by omega) (fun p _ hp => h p (by omega))]
  unfold mk
  congr 2
  · apply map_range_congr
    intro p hp
    have := k2 p hp
    by_cases hq : ∀ q, p < q → q < n → a q = pred32 (b q)
    · rw [if_pos hq, if_pos (this.mpr hq)]
    · rw [if_neg hq, if_neg (fun h' => hq (this.mp h'))]
  · apply map_range_congr
    intro p hp
    have := k2 p hp
    by_cases hq : ∀ q, p < q → q < n → a q = pred32 (b q)
    · rw [if_pos hq, if_pos (this.mpr hq)]
    · rw [if_neg hq, if_neg (fun h' => hq (this.mp h'))]

/-! ## Mixed radix digits -/

/-- Product of the radices after position `p`. -/
def tailProd (ks : List Nat) (p : Nat) : Nat := (ks.drop (p + 1)).prod

/-- Digit `p` of `N`. -/
def dg (ks : List Nat) (N p : Nat) : Nat := N / tailProd ks p % ks.getD p 1

theorem tailProd_step {ks : List Nat} {p : Nat} (h : p + 1 < ks.length) :
    tailProd ks p = ks.getD (p + 1) 1 * tailProd ks (p + 1) := by
  unfold tailProd
  rw [List.drop_eq_getElem_cons h, List.prod_cons]
  simp [h]

theorem tailProd_last {ks : List Nat} {p : Nat} (h : ks.length ≤ p + 1) : tailProd ks p = 1 := by
  unfold tailProd
  rw [List.drop_eq_nil_of_le h]; rfl

theorem prod_pos_of {ks : List Nat} (h : ∀ k ∈ ks, 0 < k) : 0 < ks.prod := by
  induction ks with
  | nil => simp
  | cons k ks ih =>
    rw [List.prod_cons]
    exact Nat.mul_pos (h k (by simp)) (ih (fun x hx => h x (by simp [hx])))

theorem tailProd_pos {ks : List Nat} (h : ∀ k ∈ ks, 0 < k) (p : Nat) : 0 < tailProd ks p :=
  prod_pos_of (fun k hk => h k (List.mem_of_mem_drop hk))

theorem getD_pos {ks : List Nat} (h : ∀ k ∈ ks, 0 < k) (p : Nat) : 0 < ks.getD p 1 := by
  rw [List.getD]
  cases hp : ks[p]? with
  | none => simp
  | some k => simpa using h k (List.mem_of_getElem? hp)

theorem mod_mul_last {k P N : Nat} (hk : 0 < k) (hP : 0 < P) :
    N % (k * P) = k * P - 1 ↔ (N / P % k = k - 1 ∧ N % P = P - 1) := by
  have h1 : N % (k * P) = N % P + P * (N / P % k) := by
    rw [Nat.mul_comm k P, Nat.mod_mul]
  have h2 := Nat.mod_lt N hP
  have h3 := Nat.mod_lt (N / P) hk
  rw [h1]
  generalize N % P = r at *
  generalize N / P % k = d at *
  obtain ⟨k, rfl⟩ : ∃ j, k = j + 1 := ⟨k - 1, by omega⟩
  obtain ⟨P, rfl⟩ : ∃ j, P = j + 1 := ⟨P - 1, by omega⟩
  have e1 : (k + 1) * (P + 1) = (P + 1) * k + (P + 1) := by
    rw [Nat.mul_comm, Nat.mul_add, Nat.mul_one]
  constructor
  · intro h
    have hd : d = k := by
      by_contra hne
      have : (P + 1) * d ≤ (P + 1) * (k - 1) := Nat.mul_le_mul_left _ (by omega)
      have e2 : (P + 1) * k = (P + 1) * (k - 1) + (P + 1) := by
        obtain ⟨j, rfl⟩ : ∃ j, k = j + 1 := ⟨k - 1, by omega⟩
        simp [Nat.mul_add]
      omega
    subst hd
    omega
  · rintro ⟨rfl, rfl⟩
    omega

theorem ready_iff {ks : List Nat} (h : ∀ k ∈ ks, 0 < k) (N : Nat) :
    ∀ d p, p + d = ks.length → p < ks.length →
    ((∀ q, p < q → q < ks.length → dg ks N q = ks.getD q 1 - 1) ↔
      N % tailProd ks p = tailProd ks p - 1)
  | 0, p, hd, hp => by omega
  | 1, p, hd, hp => by
    rw [tailProd_last (by omega)]
    constructor
    · intro _; omega
    · intro _ q h1 h2; omega
  | d + 2, p, hd, hp => by
    rw [tailProd_step (by omega), mod_mul_last (getD_pos h _) (tailProd_pos h _)]
    rw [← ready_iff h N (d+1) (p+1) (by omega) (by omega)]
    constructor
    · intro hq
      exact ⟨hq (p+1) (by omega) (by omega), fun q h1 h2 => hq q (by omega) h2⟩
    · rintro ⟨h1, h2⟩ q h3 h4
      by_cases hq : q = p + 1
      · subst hq; exact h1
      · exact h2 q (by omega) h4

theorem dg_succ {ks : List Nat} (h : ∀ k ∈ ks, 0 < k) (N p : Nat) :
    dg ks (N + 1) p = if N % tailProd ks p = tailProd ks p - 1 then (dg ks N p + 1) % ks.getD p 1
      else dg ks N p := by
  unfold dg
  have hP := tailProd_pos h p
  generalize tailProd ks p = P at *
  have := Nat.div_add_mod N P
  have hlt := Nat.mod_lt N hP
  split
  · rename_i he
    have : N + 1 = P * (N / P + 1) := by rw [Nat.mul_add]; omega
    rw [this, Nat.mul_div_cancel_left _ hP, Nat.mod_add_mod]
  · rename_i he
    congr 1
    have e : N + 1 = (N % P + 1) + P * (N / P) := by omega
    rw [e, Nat.add_mul_div_left _ _ hP, Nat.div_eq_of_lt (by omega), Nat.zero_add]

theorem dg_lt {ks : List Nat} (h : ∀ k ∈ ks, 0 < k) (N p : Nat) : dg ks N p < ks.getD p 1 :=
  Nat.mod_lt _ (getD_pos h p)

theorem dg_cons_succ (k : Nat) (ks : List Nat) (N p : Nat) :
    dg (k :: ks) N (p + 1) = dg ks N p := by
  simp [dg, tailProd]

theorem dg_cons_zero (k : Nat) (ks : List Nat) (N : Nat) :
    dg (k :: ks) N 0 = N / ks.prod % k := by
  simp [dg, tailProd]

/-- Different numbers below the product have different digits. -/
theorem dg_inj : ∀ {ks : List Nat}, (∀ k ∈ ks, 0 < k) → ∀ {M N : Nat}, M < ks.prod → N < ks.prod →
    (∀ p, p < ks.length → dg ks M p = dg ks N p) → M = N
  | [], _, M, N, hM, hN, _ => by simp at hM hN; omega
  | k :: ks, h, M, N, hM, hN, hd => by
    rw [List.prod_cons] at hM hN
    have hks : ∀ x ∈ ks, 0 < x := fun x hx => h x (by simp [hx])
    have hP := prod_pos_of hks
    have h0 := hd 0 (by simp)
    rw [dg_cons_zero, dg_cons_zero, Nat.mod_eq_of_lt (Nat.div_lt_of_lt_mul (by rwa [Nat.mul_comm])),
      Nat.mod_eq_of_lt (Nat.div_lt_of_lt_mul (by rwa [Nat.mul_comm]))] at h0
    have hmod : M % ks.prod = N % ks.prod := by
      apply dg_inj hks (Nat.mod_lt _ hP) (Nat.mod_lt _ hP)
      intro p hp
      have := hd (p+1) (by simpa using hp)
      rw [dg_cons_succ, dg_cons_succ] at this
      have hmod : ∀ X, dg ks (X % ks.prod) p = dg ks X p := by
        intro X
        unfold dg
        have hdiv : ks.prod = (ks.take p).prod * (ks.getD p 1 * tailProd ks p) := by
          unfold tailProd
          conv_lhs => rw [← List.take_append_drop p ks]
          rw [List.prod_append, List.drop_eq_getElem_cons hp, List.prod_cons]
          simp [hp]
        rw [hdiv]
        generalize (ks.take p).prod = A
        generalize ks.getD p 1 = b
        generalize tailProd ks p = P
        rw [show A * (b * P) = P * (b * A) by rw [← Nat.mul_assoc, Nat.mul_comm, Nat.mul_comm A b]]
        rw [Nat.mod_mul_right_div_self, Nat.mod_mul_right_mod]
      rw [hmod, hmod]; exact this
    rw [← Nat.div_add_mod M ks.prod, ← Nat.div_add_mod N ks.prod, h0, hmod]

/-- Every choice of digits occurs. -/
theorem dg_surj : ∀ {ks : List Nat}, (∀ k ∈ ks, 0 < k) → ∀ (d : Nat → Nat),
    (∀ p, p < ks.length → d p < ks.getD p 1) →
    ∃ N, N < ks.prod ∧ ∀ p, p < ks.length → dg ks N p = d p
  | [], _, d, _ => ⟨0, by simp, by simp⟩
  | k :: ks, h, d, hd => by
    have hks : ∀ x ∈ ks, 0 < x := fun x hx => h x (by simp [hx])
    have hP := prod_pos_of hks
    obtain ⟨N, h1, h2⟩ := dg_surj hks (fun p => d (p+1)) (fun p hp => by
      have := hd (p+1) (by simpa using hp)
      simpa using this)
    have hd0 : d 0 < k := by simpa using hd 0 (by simp)
    refine ⟨ks.prod * d 0 + N, ?_, ?_⟩
    · rw [List.prod_cons]
      have : ks.prod * (d 0 + 1) ≤ ks.prod * k := Nat.mul_le_mul_left _ hd0
      rw [Nat.mul_add, Nat.mul_one] at this
      rw [Nat.mul_comm k]
      omega
    · intro p hp
      cases p with
      | zero =>
        rw [dg_cons_zero, Nat.mul_add_div hP, Nat.div_eq_of_lt h1, Nat.add_zero,
          Nat.mod_eq_of_lt hd0]
      | succ p =>
        have hp' : p < ks.length := by simpa using hp
        rw [dg_cons_succ, ← h2 p hp']
        unfold dg
        have hdiv : ks.prod = (ks.take p).prod * (ks.getD p 1 * tailProd ks p) := by
          unfold tailProd
          conv_lhs => rw [← List.take_append_drop p ks]
          rw [List.prod_append, List.drop_eq_getElem_cons hp', List.prod_cons]
          simp [hp']
        have hT := tailProd_pos hks p
        rw [hdiv]
        generalize (ks.take p).prod = A
        generalize ks.getD p 1 = b
        generalize tailProd ks p = P at *
        rw [show A * (b * P) * d 0 + N = P * (b * (A * d 0)) + N by
          congr 1
          rw [← Nat.mul_assoc, ← Nat.mul_assoc, ← Nat.mul_assoc, Nat.mul_comm (A * b) P,
            Nat.mul_comm A b, ← Nat.mul_assoc]]
        rw [Nat.mul_add_div hT, Nat.mul_add_mod]

theorem dg_prod {ks : List Nat} (h : ∀ k ∈ ks, 0 < k) {p : Nat} (hp : p < ks.length) :
    dg ks ks.prod p = 0 := by
  unfold dg
  have hdiv : ks.prod = tailProd ks p * (ks.getD p 1 * (ks.take p).prod) := by
    unfold tailProd
    conv_lhs => rw [← List.take_append_drop p ks]
    rw [List.prod_append, List.drop_eq_getElem_cons hp, List.prod_cons]
    simp [hp]
    rw [Nat.mul_comm, Nat.mul_comm ks[p], Nat.mul_assoc]
  rw [hdiv, Nat.mul_div_cancel_left _ (tailProd_pos h p), Nat.mul_mod_right]

theorem nvalsFrom_eq (l : List Nat) : ∀ acc, nvalsFrom (acc % 2 ^ 32) l = acc * l.prod % 2 ^ 32 := by
  induction l with
  | nil => intro acc; simp [nvalsFrom]
  | cons n l ih =>
    intro acc
    rw [nvalsFrom, Nat.mod_mul_mod, ih, List.prod_cons, Nat.mul_assoc]

end Plc.Multidx
