import Verif.Model.Poly
import Verif.Proofs.Basic
import Verif.Proofs.Std
import Batteries.Lean.Except
import Mathlib.Algebra.MonoidAlgebra.Basic
import Mathlib.Tactic.Ring

/-!
# C46, C47: products and equality of HOMFLY polynomials

A list of monomials stands for a Laurent polynomial in `l` and `m` with integer coefficients, an element of Mathlib's
`AddMonoidAlgebra ℤ (ℤ × ℤ)`.
-/

namespace Plc

open Plc.Poly

/-- The Laurent polynomial a list of monomials stands for. -/
noncomputable def toPoly (p : List Mono) : AddMonoidAlgebra ℤ (ℤ × ℤ) :=
  (p.map (fun x => AddMonoidAlgebra.single (x.l, x.m) x.coeff)).sum

namespace Poly

/-- Powers in the order of the library: `l` first. -/
def PowLt (a b : Mono) : Prop := a.l < b.l ∨ (a.l = b.l ∧ a.m < b.m)

theorem mle_iff (a b : Mono) : mle a b = true ↔ a.l < b.l ∨ (a.l = b.l ∧ (a.m < b.m ∨ (a.m = b.m ∧ a.coeff ≤ b.coeff))) := by
  unfold mle mcmp
  simp only [decide_eq_true_eq]
  split
  · omega
  · split <;> omega

theorem mcmp_zero (a b : Mono) : mcmp a b = 0 ↔ a = b := by
  unfold mcmp
  constructor
  · intro h
    split at h
    · omega
    · split at h
      · omega
      · obtain ⟨ac, al, am⟩ := a
        obtain ⟨bc, bl, bm⟩ := b
        simp only [Mono.mk.injEq] at *
        omega
  · rintro rfl
    simp

theorem sort_sorted (Q : QSort) (p : List Mono) : (Q.sort mle p).Pairwise (fun a b => mle a b = true) := by
  apply Q.sorted
  · intro a b _ _
    rw [Bool.or_eq_true, mle_iff, mle_iff]
    omega
  · intro a b c _ _ _
    rw [mle_iff, mle_iff, mle_iff]
    omega

theorem toPoly_cons (x : Mono) (p : List Mono) : toPoly (x :: p) = AddMonoidAlgebra.single (x.l, x.m) x.coeff + toPoly p := by
  simp [toPoly]

theorem toPoly_append (p q : List Mono) : toPoly (p ++ q) = toPoly p + toPoly q := by
  simp [toPoly]

theorem toPoly_perm {p q : List Mono} (h : p.Perm q) : toPoly p = toPoly q :=
  (h.map _).sum_eq

theorem toPoly_row (x : Mono) (b : List Mono) :
    toPoly (b.map (fun y => ⟨x.coeff * y.coeff, x.l + y.l, x.m + y.m⟩)) =
      AddMonoidAlgebra.single (x.l, x.m) x.coeff * toPoly b := by
  induction b with
  | nil => simp [toPoly]
  | cons y b ih =>
    rw [List.map_cons, toPoly_cons, ih, toPoly_cons, mul_add, AddMonoidAlgebra.single_mul_single]
    rfl

theorem toPoly_raw (a b : List Mono) : toPoly (raw a b) = toPoly a * toPoly b := by
  induction a with
  | nil => simp [raw, toPoly]
  | cons x a ih =>
    have : raw (x :: a) b = b.map (fun y => ⟨x.coeff * y.coeff, x.l + y.l, x.m + y.m⟩) ++ raw a b := by simp [raw]
    rw [this, toPoly_append, toPoly_row, ih, toPoly_cons, add_mul]

theorem toPoly_collect (t : List Mono) : ∀ x : Mono, toPoly (collect x t) = toPoly (x :: t) := by
  induction t with
  | nil => intro x; rfl
  | cons y t ih =>
    intro x
    rw [collect]
    split
    · rename_i h
      rw [ih, toPoly_cons, toPoly_cons, toPoly_cons, ← add_assoc, h.1, h.2, ← AddMonoidAlgebra.single_add]
    · rw [toPoly_cons, ih, ← toPoly_cons]

theorem collect_sorted (t : List Mono) : ∀ x : Mono, (∀ y ∈ t, x.l < y.l ∨ (x.l = y.l ∧ x.m ≤ y.m)) →
    t.Pairwise (fun a b => mle a b = true) →
    (collect x t).Pairwise PowLt ∧ ∀ y ∈ collect x t, y = x ∨ x.l < y.l ∨ (x.l = y.l ∧ x.m ≤ y.m) := by
  induction t with
  | nil => intro x _ _; exact ⟨by simp [collect], by simp [collect]⟩
  | cons y t ih =>
    intro x hx ht
    rw [List.pairwise_cons] at ht
    have hy := hx y List.mem_cons_self
    rw [collect]
    split
    · rename_i h
      obtain ⟨h1, h2⟩ := ih { x with coeff := x.coeff + y.coeff } (fun z hz => hx z (List.mem_cons_of_mem _ hz)) ht.2
      refine ⟨h1, ?_⟩
      intro z hz
      rcases h2 z hz with rfl | h
      · exact Or.inr (Or.inr ⟨rfl, Int.le_refl _⟩)
      · exact Or.inr h
    · rename_i h
      obtain ⟨h1, h2⟩ := ih y (by
        intro z hz
        have := (mle_iff y z).1 (ht.1 z hz)
        omega) ht.2
      refine ⟨?_, ?_⟩
      · rw [List.pairwise_cons]
        refine ⟨?_, h1⟩
        intro z hz
        unfold PowLt
        rcases h2 z hz with rfl | h'
        · omega
        · omega
      · intro z hz
        rcases List.mem_cons.1 hz with rfl | hz
        · exact Or.inl rfl
        · rcases h2 z hz with rfl | h'
          · omega
          · omega

theorem sameLoop_iff (s : List Mono) : ∀ t : List Mono, s.length = t.length → (sameLoop s t = true ↔ s = t) := by
  induction s with
  | nil => intro t h; cases t with
    | nil => simp [sameLoop]
    | cons => simp at h
  | cons x s ih =>
    intro t h
    cases t with
    | nil => simp at h
    | cons y t =>
      rw [sameLoop]
      simp only [List.length_cons, Nat.add_right_cancel_iff] at h
      by_cases hm : mcmp x y = 0
      · rw [if_neg (by simpa using hm), ih t h, List.cons.injEq, (mcmp_zero x y).1 hm]
        simp
      · rw [if_pos hm, List.cons.injEq, ← mcmp_zero]
        simp [hm]

end Poly

/-- **C46.** The product of two nonempty lists represents the product polynomial, and lists each pair of powers once,
in order. -/
theorem C46_product (Q : QSort) (a b : List Mono) (ha : a ≠ []) (hb : b ≠ []) :
    ∃ r, product Q a b = .ok r ∧ toPoly r = toPoly a * toPoly b ∧
      r.Pairwise (fun x y => x.l < y.l ∨ (x.l = y.l ∧ x.m < y.m)) := by
  have hp := Q.perm mle (raw a b)
  have hs := sort_sorted Q (raw a b)
  unfold product
  cases hq : Q.sort mle (raw a b) with
  | nil =>
    rw [hq] at hp
    have := hp.nil_eq
    obtain ⟨x, s, rfl⟩ := List.exists_cons_of_ne_nil ha
    obtain ⟨y, t, rfl⟩ := List.exists_cons_of_ne_nil hb
    simp [raw] at this
  | cons x t =>
    rw [hq] at hp hs
    refine ⟨_, rfl, ?_, ?_⟩
    · rw [toPoly_collect, toPoly_perm hp, toPoly_raw]
    · rw [List.pairwise_cons] at hs
      exact (collect_sorted t x (by
        intro y hy
        have := (mle_iff x y).1 (hs.1 y hy)
        omega) hs.2).1

/-- An empty factor is undefined behaviour. -/
theorem C46_empty (Q : QSort) (a b : List Mono) (h : a = [] ∨ b = []) : product Q a b = .error .ub := by
  have : raw a b = [] := by rcases h with rfl | rfl <;> simp [raw]
  have hp := Q.perm mle (raw a b)
  rw [product]
  rw [this] at hp ⊢
  rw [hp.eq_nil]

/-- **C47.** `polynomials_eq` answers true exactly for lists with the same monomials, in whatever order. -/
theorem C47_multiset (Q : QSort) (a b : List Mono) : Poly.eq Q a b = true ↔ a.Perm b := by
  unfold Poly.eq
  split
  · rename_i h
    simp only [Bool.false_eq_true, false_iff]
    exact fun hp => h hp.length_eq
  · rename_i h
    rw [sameLoop_iff _ _ (by rw [(Q.perm mle a).length_eq, (Q.perm mle b).length_eq]; simpa using h)]
    constructor
    · intro he
      exact ((Q.perm mle a).symm.trans (he ▸ List.Perm.refl _)).trans (Q.perm mle b)
    · intro hp
      refine List.Perm.eq_of_pairwise ?_ (sort_sorted Q a) (sort_sorted Q b)
        (((Q.perm mle a).trans hp).trans (Q.perm mle b).symm)
      intro x y _ _ hxy hyx
      rw [mle_iff] at hxy hyx
      obtain ⟨xc, xl, xm⟩ := x
      obtain ⟨yc, yl, ym⟩ := y
      simp only [Mono.mk.injEq] at *
      omega

/-- A list without zero coefficients that has no pair of powers twice. -/
def Reduced (p : List Mono) : Prop := (∀ x ∈ p, x.coeff ≠ 0) ∧ p.Pairwise (fun x y => (x.l, x.m) ≠ (y.l, y.m))

namespace Poly

theorem coeff_cons (x : Mono) (p : List Mono) (k : ℤ × ℤ) :
    (toPoly (x :: p)).coeff k = (if (x.l, x.m) = k then x.coeff else 0) + (toPoly p).coeff k := by
  rw [toPoly_cons, AddMonoidAlgebra.coeff_add, AddMonoidAlgebra.coeff_single, Finsupp.add_apply, Finsupp.single_apply]

theorem coeff_of_not (p : List Mono) (k : ℤ × ℤ) (h : ∀ x ∈ p, (x.l, x.m) ≠ k) : (toPoly p).coeff k = 0 := by
  induction p with
  | nil => simp [toPoly]
  | cons x p ih =>
    rw [coeff_cons, if_neg (h x List.mem_cons_self), ih (fun y hy => h y (List.mem_cons_of_mem _ hy)), add_zero]

theorem coeff_of_mem {p : List Mono} (h : p.Pairwise (fun x y => (x.l, x.m) ≠ (y.l, y.m))) {x : Mono} (hx : x ∈ p) :
    (toPoly p).coeff (x.l, x.m) = x.coeff := by
  induction p with
  | nil => simp at hx
  | cons y p ih =>
    rw [List.pairwise_cons] at h
    rw [coeff_cons]
    rcases List.mem_cons.1 hx with rfl | hx
    · rw [if_pos rfl, coeff_of_not p _ (fun z hz => (h.1 z hz).symm), add_zero]
    · rw [if_neg (h.1 x hx), ih h.2 hx, zero_add]

theorem mem_iff_coeff {p : List Mono} (h : Reduced p) (x : Mono) :
    x ∈ p ↔ x.coeff ≠ 0 ∧ (toPoly p).coeff (x.l, x.m) = x.coeff := by
  constructor
  · intro hx
    exact ⟨h.1 x hx, coeff_of_mem h.2 hx⟩
  · rintro ⟨h0, hc⟩
    by_cases he : ∃ y ∈ p, (y.l, y.m) = (x.l, x.m)
    · obtain ⟨y, hy, e⟩ := he
      have := coeff_of_mem h.2 hy
      rw [e, hc] at this
      obtain ⟨xc, xl, xm⟩ := x
      obtain ⟨yc, yl, ym⟩ := y
      simp only [Prod.mk.injEq] at e this
      obtain ⟨rfl, rfl⟩ := e
      subst this
      exact hy
    · rw [coeff_of_not p _ (fun y hy e => he ⟨y, hy, e⟩)] at hc
      exact (h0 hc.symm).elim

theorem Reduced.nodup {p : List Mono} (h : Reduced p) : p.Nodup :=
  h.2.imp (fun hab e => hab (by rw [e]))

end Poly

/-- **C47, polynomials.** For reduced lists the answer is true exactly when the polynomials are equal. -/
theorem C47_polynomials (Q : QSort) (a b : List Mono) (ha : Reduced a) (hb : Reduced b) :
    Poly.eq Q a b = true ↔ toPoly a = toPoly b := by
  rw [C47_multiset]
  constructor
  · exact toPoly_perm
  · intro h
    rw [List.perm_ext_iff_of_nodup (Reduced.nodup ha) (Reduced.nodup hb)]
    intro x
    rw [mem_iff_coeff ha, mem_iff_coeff hb, h]

/-- The product of `l + m` and `l - m` keeps a monomial `0·lm`, so it is not "equal" to `l² - m²`: the second half of
C47 needs lists without zero coefficients, and `product_polynomial` does not give them. -/
theorem C46_zero_kept (Q : QSort) :
    ∃ r, product Q [⟨1, 1, 0⟩, ⟨1, 0, 1⟩] [⟨1, 1, 0⟩, ⟨-1, 0, 1⟩] = .ok r ∧ (⟨0, 1, 1⟩ : Mono) ∈ r ∧
      toPoly r = toPoly [⟨1, 2, 0⟩, ⟨-1, 0, 2⟩] ∧ Poly.eq Q r [⟨1, 2, 0⟩, ⟨-1, 0, 2⟩] = false := by
  have hp := Q.perm mle (raw [⟨1, 1, 0⟩, ⟨1, 0, 1⟩] [⟨1, 1, 0⟩, ⟨-1, 0, 1⟩])
  have hs := sort_sorted Q (raw [⟨1, 1, 0⟩, ⟨1, 0, 1⟩] [⟨1, 1, 0⟩, ⟨-1, 0, 1⟩])
  have he : Q.sort mle (raw [⟨1, 1, 0⟩, ⟨1, 0, 1⟩] [⟨1, 1, 0⟩, ⟨-1, 0, 1⟩]) =
      [⟨-1, 0, 2⟩, ⟨-1, 1, 1⟩, ⟨1, 1, 1⟩, ⟨1, 2, 0⟩] := by
    refine List.Perm.eq_of_pairwise ?_ hs (by decide) (hp.trans (by decide))
    intro x y _ _ hxy hyx
    rw [mle_iff] at hxy hyx
    obtain ⟨xc, xl, xm⟩ := x
    obtain ⟨yc, yl, ym⟩ := y
    simp only [Mono.mk.injEq] at *
    omega
  refine ⟨[⟨-1, 0, 2⟩, ⟨0, 1, 1⟩, ⟨1, 2, 0⟩], ?_, by simp, ?_, ?_⟩
  · rw [product, he]
    rfl
  · simp [toPoly]
    rw [add_comm]
  · rw [← Bool.not_eq_true, C47_multiset]
    decide

/-- Two lists of the same polynomial `2l² - 3m + 5`, and a product. -/
example : Poly.eq insQSort [⟨2, 2, 0⟩, ⟨-3, 0, 1⟩, ⟨5, 0, 0⟩] [⟨5, 0, 0⟩, ⟨2, 2, 0⟩, ⟨-3, 0, 1⟩] = true ∧
    product insQSort [⟨2, 2, 0⟩, ⟨-3, 0, 1⟩] [⟨1, -2, 0⟩, ⟨4, 0, 0⟩] =
      .ok [⟨-3, -2, 1⟩, ⟨2, 0, 0⟩, ⟨-12, 0, 1⟩, ⟨8, 2, 0⟩] := by decide

end Plc
