import Verif.Model.PolyText
import Verif.Proofs.VectText
import Verif.Proofs.Io2

/-!
# C102: polynomials as text
-/

namespace Plc.Poly

open Plc.Io Plc.Vect

/-- All numbers are values of `int` other than the least one. -/
def InRange (x : Mono) : Prop := x.coeff.natAbs ≤ intMax ∧ x.l.natAbs ≤ intMax ∧ x.m.natAbs ≤ intMax

/-! ### Buffers -/

theorem catAll_ok (cap : Int) : ∀ (ps : List (List Char)) (buf : List Char), ((buf.length + ps.flatten.length + 1 : Nat) : Int) ≤ cap →
    catAll cap buf ps = .ok (buf ++ ps.flatten)
  | [], buf, _ => by simp [catAll]
  | s :: l, buf, h => by
    rw [List.flatten_cons, List.length_append] at h
    have h1 : cat cap buf s = .ok (buf ++ s) := by unfold cat; rw [if_pos (by omega)]
    rw [catAll, h1, ok_bind, catAll_ok cap l (buf ++ s) (by rw [List.length_append]; omega)]
    simp

/-- The text of the loop. -/
def textFrom (pieces : Bool → Mono → List (List Char)) : Bool → List Mono → List Char
  | _, [] => []
  | first, x :: t => (pieces first x).flatten ++ textFrom pieces false t

theorem printLoop_ok (pieces : Bool → Mono → List (List Char)) (cap : Int) : ∀ (p : List Mono) (first : Bool) (buf : List Char),
    (∀ x ∈ p, ∀ f, (pieces f x).flatten.length ≤ 128) → ((buf.length + 128 * p.length + 1 : Nat) : Int) ≤ cap →
    printLoop pieces cap first buf p = .ok (buf ++ textFrom pieces first p)
  | [], first, buf, _, _ => by simp [printLoop, textFrom]
  | x :: t, first, buf, hx, h => by
    rw [List.length_cons] at h
    have h1 := hx x (by simp) first
    rw [printLoop, catAll_ok cap _ _ (by omega), ok_bind,
      printLoop_ok pieces cap t false _ (fun y hy => hx y (by simp [hy])) (by rw [List.length_append]; omega), textFrom, List.append_assoc]

theorem decI_len {n : Int} (h : n.natAbs ≤ intMax) : (decI n).length ≤ 21 := by
  have := dec_length (n := n.natAbs) (by unfold intMax at h; unfold ulongMax; omega)
  unfold decI
  split
  · rw [List.length_cons]; omega
  · omega

theorem math_len {x : Mono} (h : InRange x) (f : Bool) : (mathPieces f x).flatten.length ≤ 128 := by
  have h1 := decI_len h.1
  have h2 := decI_len h.2.1
  have h3 := decI_len h.2.2
  unfold mathPieces
  cases f <;> by_cases q1 : x.l = 0 <;> by_cases q2 : x.m = 0 <;> simp [q1, q2, str] <;> omega

theorem latex_len {x : Mono} (h : InRange x) (f : Bool) : (latexPieces f x).flatten.length ≤ 128 := by
  have h1 := dec_length (n := x.coeff.natAbs) (by have := h.1; unfold intMax at this; unfold ulongMax; omega)
  have h0 := dec_length (n := 1) (by decide)
  have h2 := decI_len h.2.1
  have h3 := decI_len h.2.2
  unfold latexPieces
  cases f <;> by_cases q1 : x.l = 0 <;> by_cases q2 : x.m = 0 <;> by_cases q3 : x.coeff < 0 <;> by_cases q4 : x.coeff > 0 <;>
    by_cases q5 : x.coeff.natAbs = 1 <;> simp [q1, q2, q3, q4, q5, str] <;> omega

/-! ### Reading back -/

theorem decI_split {a b : Int} (ha : a.natAbs ≤ intMax) (hb : b.natAbs ≤ intMax) {r s : List Char} (hr : NoDig r) (hs : NoDig s)
    (h : decI a ++ r = decI b ++ s) : a = b ∧ r = s := by
  have h1 := scanD_decI ha hr
  rw [h, scanD_decI hb hs] at h1
  simp only [Except.ok.injEq, Option.some.injEq, Prod.mk.injEq] at h1
  exact ⟨h1.1.symm, h1.2.symm⟩

theorem noDig_cons {c : Char} (h : isDig c = false) (t : List Char) : NoDig (c :: t) := by
  intro d u hd; cases hd; exact h

theorem noDig_nil : NoDig [] := by intro d u hd; cases hd

/-- What may follow a monomial. -/
def Sep (r : List Char) : Prop := r = [] ∨ ∃ t, r = ' ' :: t

theorem Sep.noDig {r : List Char} (h : Sep r) : NoDig r := by
  rcases h with rfl | ⟨t, rfl⟩
  · exact noDig_nil
  · exact noDig_cons (by decide) t

theorem dec_cons (n : Nat) (hn : n ≤ ulongMax) : ∃ c t, dec n = c :: t ∧ isDig c = true := by
  cases h : dec n with
  | nil =>
    have := scanNum_dec (r := []) hn noDig_nil
    rw [h] at this
    cases this
  | cons c t => exact ⟨c, t, rfl, dec_isDig n c (by rw [h]; simp)⟩

/-- If monomials can be told apart, so can polynomials. -/
theorem text_inj (pieces : Bool → Mono → List (List Char)) (P : Mono → Prop)
    (H : ∀ f x y r s, P x → P y → Sep r → Sep s → (pieces f x).flatten ++ r = (pieces f y).flatten ++ s → x = y ∧ r = s)
    (hne : ∀ f x, P x → (pieces f x).flatten ≠ []) (hsep : ∀ x, P x → ∃ t, (pieces false x).flatten = ' ' :: t) :
    ∀ (p q : List Mono) (f : Bool), (∀ x ∈ p, P x) → (∀ x ∈ q, P x) → textFrom pieces f p = textFrom pieces f q → p = q := by
  have sep : ∀ p : List Mono, (∀ x ∈ p, P x) → Sep (textFrom pieces false p) := by
    intro p hp
    cases p with
    | nil => left; rfl
    | cons x t =>
      right
      obtain ⟨u, hu⟩ := hsep x (hp x (by simp))
      exact ⟨u ++ textFrom pieces false t, by rw [textFrom, hu]; rfl⟩
  intro p
  induction p with
  | nil =>
    intro q f _ hq h
    cases q with
    | nil => rfl
    | cons y t =>
      exfalso
      rw [textFrom, textFrom] at h
      exact hne f y (hq y (by simp)) (List.append_eq_nil_iff.mp h.symm).1
  | cons x t ih =>
    intro q f hp hq h
    cases q with
    | nil =>
      exfalso
      rw [textFrom, textFrom] at h
      exact hne f x (hp x (by simp)) (List.append_eq_nil_iff.mp h).1
    | cons y u =>
      rw [textFrom, textFrom] at h
      obtain ⟨h1, h2⟩ := H f x y _ _ (hp x (by simp)) (hq y (by simp)) (sep t fun z hz => hp z (by simp [hz]))
        (sep u fun z hz => hq z (by simp [hz])) h
      rw [h1, ih u false (fun z hz => hp z (by simp [hz])) (fun z hz => hq z (by simp [hz])) h2]

/-- An optional power. -/
def opt (pre : List Char) (close : Char) (l : Int) : List Char := if l ≠ 0 then pre ++ (decI l ++ [close]) else []

theorem opt_split {pre : List Char} {close : Char} (hcl : isDig close = false) {a b : Int} (ha : a.natAbs ≤ intMax) (hb : b.natAbs ≤ intMax)
    {r s : List Char} (hr : ∀ t, r ≠ pre ++ t) (hs : ∀ t, s ≠ pre ++ t) (h : opt pre close a ++ r = opt pre close b ++ s) : a = b ∧ r = s := by
  unfold opt at h
  by_cases qa : a = 0
  · by_cases qb : b = 0
    · subst qa; subst qb; simpa using h
    · exfalso
      rw [if_neg (not_not.mpr qa), if_pos qb, List.nil_append, List.append_assoc] at h
      exact hr _ h
  · by_cases qb : b = 0
    · exfalso
      rw [if_neg (not_not.mpr qb), if_pos qa, List.nil_append, List.append_assoc] at h
      exact hs _ h.symm
    · rw [if_pos qa, if_pos qb, List.append_assoc, List.append_assoc, List.append_assoc, List.append_assoc] at h
      have h1 := decI_split ha hb (noDig_cons hcl r) (noDig_cons hcl s) (List.append_cancel_left h)
      exact ⟨h1.1, (List.cons.inj h1.2).2⟩

theorem sep_ne {r : List Char} (h : Sep r) {c : Char} {u : List Char} (hc : c ≠ ' ') : ∀ t, r ≠ (c :: u) ++ t := by
  rintro t rfl
  rcases h with h | ⟨v, h⟩
  · cases h
  · exact hc (List.cons.inj h).1

theorem opt_ne {r : List Char} (h : Sep r) (c d : Char) (u v : List Char) (close : Char) (l : Int) (hc : c ≠ ' ') (hcd : ∀ t t', (c :: u) ++ t ≠ (d :: v) ++ t') :
    ∀ t, opt (d :: v) close l ++ r ≠ (c :: u) ++ t := by
  intro t q
  unfold opt at q
  split at q
  · rw [List.append_assoc] at q; exact hcd _ _ q.symm
  · exact sep_ne h hc t q

theorem math_flat (f : Bool) (x : Mono) (r : List Char) : (mathPieces f x).flatten ++ r =
    (if f then [] else str " + ") ++ ('(' :: (decI x.coeff ++ (')' :: (opt (str "*a^(") ')' x.l ++ (opt (str "*z^(") ')' x.m ++ r))))) := by
  unfold mathPieces opt
  cases f <;> by_cases q1 : x.l = 0 <;> by_cases q2 : x.m = 0 <;> simp [q1, q2, str]

theorem latex_flat (f : Bool) (x : Mono) (r : List Char) : (latexPieces f x).flatten ++ r =
    (if f then (if x.coeff < 0 then str "-" else []) else (if x.coeff > 0 then str " + " else str " - ")) ++
    ((if x.coeff.natAbs ≠ 1 ∨ (x.l = 0 ∧ x.m = 0) then dec x.coeff.natAbs else []) ++
      (opt (str "a^{") '}' x.l ++ (opt (str "z^{") '}' x.m ++ r))) := by
  unfold latexPieces opt
  cases f <;> by_cases q1 : x.l = 0 <;> by_cases q2 : x.m = 0 <;> by_cases q3 : x.coeff < 0 <;> by_cases q4 : x.coeff > 0 <;>
    by_cases q5 : x.coeff.natAbs = 1 <;> simp [q1, q2, q3, q4, q5, str]

theorem math_split (f : Bool) (x y : Mono) (r s : List Char) (hx : InRange x) (hy : InRange y) (hr : Sep r) (hs : Sep s)
    (h : (mathPieces f x).flatten ++ r = (mathPieces f y).flatten ++ s) : x = y ∧ r = s := by
  rw [math_flat, math_flat] at h
  have h := (List.cons.inj (List.append_cancel_left h)).2
  obtain ⟨h1, h2⟩ := decI_split hx.1 hy.1 (noDig_cons (by decide) _) (noDig_cons (by decide) _) h
  have h2 := (List.cons.inj h2).2
  have dist : ∀ t t' : List Char, (str "*a^(") ++ t ≠ (str "*z^(") ++ t' := by intro t t' q; simp [str] at q
  obtain ⟨h3, h4⟩ := opt_split (by decide) hx.2.1 hy.2.1 (opt_ne hr '*' '*' _ _ ')' x.m (by decide) dist)
    (opt_ne hs '*' '*' _ _ ')' y.m (by decide) dist) h2
  obtain ⟨h5, h6⟩ := opt_split (by decide) hx.2.2 hy.2.2 (sep_ne hr (by decide)) (sep_ne hs (by decide)) h4
  refine ⟨?_, h6⟩
  cases x; cases y; simp_all

theorem powers_split {x y : Mono} {r s : List Char} (hx : InRange x) (hy : InRange y) (hr : Sep r) (hs : Sep s)
    (h : opt (str "a^{") '}' x.l ++ (opt (str "z^{") '}' x.m ++ r) = opt (str "a^{") '}' y.l ++ (opt (str "z^{") '}' y.m ++ s)) :
    x.l = y.l ∧ x.m = y.m ∧ r = s := by
  have dist : ∀ t t' : List Char, (str "a^{") ++ t ≠ (str "z^{") ++ t' := by intro t t' q; simp [str] at q
  obtain ⟨h3, h4⟩ := opt_split (by decide) hx.2.1 hy.2.1 (opt_ne hr 'a' 'z' _ _ '}' x.m (by decide) dist)
    (opt_ne hs 'a' 'z' _ _ '}' y.m (by decide) dist) h
  obtain ⟨h5, h6⟩ := opt_split (by decide) hx.2.2 hy.2.2 (sep_ne hr (by decide)) (sep_ne hs (by decide)) h4
  exact ⟨h3, h5, h6⟩

theorem powers_noDig {x : Mono} {r : List Char} (hr : Sep r) : NoDig (opt (str "a^{") '}' x.l ++ (opt (str "z^{") '}' x.m ++ r)) := by
  unfold opt
  split
  · exact noDig_cons (by decide) _
  · split
    · exact noDig_cons (by decide) _
    · exact hr.noDig

theorem dec_split {a b : Nat} (ha : a ≤ intMax) (hb : b ≤ intMax) {r s : List Char} (hr : NoDig r) (hs : NoDig s)
    (h : dec a ++ r = dec b ++ s) : a = b ∧ r = s := by
  rw [← decI_nat, ← decI_nat] at h
  have := decI_split (by simpa using ha) (by simpa using hb) hr hs h
  exact ⟨by exact_mod_cast this.1, this.2⟩

/-- Coefficient without sign, and powers. -/
theorem body_split {x y : Mono} {r s : List Char} (hx : InRange x) (hy : InRange y) (hr : Sep r) (hs : Sep s)
    (h : (if x.coeff.natAbs ≠ 1 ∨ (x.l = 0 ∧ x.m = 0) then dec x.coeff.natAbs else []) ++
        (opt (str "a^{") '}' x.l ++ (opt (str "z^{") '}' x.m ++ r)) =
      (if y.coeff.natAbs ≠ 1 ∨ (y.l = 0 ∧ y.m = 0) then dec y.coeff.natAbs else []) ++
        (opt (str "a^{") '}' y.l ++ (opt (str "z^{") '}' y.m ++ s))) :
    x.coeff.natAbs = y.coeff.natAbs ∧ x.l = y.l ∧ x.m = y.m ∧ r = s := by
  have big : ∀ n, n ≤ intMax → n ≤ ulongMax := by intro n hn; unfold intMax at hn; unfold ulongMax; omega
  have odd : ∀ (a : Nat) (u v : List Char), a ≤ intMax → NoDig v → dec a ++ u ≠ v := by
    rintro a u v ha hv rfl
    obtain ⟨c, t, h1, h2⟩ := dec_cons a (big a ha)
    rw [h1] at hv
    have := hv c (t ++ u) rfl
    rw [h2] at this; cases this
  by_cases qx : x.coeff.natAbs ≠ 1 ∨ (x.l = 0 ∧ x.m = 0)
  · by_cases qy : y.coeff.natAbs ≠ 1 ∨ (y.l = 0 ∧ y.m = 0)
    · rw [if_pos qx, if_pos qy] at h
      obtain ⟨h1, h2⟩ := dec_split hx.1 hy.1 (powers_noDig hr) (powers_noDig hs) h
      exact ⟨h1, powers_split hx hy hr hs h2⟩
    · rw [if_pos qx, if_neg qy] at h
      exact absurd h (odd _ _ _ hx.1 (powers_noDig hs))
  · by_cases qy : y.coeff.natAbs ≠ 1 ∨ (y.l = 0 ∧ y.m = 0)
    · rw [if_neg qx, if_pos qy] at h
      exact absurd h.symm (odd _ _ _ hy.1 (powers_noDig hr))
    · rw [if_neg qx, if_neg qy] at h
      have e1 : x.coeff.natAbs = 1 := by by_contra q; exact qx (Or.inl q)
      have e2 : y.coeff.natAbs = 1 := by by_contra q; exact qy (Or.inl q)
      exact ⟨by rw [e1, e2], powers_split hx hy hr hs h⟩

/-- The body of a monomial does not begin with a sign. -/
theorem body_head (x : Mono) (r : List Char) (hx : InRange x) (c : Char) (t : List Char)
    (h : (if x.coeff.natAbs ≠ 1 ∨ (x.l = 0 ∧ x.m = 0) then dec x.coeff.natAbs else []) ++
        (opt (str "a^{") '}' x.l ++ (opt (str "z^{") '}' x.m ++ r)) = c :: t) : isDig c = true ∨ c = 'a' ∨ c = 'z' := by
  by_cases qx : x.coeff.natAbs ≠ 1 ∨ (x.l = 0 ∧ x.m = 0)
  · rw [if_pos qx] at h
    obtain ⟨d, u, h1, h2⟩ := dec_cons x.coeff.natAbs (by have := hx.1; unfold intMax at this; unfold ulongMax; omega)
    rw [h1] at h
    left; rw [← (List.cons.inj h).1]; exact h2
  · rw [if_neg qx] at h
    unfold opt at h
    by_cases q1 : x.l = 0
    · have q2 : x.m ≠ 0 := fun q2 => qx (Or.inr ⟨q1, q2⟩)
      rw [if_neg (not_not.mpr q1), if_pos q2] at h
      right; right; exact (List.cons.inj h).1.symm
    · rw [if_pos q1] at h
      right; left; exact (List.cons.inj h).1.symm

theorem mono_of {x y : Mono} (hs : x.coeff < 0 ↔ y.coeff < 0) (h : x.coeff.natAbs = y.coeff.natAbs) (hl : x.l = y.l) (hm : x.m = y.m) : x = y := by
  have : x.coeff = y.coeff := by omega
  cases x; cases y; simp_all

theorem latex_split (f : Bool) (x y : Mono) (r s : List Char) (hx : InRange x) (hy : InRange y) (hr : Sep r) (hs : Sep s)
    (h : (latexPieces f x).flatten ++ r = (latexPieces f y).flatten ++ s) : x = y ∧ r = s := by
  rw [latex_flat, latex_flat] at h
  cases f with
  | true =>
    rw [if_pos rfl, if_pos rfl] at h
    by_cases q1 : x.coeff < 0
    · by_cases q2 : y.coeff < 0
      · rw [if_pos q1, if_pos q2] at h
        obtain ⟨h1, h2, h3, h4⟩ := body_split hx hy hr hs (List.append_cancel_left h)
        exact ⟨mono_of ⟨fun _ => q2, fun _ => q1⟩ h1 h2 h3, h4⟩
      · exfalso
        rw [if_pos q1, if_neg q2] at h
        rcases body_head y s hy '-' _ h.symm with q | q | q <;> revert q <;> decide
    · by_cases q2 : y.coeff < 0
      · exfalso
        rw [if_neg q1, if_pos q2] at h
        rcases body_head x r hx '-' _ h with q | q | q <;> revert q <;> decide
      · rw [if_neg q1, if_neg q2] at h
        obtain ⟨h1, h2, h3, h4⟩ := body_split hx hy hr hs (List.append_cancel_left h)
        exact ⟨mono_of ⟨fun q => absurd q q1, fun q => absurd q q2⟩ h1 h2 h3, h4⟩
  | false =>
    simp only [Bool.false_eq_true, if_false] at h
    by_cases q1 : x.coeff > 0
    · by_cases q2 : y.coeff > 0
      · rw [if_pos q1, if_pos q2] at h
        obtain ⟨h1, h2, h3, h4⟩ := body_split hx hy hr hs (List.append_cancel_left h)
        exact ⟨mono_of ⟨fun q => by omega, fun q => by omega⟩ h1 h2 h3, h4⟩
      · exfalso
        rw [if_pos q1, if_neg q2] at h
        simp [str] at h
    · by_cases q2 : y.coeff > 0
      · exfalso
        rw [if_neg q1, if_pos q2] at h
        simp [str] at h
      · rw [if_neg q1, if_neg q2] at h
        obtain ⟨h1, h2, h3, h4⟩ := body_split hx hy hr hs (List.append_cancel_left h)
        exact ⟨mono_of ⟨fun q => by omega, fun q => by omega⟩ h1 h2 h3, h4⟩

/-- **C102 (Mathematica)**: the text fits in the buffer, and polynomials with the same text have the same monomials in the same order. -/
theorem C102_mathematica (p : List Mono) (hp : ∀ x ∈ p, InRange x) :
    ∃ t, toMathematica p = .ok t ∧ t.length ≤ 128 * p.length ∧
      ∀ q : List Mono, (∀ x ∈ q, InRange x) → toMathematica q = .ok t → q = p := by
  have run : ∀ q : List Mono, (∀ x ∈ q, InRange x) → toMathematica q = .ok (textFrom mathPieces true q) := by
    intro q hq
    unfold toMathematica
    rw [printLoop_ok mathPieces _ q true [] (fun x hx f => math_len (hq x hx) f) (by simp)]
    rfl
  refine ⟨_, run p hp, ?_, ?_⟩
  · have len : ∀ (q : List Mono) (f : Bool), (∀ x ∈ q, InRange x) → (textFrom mathPieces f q).length ≤ 128 * q.length := by
      intro q
      induction q with
      | nil => intro f _; simp [textFrom]
      | cons x t ih =>
        intro f hq
        have h1 := math_len (hq x (by simp)) f
        have h2 := ih false (fun y hy => hq y (by simp [hy]))
        rw [textFrom, List.length_append, List.length_cons]; omega
    exact len p true hp
  · intro q hq h
    rw [run q hq] at h
    have h := Except.ok.inj h
    refine text_inj mathPieces InRange math_split ?_ ?_ q p true hq hp h
    · intro f x _ q
      have := math_flat f x []
      rw [q] at this
      cases f <;> simp [str] at this
    · intro x _
      have := math_flat false x []
      rw [List.append_nil] at this
      rw [this]
      exact ⟨_, rfl⟩

/-- **C102 (LaTeX)**. -/
theorem C102_latex (p : List Mono) (hp : ∀ x ∈ p, InRange x) :
    ∃ t, toLatex p = .ok t ∧ t.length ≤ 128 * p.length ∧
      ∀ q : List Mono, (∀ x ∈ q, InRange x) → toLatex q = .ok t → q = p := by
  have run : ∀ q : List Mono, (∀ x ∈ q, InRange x) → toLatex q = .ok (textFrom latexPieces true q) := by
    intro q hq
    unfold toLatex
    rw [printLoop_ok latexPieces _ q true [] (fun x hx f => latex_len (hq x hx) f) (by simp)]
    rfl
  refine ⟨_, run p hp, ?_, ?_⟩
  · have len : ∀ (q : List Mono) (f : Bool), (∀ x ∈ q, InRange x) → (textFrom latexPieces f q).length ≤ 128 * q.length := by
      intro q
      induction q with
      | nil => intro f _; simp [textFrom]
      | cons x t ih =>
        intro f hq
        have h1 := latex_len (hq x (by simp)) f
        have h2 := ih false (fun y hy => hq y (by simp [hy]))
        rw [textFrom, List.length_append, List.length_cons]; omega
    exact len p true hp
  · intro q hq h
    rw [run q hq] at h
    have h := Except.ok.inj h
    refine text_inj latexPieces InRange latex_split ?_ ?_ q p true hq hp h
    · intro f x hx q
      have h0 := latex_flat f x []
      rw [q] at h0
      cases hb : (if x.coeff.natAbs ≠ 1 ∨ (x.l = 0 ∧ x.m = 0) then dec x.coeff.natAbs else []) ++
        (opt (str "a^{") '}' x.l ++ (opt (str "z^{") '}' x.m ++ [])) with
      | cons c t => rw [hb] at h0; exact absurd (congrArg List.length h0) (by simp)
      | nil =>
        obtain ⟨e1, e2⟩ := List.append_eq_nil_iff.mp hb
        by_cases q1 : x.coeff.natAbs ≠ 1 ∨ (x.l = 0 ∧ x.m = 0)
        · rw [if_pos q1] at e1
          obtain ⟨c, t, e3, _⟩ := dec_cons x.coeff.natAbs (by have := hx.1; unfold intMax at this; unfold ulongMax; omega)
          rw [e3] at e1; cases e1
        · obtain ⟨e3, e4⟩ := List.append_eq_nil_iff.mp e2
          rw [List.append_nil] at e4
          apply q1; right
          unfold opt at e3 e4
          constructor
          · by_contra q2; rw [if_pos q2] at e3; cases e3
          · by_contra q2; rw [if_pos q2] at e4; cases e4
    · intro x _
      have := latex_flat false x []
      rw [List.append_nil] at this
      rw [this]
      simp only [Bool.false_eq_true, if_false]
      by_cases q1 : x.coeff > 0
      · rw [if_pos q1]; exact ⟨_, rfl⟩
      · rw [if_neg q1]; exact ⟨_, rfl⟩

/-! ### lmpoly -/

theorem cat_zero (buf s : List Char) : cat 0 buf s = .error .ub := by
  unfold cat; rw [if_neg (by omega)]

theorem writeL_zero (buf : List Char) (c l : Int) : writeL 0 buf c l = .error .ub := by
  unfold writeL; split <;> exact cat_zero _ _

theorem writeLine_zero (buf : List Char) (line : List Mono) : writeLine 0 buf line = .error .ub := by
  unfold writeLine
  cases line with
  | nil => rfl
  | cons x t =>
    simp only
    split
    · rfl
    · split
      · rw [cat_zero, error_bind]
      · rw [ok_bind, writeL_zero, error_bind]

theorem writeLines_zero : ∀ (p line : List Mono) (buf : List Char), writeLines 0 line buf p = .error .ub
  | [], line, buf => by rw [writeLines]; exact writeLine_zero _ _
  | x :: t, line, buf => by
    rw [writeLines]
    split
    · rfl
    · split
      · exact writeLines_zero t _ _
      · rw [writeLine_zero, error_bind]

theorem fold_max (f : Mono → Int) (v : Int) : ∀ (p : List Mono) (h : Int), (∀ x ∈ p, f x = v) → h ≤ v → p ≠ [] ∨ h = v →
    p.foldl (fun h x => if f x > h then f x else h) h = v
  | [], h, _, _, h2 => by simpa using h2
  | x :: t, h, hp, h1, _ => by
    rw [List.foldl_cons]
    have : (if f x > h then f x else h) = v := by rw [hp x (by simp)]; split <;> omega
    rw [this]
    exact fold_max f v t v (fun y hy => hp y (by simp [hy])) (le_refl v) (Or.inr rfl)

theorem fold_min (f : Mono → Int) (v : Int) : ∀ (p : List Mono) (h : Int), (∀ x ∈ p, f x = v) → v ≤ h → p ≠ [] ∨ h = v →
    p.foldl (fun h x => if f x < h then f x else h) h = v
  | [], h, _, _, h2 => by simpa using h2
  | x :: t, h, hp, h1, _ => by
    rw [List.foldl_cons]
    have : (if f x < h then f x else h) = v := by rw [hp x (by simp)]; split <;> omega
    rw [this]
    exact fold_min f v t v (fun y hy => hp y (by simp [hy])) (le_refl v) (Or.inr rfl)

theorem span_zero (f : Mono → Int) (v : Int) (hv : v.natAbs ≤ intMax) (p : List Mono) (hne : p ≠ []) (hp : ∀ x ∈ p, f x = v) : span f p = 0 := by
  unfold intMax at hv
  unfold span
  rw [fold_max f v p _ hp (by omega) (Or.inl hne), fold_min f v p _ hp (by omega) (Or.inl hne)]
  omega

/-- **C102 (refuted for lmpoly)**: the buffer of `polynomial_to_lmpoly` is computed from differences of powers; if all monomials have the same power
of `l`, or all the same power of `m`, it has no byte at all, and the function writes outside it. So it does for the polynomial 1 of the unknot. -/
theorem C102_lmpoly_overrun (Q : QSort) (p : List Mono) (hp : ∀ x ∈ p, InRange x)
    (h : (∃ v, ∀ x ∈ p, x.l = v) ∨ (∃ v, ∀ x ∈ p, x.m = v)) : toLmpoly Q p = .error .ub := by
  unfold toLmpoly
  have hperm := Q.perm lmle p
  split
  · rfl
  · next x t he =>
    rw [he] at hperm
    have hmem : ∀ y ∈ x :: t, y ∈ p := fun y hy => hperm.mem_iff.mp hy
    have hx := hp x (hmem x (by simp))
    have : span Mono.l (x :: t) * span Mono.m (x :: t) * 256 = 0 := by
      rcases h with ⟨v, h⟩ | ⟨v, h⟩
      · have hv : x.l = v := h x (hmem x (by simp))
        rw [span_zero Mono.l v (by rw [← hv]; exact hx.2.1) _ (by simp) (fun y hy => h y (hmem y hy))]; simp
      · have hv : x.m = v := h x (hmem x (by simp))
        rw [span_zero Mono.m v (by rw [← hv]; exact hx.2.2) _ (by simp) (fun y hy => h y (hmem y hy))]; simp
    simp only [this]
    rw [writeLines_zero, error_bind]

set_option maxRecDepth 20000 in
/-- The polynomial of the trefoil. -/
example : toMathematica [⟨-1, -4, 0⟩, ⟨-2, -2, 0⟩, ⟨1, -2, 2⟩] = .ok (str "(-1)*a^(-4) + (-2)*a^(-2) + (1)*a^(-2)*z^(2)") ∧
    toLatex [⟨-1, -4, 0⟩, ⟨-2, -2, 0⟩, ⟨1, -2, 2⟩] = .ok (str "-a^{-4} - 2a^{-2} + a^{-2}z^{2}") := ⟨rfl, rfl⟩

example : ∀ x ∈ [(⟨-1, -4, 0⟩ : Mono), ⟨-2, -2, 0⟩, ⟨1, -2, 2⟩], InRange x := by
  intro x hx
  simp only [List.mem_cons, List.not_mem_nil, or_false] at hx
  rcases hx with rfl | rfl | rfl <;> exact ⟨by decide, by decide, by decide⟩

example (Q : QSort) : toLmpoly Q [⟨1, 0, 0⟩] = .error .ub :=
  C102_lmpoly_overrun Q _ (by intro x hx; rw [List.mem_singleton] at hx; subst hx; exact ⟨by decide, by decide, by decide⟩) (Or.inl ⟨0, by simp⟩)

end Plc.Poly
