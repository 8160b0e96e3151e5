import Verif.Model.Components
import Verif.Props.Vect

/-!
# Adding, dropping and copying components, doubling vertices
-/

namespace Plc

open Plc.Io Plc.Cst Plc.Vect

variable {N : NumFmt}

namespace Vect

theorem rd_none {α : Type} {l : List α} {i : Nat} (h : l[i]? = none) : rd l i = .error .ub := by simp [rd, h]

theorem wr_ge {α : Type} {l : List α} {i : Nat} {a : α} (h : l.length ≤ i) : wr l i a = .error .ub := by
  simp [wr]
  omega

/-- A component as `plc_fix_wrap` leaves it. -/
def Settled (s : Strand N) : Prop := Wrapped s ∨ (s.vt.length = 1 ∧ s.isOpen = true ∧ s.lo = s.hi)

theorem fixWrap_settled {s : Strand N} (h : Settled s) : fixWrap s = s := by
  obtain ⟨o, vt, clr, lo, hi⟩ := s
  rcases h with ⟨h1, h2, h3, h4⟩ | ⟨h1, h2, h3⟩
  · simp only at h1 h2 h3 h4
    have e : ¬ vt.length = 1 := by omega
    unfold fixWrap
    simp only [e, if_false]
    cases o
    · have := h2 rfl
      simp only [Bool.false_eq_true, if_false] at h3 h4
      simp only [show ¬ vt.length < 3 by omega, decide_false, Bool.or_self, Bool.false_eq_true, if_false,
        List.getD_eq_getElem?_getD, ← h3, ← h4, Option.getD_some]
    · simp only [if_true] at h3 h4
      simp only [Bool.true_or, if_true, List.getD_eq_getElem?_getD, ← h3, ← h4, Option.getD_some]
  · simp only at h1 h2 h3
    subst h2 h3
    unfold fixWrap
    simp only [h1, Bool.true_or, if_true]

theorem fixWrap_vt (s : Strand N) : (fixWrap s).vt = s.vt := by unfold fixWrap; simp only; split <;> rfl
theorem fixWrap_clr (s : Strand N) : (fixWrap s).clr = s.clr := by unfold fixWrap; simp only; split <;> rfl
theorem fixWrap_open (s : Strand N) : (fixWrap s).isOpen = (s.isOpen || decide (s.vt.length < 3)) := by
  unfold fixWrap
  simp only
  split
  · next h => simp only [h]
  · next h => 
    simp only [Bool.not_eq_true, Bool.or_eq_false_iff] at h
    simp only [h.1, h.2, Bool.or_self]

theorem map_settled {l : List (Strand N)} (h : ∀ s ∈ l, Settled s) : l.map fixWrap = l := by
  rw [List.map_congr_left (g := id), List.map_id]
  intro s hs
  exact fixWrap_settled (h s hs)

theorem fixWrap_fixes (s : Strand N) (h : 1 ≤ s.vt.length) (h1 : s.vt.length = 1 → s.lo = s.hi) : Settled (fixWrap s) := by
  by_cases h2 : s.vt.length = 1
  · right
    refine ⟨by rw [fixWrap_vt, h2], by rw [fixWrap_open, h2]; simp, ?_⟩
    unfold fixWrap
    simp [h2]
  · left
    refine ⟨by rw [fixWrap_vt]; omega, ?_, ?_, ?_⟩
    · rw [fixWrap_open, fixWrap_vt]
      intro h
      simp at h
      omega
    · rw [fixWrap_open, fixWrap_vt]
      have g1 : s.vt[1]? = some (s.vt.getD 1 (zero3 N)) := by
        rw [List.getD_eq_getElem?_getD, List.getElem?_eq_getElem (by omega)]
        rfl
      have g2 : s.vt[s.vt.length - 1]? = some (s.vt.getD (s.vt.length - 1) (zero3 N)) := by
        rw [List.getD_eq_getElem?_getD, List.getElem?_eq_getElem (by omega)]
        rfl
      unfold fixWrap
      simp only [h2, if_false]
      split
      · rw [g1]
      · rw [g2]
    · rw [fixWrap_open, fixWrap_vt]
      have g1 : s.vt[0]? = some (s.vt.getD 0 (zero3 N)) := by
        rw [List.getD_eq_getElem?_getD, List.getElem?_eq_getElem (by omega)]
        rfl
      have g2 : s.vt[s.vt.length - 2]? = some (s.vt.getD (s.vt.length - 2) (zero3 N)) := by
        rw [List.getD_eq_getElem?_getD, List.getElem?_eq_getElem (by omega)]
        rfl
      unfold fixWrap
      simp only [h2, if_false]
      split
      · rw [g2]
      · rw [g1]

end Vect

/-- **C68, adding.** `plc_add_component` with arrays that are long enough puts the new component, with the vertices and
colours given, at the place `add_as`; the components before it stay, those from there on move up by one, and nothing
else about them changes. The list of constraints is not touched. -/
theorem C68_add (L : Curve N) (hL : ∀ s ∈ L.cp, Settled s) (a nv cc : Nat) (isOpen : Bool) (vt : List (V3 N))
    (clr : Option (List (Col N))) (ha : a ≤ L.cp.length) (h1 : 1 ≤ nv) (h2 : nv ≤ vt.length)
    (h3 : cc ≤ (clr.getD []).length) :
    ∃ L' s, addComponent L a nv isOpen cc vt clr = .ok L' ∧ L'.cst = L.cst ∧ L'.cp.length = L.cp.length + 1 ∧
      L'.cp[a]? = some s ∧ s.vt = vt.take nv ∧ s.clr = (clr.getD []).take cc ∧ Settled s ∧
      s.isOpen = (isOpen || decide (nv < 3)) ∧
      (∀ i, i < a → L'.cp[i]? = L.cp[i]?) ∧ ∀ i, a ≤ i → L'.cp[i + 1]? = L.cp[i]? := by
  have hcc : (cc : Int) = 0 ∨ clr ≠ none := by
    cases clr with
    | none =>
      simp at h3
      left
      omega
    | some c => right; simp
  have e : addComponent L a nv isOpen cc vt clr =
      .ok (fixWrapAll { L with cp := L.cp.insertIdx a ⟨isOpen, vt.take nv, (clr.getD []).take cc, zero3 N, zero3 N⟩ }) := by
    unfold addComponent takeN
    rw [assertC_ok (by simp; omega), assertC_ok (by simp), assertC_ok (by simpa using hcc), assertC_ok (by simp),
      assertC_ok (by simp; omega)]
    simp only [ok_bind, Int.toNat_natCast]
    rw [if_pos h2, if_pos h3]
    rfl
  have e2 : (L.cp.insertIdx a ⟨isOpen, vt.take nv, (clr.getD []).take cc, zero3 N, zero3 N⟩).map fixWrap =
      L.cp.insertIdx a (fixWrap ⟨isOpen, vt.take nv, (clr.getD []).take cc, zero3 N, zero3 N⟩) := by
    rw [List.map_insertIdx, map_settled hL]
  refine ⟨_, fixWrap ⟨isOpen, vt.take nv, (clr.getD []).take cc, zero3 N, zero3 N⟩, e, rfl, ?_, ?_, ?_, ?_, ?_, ?_, ?_, ?_⟩
  · simp only [fixWrapAll, e2]
    rw [List.length_insertIdx_of_le_length ha]
  · simp only [fixWrapAll, e2]
    rw [List.getElem?_insertIdx_self, if_pos ha]
  · rw [fixWrap_vt]
  · rw [fixWrap_clr]
  · apply fixWrap_fixes
    · simp only [List.length_take]
      omega
    · intro _
      rfl
  · rw [fixWrap_open]
    simp only [List.length_take, Nat.min_eq_left h2]
  · intro i hi
    simp only [fixWrapAll, e2]
    rw [List.getElem?_insertIdx_of_lt hi]
  · intro i hi
    simp only [fixWrapAll, e2]
    rw [List.getElem?_insertIdx_of_gt (by omega)]
    rfl

/-- **C68, adding with wrong arguments.** A place out of range, no vertex, a negative number of colours or colours
without an array stop the program; arrays that are too short are read behind their end. -/
theorem C68_add_checked (L : Curve N) (a nv cc : Int) (isOpen : Bool) (vt : List (V3 N)) (clr : Option (List (Col N))) :
    ((a < 0 ∨ L.cp.length < a ∨ nv < 1 ∨ cc < 0 ∨ (cc ≠ 0 ∧ clr = none)) →
      addComponent L a nv isOpen cc vt clr = .error .die) ∧
    ((0 ≤ a ∧ a ≤ L.cp.length ∧ 1 ≤ nv ∧ 0 ≤ cc ∧ (cc ≠ 0 → clr ≠ none)) →
      (vt.length < nv ∨ ((clr.getD []).length : Int) < cc) → addComponent L a nv isOpen cc vt clr = .error .ub) := by
  constructor
  · intro h
    unfold addComponent
    by_cases h1 : 1 ≤ nv
    · by_cases h2 : 0 ≤ cc
      · by_cases h3 : cc = 0 ∨ clr ≠ none
        · by_cases h4 : 0 ≤ a
          · have h5 : ¬ a ≤ L.cp.length := by
              intro h5
              rcases h with h | h | h | h | ⟨h, h'⟩
              · omega
              · omega
              · omega
              · omega
              · rcases h3 with h3 | h3
                · exact h h3
                · exact h3 h'
            simp [assertC, h1, h2, h3, h4, h5]
          · simp [assertC, h1, h2, h3, h4]
        · simp [assertC, h1, h2, h3]
      · simp [assertC, h1, h2]
    · simp [assertC, h1]
  · rintro ⟨h1, h2, h3, h4, h5⟩ h
    unfold addComponent takeN
    have h5' : cc = 0 ∨ clr ≠ none := by
      by_cases hc : cc = 0
      · exact Or.inl hc
      · exact Or.inr (h5 hc)
    rw [assertC_ok (by simpa using h3), assertC_ok (by simpa using h4), assertC_ok (by simpa using h5'),
      assertC_ok (by simpa using h1), assertC_ok (by simpa using h2)]
    simp only [ok_bind]
    by_cases h6 : nv.toNat ≤ vt.length
    · rw [if_pos h6, if_neg (by omega)]
      rfl
    · rw [if_neg h6]
      rfl

/-- **C68, dropping.** `plc_drop_component` takes out exactly the component asked for; those behind it move down by one.
The list of constraints is not touched. A number out of range stops the program. -/
theorem C68_drop (L : Curve N) (c : Nat) (hc : c < L.cp.length) :
    ∃ L', dropComponent L c = .ok L' ∧ L'.cst = L.cst ∧ L'.cp.length + 1 = L.cp.length ∧
      (∀ i, i < c → L'.cp[i]? = L.cp[i]?) ∧ ∀ i, c ≤ i → L'.cp[i]? = L.cp[i + 1]? := by
  refine ⟨{ L with cp := L.cp.eraseIdx c }, ?_, rfl, ?_, ?_, ?_⟩
  · unfold dropComponent
    rw [assertC_ok (by simp), assertC_ok (by simp; omega)]
    rfl
  · simp only [List.length_eraseIdx, hc, if_true]
    omega
  · intro i hi
    exact List.getElem?_eraseIdx_of_lt hi
  · intro i hi
    exact List.getElem?_eraseIdx_of_ge hi

theorem C68_drop_checked (L : Curve N) (c : Int) (hc : c < 0 ∨ L.cp.length ≤ c) : dropComponent L c = .error .die := by
  unfold dropComponent
  by_cases h : 0 ≤ c
  · have : ¬ c < L.cp.length := by omega
    simp [assertC, h, this]
  · simp [assertC, h]

/-- **C68, adding and dropping.** Dropping the component just added gives the curve back. -/
theorem C68_add_drop (L : Curve N) (hL : ∀ s ∈ L.cp, Settled s) (a nv cc : Nat) (isOpen : Bool) (vt : List (V3 N))
    (clr : Option (List (Col N))) (ha : a ≤ L.cp.length) (h1 : 1 ≤ nv) (h2 : nv ≤ vt.length)
    (h3 : cc ≤ (clr.getD []).length) :
    (addComponent L a nv isOpen cc vt clr >>= fun L' => dropComponent L' a) = .ok L := by
  obtain ⟨L', s, e1, e2, e3, -, -, -, -, -, e4, e5⟩ := C68_add L hL a nv cc isOpen vt clr ha h1 h2 h3
  rw [e1, ok_bind]
  obtain ⟨L'', f1, f2, f3, f4, f5⟩ := C68_drop L' a (by omega)
  rw [f1]
  obtain ⟨cp, cst⟩ := L
  obtain ⟨cp', cst'⟩ := L'
  obtain ⟨cp'', cst''⟩ := L''
  simp only at *
  rw [f2, e2]
  congr 2
  apply List.ext_getElem?
  intro i
  by_cases hi : i < a
  · rw [f4 i hi, e4 i hi]
  · rw [f5 i (by omega), e5 i (by omega)]

/-- **C68, copying.** `plc_copy` of a proper curve is the same curve. -/
theorem C68_copy (L : Curve N) (hp : Proper L) : copy L = .ok L := by
  have h : newOk (L.cp.map fun s => s.vt.length) (L.cp.map fun s => (s.clr.length : Int)) = true := by
    have := hp.verts
    generalize L.cp = l at this
    induction l with
    | nil => rfl
    | cons s ss ih =>
      obtain ⟨a, b⟩ := this s (by simp)
      simp only [List.map_cons, newOk, ih (fun x hx => this x (by simp [hx])), Bool.and_true, Bool.and_eq_true,
        decide_eq_true_eq]
      omega
  unfold copy
  have h0 : 1 ≤ L.cp.length := by
    cases hcp : L.cp with
    | nil => exact absurd hcp hp.comps
    | cons a b => simp
  rw [assertC_ok (by simpa using h0), assertC_ok h]
  simp only [ok_bind]
  congr 1
  obtain ⟨cp, cst⟩ := L
  simp only
  rw [show (fun s : Strand N => (⟨s.isOpen, s.vt, s.clr, s.lo, s.hi⟩ : Strand N)) = id from rfl,
    show (fun c : Cst (VV N) => (⟨c.kind, c.vect, c.cmp, c.vert, c.num⟩ : Cst (VV N))) = id from rfl, List.map_id,
    List.map_id]

/-! ## Constraints of moved components -/

namespace Vect

/-- The lengths of the rows of the table of numbers stay. -/
theorem mark_cases (cmp k : Nat) : ∀ (n : Nat) (i : Int) (nums : List (List Nat)),
    (∃ nums', mark cmp k n i nums = .ok nums' ∧ nums'.map List.length = nums.map List.length) ∨
      mark cmp k n i nums = .error .ub
  | 0, i, nums => Or.inl ⟨nums, rfl, rfl⟩
  | n + 1, i, nums => by
    unfold mark
    cases hr : nums[cmp]? with
    | none => right; rw [rd_none hr]; rfl
    | some row =>
      rw [rd_ok hr]
      simp only [ok_bind]
      by_cases hi : i < 0
      · right; rw [if_pos hi]; rfl
      · rw [if_neg hi]
        have hc := (List.getElem?_eq_some_iff.1 hr).1
        by_cases hl : i.toNat < row.length
        · rw [wr_lt hl, ok_bind, wr_lt hc, ok_bind]
          rcases mark_cases cmp k n (i + 1) (nums.set cmp (row.set i.toNat k)) with ⟨a, b, c⟩ | h
          · left
            refine ⟨a, b, c.trans ?_⟩
            rw [List.map_set, List.length_set]
            apply List.ext_getElem?
            intro j
            rw [List.getElem?_set]
            split
            · next h =>
              subst h
              have : nums[cmp] = row := by
                have := List.getElem?_eq_getElem hc
                rw [hr] at this
                exact (Option.some.inj this).symm
              simp [hc, this]
            · rfl
          · exact Or.inr h
        · right; rw [wr_ge (by omega)]; rfl

/-- Marking outside the table. -/
theorem mark_outside (cmp k : Nat) : ∀ (n : Nat) (i : Int) (nums : List (List Nat)), 0 ≤ i → 1 ≤ n →
    (∀ row, nums[cmp]? = some row → (row.length : Int) < i + n) → mark cmp k n i nums = .error .ub
  | 0, i, nums, _, h, _ => absurd h (by omega)
  | n + 1, i, nums, h0, _, h => by
    unfold mark
    cases hr : nums[cmp]? with
    | none => rw [rd_none hr]; rfl
    | some row =>
      have hrow := h row hr
      rw [rd_ok hr]
      simp only [ok_bind]
      rw [if_neg (by omega)]
      have hc := (List.getElem?_eq_some_iff.1 hr).1
      by_cases hl : i.toNat < row.length
      · rw [wr_lt hl, ok_bind, wr_lt hc, ok_bind]
        by_cases hn : n = 0
        · subst hn
          omega
        · apply mark_outside cmp k n (i + 1) _ (by omega) (by omega)
          intro row' hrow'
          rw [List.getElem?_set_self hc] at hrow'
          cases hrow'
          rw [List.length_set]
          push_cast at hrow
          omega
      · rw [wr_ge (by omega)]
        rfl

theorem writeCsts_outside : ∀ (l seen : List (Cst (VV N))) (nums : List (List Nat)),
    (∀ c ∈ l, 1 ≤ c.num ∧ c.kind ≠ .unconstrained ∧ 0 ≤ c.vert) →
    (∃ c ∈ l, ∀ n, (nums.map List.length)[c.cmp]? = some n → (n : Int) < c.vert + c.num) →
    writeCsts seen nums l = .error .ub
  | [], _, _, _, h => by obtain ⟨c, hc, -⟩ := h; simp at hc
  | c :: t, seen, nums, hall, hex => by
    obtain ⟨h1, h2, h3⟩ := hall c (by simp)
    have step : ∀ k, mark c.cmp k c.num.toNat c.vert nums = .error .ub ∨
        ∃ nums', mark c.cmp k c.num.toNat c.vert nums = .ok nums' ∧ nums'.map List.length = nums.map List.length ∧
          ∃ d ∈ t, ∀ n, (nums'.map List.length)[d.cmp]? = some n → (n : Int) < d.vert + d.num := by
      intro k
      obtain ⟨d, hd, hdo⟩ := hex
      rcases List.mem_cons.1 hd with rfl | hd
      · left
        apply mark_outside _ _ _ _ _ h3 (by omega)
        intro row hrow
        have := hdo row.length (by rw [List.getElem?_map, hrow]; rfl)
        omega
      · rcases mark_cases c.cmp k c.num.toNat c.vert nums with ⟨a, b, e⟩ | h
        · right
          exact ⟨a, b, e, d, hd, by rw [e]; exact hdo⟩
        · exact Or.inl h
    unfold writeCsts
    rw [assertC_ok (by simpa using h2), ok_bind]
    cases hf : seen.findIdx? (twin c) with
    | some i =>
      simp only
      rcases step (i + 1) with h | ⟨nums', a, b, e⟩
      · rw [h]; rfl
      · rw [a, ok_bind]
        exact writeCsts_outside t seen nums' (fun x hx => hall x (by simp [hx])) e
    | none =>
      simp only
      rcases step (seen.length + 1) with h | ⟨nums', a, b, e⟩
      · rw [h]; rfl
      · rw [a, ok_bind, writeCsts_outside t (c :: seen) nums' (fun x hx => hall x (by simp [hx])) e]
        rfl

end Vect

/-- **C68, constraints outside the curve.** A curve with a constraint on a vertex that is not there cannot be written:
`plc_write` leaves its table. -/
theorem C68_write_outside (L : Curve N) (h0 : L.cp ≠ []) (hall : ∀ c ∈ L.cst, 1 ≤ c.num ∧ c.kind ≠ .unconstrained ∧ 0 ≤ c.vert)
    (c : Cst (VV N)) (hc : c ∈ L.cst) (ho : ∀ s, L.cp[c.cmp]? = some s → (s.vt.length : Int) < c.vert + c.num) :
    write L = .error .ub := by
  unfold write
  have : 0 < L.cp.length := by
    cases h : L.cp with
    | nil => exact absurd h h0
    | cons a b => simp
  rw [assertC_ok (by simpa using this), ok_bind, writeCsts_outside L.cst [] _ hall ⟨c, hc, ?_⟩]
  · rfl
  · intro n hn
    rw [List.map_map, List.getElem?_map] at hn
    cases hs : L.cp[c.cmp]? with
    | none => rw [hs] at hn; cases hn
    | some s =>
      rw [hs] at hn
      simp at hn
      have := ho s hs
      omega

/-- **C68, dropping leaves constraints behind.** If the last component of a proper curve has a constraint, then after
dropping any component but the only one `plc_write` goes out of bounds. -/
theorem C68_drop_then_write (L : Curve N) (hp : Proper L) (h2 : 2 ≤ L.cp.length) (c : Cst (VV N)) (hc : c ∈ L.cst)
    (hl : c.cmp + 1 = L.cp.length) (i : Nat) (hi : i < L.cp.length) :
    (dropComponent L i >>= write) = .error .ub := by
  obtain ⟨L', f1, f2, f3, -, -⟩ := C68_drop L i hi
  rw [f1, ok_bind]
  apply C68_write_outside L' (by intro h; rw [h] at f3; simp at f3; omega) _ c (by rw [f2]; exact hc)
  · intro s hs
    have := (List.getElem?_eq_some_iff.1 hs).1
    omega
  · intro d hd
    rw [f2] at hd
    exact ⟨(hp.tidy.2 d hd).1, (hp.tidy.2 d hd).2, (hp.inside d hd).1⟩

/-- **C68, adding as last component** keeps all constraints where they are, and the new component has none. -/
theorem C68_add_last (L : Curve N) (hL : ∀ s ∈ L.cp, Settled s) (hp : Proper L) (nv cc : Nat) (isOpen : Bool)
    (vt : List (V3 N)) (clr : Option (List (Col N))) (h1 : 1 ≤ nv) (h2 : nv ≤ vt.length)
    (h3 : cc ≤ (clr.getD []).length) :
    ∃ L', addComponent L L.cp.length nv isOpen cc vt clr = .ok L' ∧
      (∀ (p : Nat) (v : Int), p < L.cp.length → answer L'.cst p v = answer L.cst p v) ∧
      ∀ v : Int, answer L'.cst L.cp.length v = none := by
  obtain ⟨L', s, e1, e2, -⟩ := C68_add L hL L.cp.length nv cc isOpen vt clr (Nat.le_refl _) h1 h2 h3
  refine ⟨L', e1, fun p v _ => by rw [e2], ?_⟩
  intro v
  rw [e2]
  cases ha : answer L.cst L.cp.length v with
  | none => rfl
  | some k =>
    obtain ⟨c, hc, hcov, -⟩ := (answer_iff hp.tidy _ v k).1 ha
    obtain ⟨-, -, s, hs, -⟩ := hp.inside c hc
    have := (List.getElem?_eq_some_iff.1 hs).1
    have : c.cmp = L.cp.length := hcov.1
    omega

/-- **C68, adding in front of a constrained component** does not keep its constraints: they are now constraints of the
component before it. Whatever component `p` is constrained at vertex `v`, after adding in front of it vertex `v` of
number `p` is constrained in this way and the vertex itself, now of number `p + 1`, only if component `p + 1` was. -/
theorem C68_add_moves (L : Curve N) (hL : ∀ s ∈ L.cp, Settled s) (a nv cc : Nat) (isOpen : Bool) (vt : List (V3 N))
    (clr : Option (List (Col N))) (ha : a ≤ L.cp.length) (h1 : 1 ≤ nv) (h2 : nv ≤ vt.length)
    (h3 : cc ≤ (clr.getD []).length) (p : Nat) (hap : a ≤ p) (v : Int) :
    ∃ L', addComponent L a nv isOpen cc vt clr = .ok L' ∧ L'.cp[p + 1]? = L.cp[p]? ∧
      answer L'.cst p v = answer L.cst p v ∧ answer L'.cst (p + 1) v = answer L.cst (p + 1) v := by
  obtain ⟨L', s, e1, e2, -, -, -, -, -, -, -, e5⟩ := C68_add L hL a nv cc isOpen vt clr ha h1 h2 h3
  exact ⟨L', e1, e5 p hap, by rw [e2], by rw [e2]⟩

/-! ## Colours -/

/-- **C68, colours.** The resized buffer of a component has the size asked for. Colours are kept as far as there is room
for them; a single colour is spread over the whole component, and without colours all of them are zero. -/
theorem C68_colorbuf (L : Curve N) (p : Nat) (s : Strand N) (hs : L.cp[p]? = some s) (cc : Nat) :
    ∃ b, resizeColorbuf L p cc = .ok b ∧ b.length = cc ∧
      (∀ (i : Nat) (c : Col N), i < cc → s.clr[i]? = some c → b[i]? = some (some c)) ∧
      (∀ c, s.clr = [c] → ∀ i : Nat, i < cc → b[i]? = some (some c)) ∧
      (s.clr = [] → ∀ i : Nat, i < cc → b[i]? = some (some (N.zero, N.zero, N.zero, N.zero))) := by
  unfold resizeColorbuf
  rw [if_neg (by omega), show Int.toNat (p : Int) = p from rfl, rd_ok hs]
  simp only [ok_bind]
  unfold resizeCols
  by_cases h0 : cc = 0
  · subst h0
    exact ⟨[], rfl, rfl, by intro i c h; omega, by intro c _ i h; omega, by intro _ i h; omega⟩
  · rw [if_neg (by omega), if_neg (by omega)]
    match hc : s.clr with
    | [] =>
      refine ⟨_, rfl, by simp, ?_, ?_, ?_⟩
      · intro i c _ h
        simp at h
      · intro c h
        cases h
      · intro _ i hi
        rw [List.getElem?_replicate]
        simp [hi]
    | [d] =>
      refine ⟨_, rfl, by simp, ?_, ?_, ?_⟩
      · intro i c hi h
        rw [List.getElem?_replicate]
        have : i = 0 := by
          have := (List.getElem?_eq_some_iff.1 h).1
          simp at this
          omega
        subst this
        simp at h
        simp [h, hi]
      · intro c h i hi
        cases h
        rw [List.getElem?_replicate]
        simp [hi]
      · intro h
        cases h
    | d :: e :: r =>
      refine ⟨_, rfl, ?_, ?_, ?_, ?_⟩
      · simp
        omega
      · intro i c hi h
        have := (List.getElem?_eq_some_iff.1 h).1
        rw [List.getElem?_append_left (by simp at this ⊢; omega), List.getElem?_map, List.getElem?_take]
        simp only [Int.toNat_natCast, hi, if_true, h, Option.map_some]
      · intro c h
        cases h
      · intro h
        cases h

/-- **C68, growing the colours** of a component with two or more leaves the new ones unwritten. -/
theorem C68_colorbuf_garbage (L : Curve N) (p : Nat) (s : Strand N) (hs : L.cp[p]? = some s) (h2 : 2 ≤ s.clr.length)
    (cc i : Nat) (h : s.clr.length ≤ i) (hi : i < cc) :
    ∃ b, resizeColorbuf L p cc = .ok b ∧ b[i]? = some none := by
  unfold resizeColorbuf
  rw [if_neg (by omega), show Int.toNat (p : Int) = p from rfl, rd_ok hs]
  simp only [ok_bind]
  unfold resizeCols
  rw [if_neg (by omega), if_neg (by omega)]
  match hc : s.clr with
  | [] => rw [hc] at h2; simp at h2
  | [d] => rw [hc] at h2; simp at h2
  | d :: e :: r =>
    refine ⟨_, rfl, ?_⟩
    rw [hc] at h h2
    rw [List.getElem?_append_right (by simp at h ⊢; omega), List.getElem?_replicate]
    simp at h ⊢
    omega

/-- **C68, one colour.** `plc_set_color` gives every colour of the curve this value and changes nothing else. -/
theorem C68_set_color (L : Curve N) (c : Col N) (p : Nat) (s : Strand N) (hs : L.cp[p]? = some s) :
    ∃ s', (setColor L c).cp[p]? = some s' ∧ s'.clr.length = s.clr.length ∧ (∀ d ∈ s'.clr, d = c) ∧ s'.vt = s.vt ∧
      s'.isOpen = s.isOpen ∧ s'.lo = s.lo ∧ s'.hi = s.hi ∧ (setColor L c).cst = L.cst := by
  refine ⟨{ s with clr := s.clr.map fun _ => c }, by simp [setColor, hs], by simp, ?_, rfl, rfl, rfl, rfl, rfl⟩
  intro d hd
  simp at hd
  exact hd.2

/-! ## Examples -/

namespace Vect

theorem sample_settled : ∀ s ∈ sample.cp, Settled s := fun s hs => Or.inl (sample_wrapped s hs)

/-- The sample has a constraint on its last component. -/
example : (dropComponent sample 0 >>= write) = .error .ub :=
  C68_drop_then_write sample sample_proper (by decide)
    ⟨.fixed, ((tx "5", tx "6", tx "7"), zero3 textFmt), 1, 0, 1⟩ (by simp [sample]) (by decide) 0 (by decide)

/-- A component put in front of the sample: the constraint on vertex 1 of the triangle is now one of the new
component, and the triangle has those of the open curve. -/
example : ∃ L', addComponent sample 0 2 true 0 [(tx "1", tx "1", tx "1"), (tx "2", tx "2", tx "2")] none = .ok L' ∧
    L'.cp[1]? = sample.cp[0]? ∧
    answer L'.cst 0 1 = some (.line, (tx "1", tx "0", tx "0"), (tx "0.3333", tx "0", tx "0")) ∧
    answer L'.cst 1 1 = some (.plane, (tx "0", tx "1", tx "0"), (tx "2", tx "0", tx "0")) := by
  obtain ⟨L', h1, h2, h3, h4⟩ := C68_add_moves sample sample_settled 0 2 0 true
    [(tx "1", tx "1", tx "1"), (tx "2", tx "2", tx "2")] none (by decide) (by decide) (by decide) (by decide) 0 (by decide) 1
  exact ⟨L', h1, h2, h3.trans (by decide), h4.trans (by decide)⟩

example : copy sample = .ok sample := C68_copy sample sample_proper

end Vect

end Plc
