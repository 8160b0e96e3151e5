import Verif.Proofs.Perm2

namespace Plc.PermM

open List

theorem valid_lt {A : List Nat} (hA : A ~ List.range A.length) {x : Nat} (hx : x ∈ A) :
    x < A.length := List.mem_range.mp (hA.subset hx)

theorem valid_nodup {A : List Nat} (hA : A ~ List.range A.length) : A.Nodup :=
  hA.nodup_iff.mpr List.nodup_range

theorem valid_iff {A : List Nat} :
    A ~ List.range A.length ↔ (∀ x ∈ A, x < A.length) ∧ A.Nodup := by
  constructor
  · intro h; exact ⟨fun x hx => valid_lt h hx, valid_nodup h⟩
  · rintro ⟨h1, h2⟩
    have hsub : A ⊆ List.range A.length := fun x hx => List.mem_range.mpr (h1 x hx)
    exact (List.subperm_of_subset h2 hsub).perm_of_length_le (by simp)

theorem allBelow_iff {m : List Nat} : allBelow m = true ↔ ∀ x ∈ m, x < m.length := by
  simp [allBelow]

theorem noRepeat_iff : ∀ {m : List Nat}, noRepeat m = true ↔ m.Nodup
  | [] => by simp [noRepeat]
  | a :: m => by
    simp only [noRepeat, Bool.and_eq_true, noRepeat_iff (m := m), List.nodup_cons]
    simp only [List.all_eq_true, decide_eq_true_eq]
    constructor
    · rintro ⟨h1, h2⟩; exact ⟨fun h => h1 a h rfl, h2⟩
    · rintro ⟨h1, h2⟩; exact ⟨fun b hb hab => h1 (hab ▸ hb), h2⟩

/-! ## Composition -/

/-- `A[b]` for proofs. -/
def ap (A : List Nat) (b : Nat) : Nat := A.getD b b

theorem ap_lt {A : List Nat} {b : Nat} (h : b < A.length) : ap A b = A[b] := by
  simp [ap, List.getD, List.getElem?_eq_getElem h]

theorem composeMap_ok {A : List Nat} : ∀ {B : List Nat}, (∀ x ∈ B, x < A.length) →
    composeMap A B = .ok (B.map (ap A))
  | [], _ => rfl
  | b :: B, h => by
    have hb := h b (by simp)
    rw [composeMap, rd_lt hb, composeMap_ok (fun x hx => h x (by simp [hx]))]
    simp [ap_lt hb]

theorem map_ap_range (A : List Nat) : (List.range A.length).map (ap A) = A := by
  apply List.ext_getElem (by simp)
  intro i h1 h2
  simp [ap_lt h2]

theorem compose_valid {A B : List Nat} (hA : A ~ List.range A.length)
    (hB : B ~ List.range B.length) (hn : A.length = B.length) :
    B.map (ap A) ~ List.range A.length := by
  refine (hB.map (ap A)).trans ?_
  rw [← hn, map_ap_range]
  exact hA

theorem ap_map {A B : List Nat} {i : Nat} (h : i < B.length) :
    ap (B.map (ap A)) i = ap A (ap B i) := by
  rw [ap_lt (by simpa using h), ap_lt h]
  simp

theorem compose_assoc_map {A B C : List Nat} (hC : ∀ x ∈ C, x < B.length) :
    C.map (ap (B.map (ap A))) = (C.map (ap B)).map (ap A) := by
  rw [List.map_map]
  apply List.map_congr_left
  intro x hx
  exact ap_map (hC x hx)

/-! ## Table index -/

theorem lexCmp_spec : ∀ (a b : List Nat), a.length = b.length →
    (lexCmp a b < 0 ↔ a < b) ∧ (lexCmp a b = 0 ↔ a = b) ∧ (lexCmp a b > 0 ↔ b < a)
  | [], [], _ => by simp [lexCmp]
  | [], b :: bs, h => by simp at h
  | a :: as, [], h => by simp at h
  | a :: as, b :: bs, h => by
    obtain ⟨h1, h2, h3⟩ := lexCmp_spec as bs (by simpa using h)
    unfold lexCmp
    by_cases hab : a = b
    · subst hab
      simp [h1, h2, h3, List.cons_lt_cons_iff]
    · rw [if_pos hab]
      simp only [List.cons_lt_cons_iff, List.cons.injEq, hab, Ne.symm hab, false_and, or_false]
      refine ⟨by omega, ?_, by omega⟩
      constructor
      · intro h; omega
      · intro h; exact h.elim

theorem regenPc_spec (bs : BSearch) {m : List Nat} (hm : m ~ List.range m.length)
    (hn : 1 ≤ m.length) :
    ∃ p, regenPc bs m = .ok p ∧ p.map = m ∧
      (m.length ≤ 6 → p.pc < m.length.factorial ∧ nth m.length p.pc = m) ∧
      (6 < m.length → p.pc = 0) := by
  unfold regenPc
  by_cases h6 : m.length > MAX_PC
  · rw [if_pos h6]
    exact ⟨_, rfl, rfl, fun h => by unfold MAX_PC at h6; omega, fun _ => rfl⟩
  · rw [if_neg h6]
    have h6' : m.length ≤ 6 := by unfold MAX_PC at h6; omega
    obtain ⟨t, ht1, ht2, ht3⟩ := table_spec hn h6'
    rw [rd_ok ht1]
    simp only [ok_bind]
    have hlen : ∀ a ∈ t, m.length = a.length := by
      intro a ha
      obtain ⟨i, hi, rfl⟩ := List.getElem_of_mem ha
      have := ht3 i (by omega)
      rw [List.getElem?_eq_getElem hi] at this
      rw [Option.some.inj this]
      exact (nth_length hn (by omega)).symm
    have hsorted : t.Pairwise (fun a b => (lexCmp m b > 0 → lexCmp m a > 0) ∧
        (lexCmp m b = 0 → lexCmp m a ≥ 0)) := by
      rw [List.pairwise_iff_getElem]
      intro i j hi hj hij
      have ei := ht3 i (by omega)
      have ej := ht3 j (by omega)
      rw [List.getElem?_eq_getElem hi] at ei
      rw [List.getElem?_eq_getElem hj] at ej
      have hlt : t[i] < t[j] := by
        rw [Option.some.inj ei, Option.some.inj ej]
        exact nth_lt hn hij (by omega)
      obtain ⟨_, b1, c1⟩ := lexCmp_spec m t[i] (hlen _ (List.getElem_mem hi))
      obtain ⟨_, b2, c2⟩ := lexCmp_spec m t[j] (hlen _ (List.getElem_mem hj))
      constructor
      · intro h; rw [c1]; rw [c2] at h; exact lt_trans hlt h
      · intro h; rw [b2] at h; have : lexCmp m t[i] > 0 := by rw [c1, h]; exact hlt
        omega
    cases hf : bs.find (fun row => lexCmp m row) t with
    | none =>
      exfalso
      have hmiss := bs.miss _ t hsorted hf
      obtain ⟨i, hi, hi'⟩ := nth_surj hn hm
      have hmem : m ∈ t := by
        have := ht3 i hi
        rw [hi'] at this
        exact List.mem_of_getElem? this
      exact hmiss m hmem ((lexCmp_spec m m rfl).2.1.mpr rfl)
    | some i =>
      obtain ⟨a, ha1, ha2⟩ := bs.hit _ t i hsorted hf
      have ham : a ∈ t := List.mem_of_getElem? ha1
      have : m = a := (lexCmp_spec m a (hlen a ham)).2.1.mp ha2
      subst this
      have hi : i < t.length := by
        by_contra h
        rw [List.getElem?_eq_none (by omega)] at ha1
        simp at ha1
      refine ⟨_, rfl, rfl, fun _ => ⟨by simp only; omega, ?_⟩, fun h => by omega⟩
      have := ht3 i (by omega)
      rw [ha1] at this
      exact (Option.some.inj this).symm

/-- The index found is determined by the map. -/
theorem regenPc_det (bs : BSearch) {m : List Nat} (hm : m ~ List.range m.length)
    (hn : 1 ≤ m.length) {i : Nat} (hi : i < m.length.factorial) (hnth : nth m.length i = m)
    (h6 : m.length ≤ 6) : regenPc bs m = .ok ⟨m, i⟩ := by
  obtain ⟨p, h1, h2, h3, _⟩ := regenPc_spec bs hm hn
  obtain ⟨h3, h4⟩ := h3 h6
  rw [h1]
  have : p.pc = i := by
    rcases lt_trichotomy p.pc i with h | h | h
    · have := nth_lt hn h hi
      rw [h4, hnth] at this
      exact absurd this (lt_irrefl _)
    · exact h
    · have := nth_lt hn h h3
      rw [h4, hnth] at this
      exact absurd this (lt_irrefl _)
  cases p
  simp_all

/-! ## Inverse -/

theorem invLoop_spec : ∀ (l : List Nat) (i : Nat) (out : List Nat), l.Nodup →
    (∀ x ∈ l, x < out.length) →
    ∃ out', invLoop l i out = .ok out' ∧ out'.length = out.length ∧
      (∀ j (h : j < l.length), out'[l[j]]? = some (i + j)) ∧
      (∀ a, a ∉ l → out'[a]? = out[a]?)
  | [], i, out, _, _ => ⟨out, rfl, rfl, by simp, by simp⟩
  | a :: l, i, out, hn, hb => by
    rw [invLoop, wr_lt (hb a (by simp)), ok_bind]
    rw [List.nodup_cons] at hn
    obtain ⟨o, h1, h2, h3, h4⟩ := invLoop_spec l (i + 1) (out.set a i) hn.2
      (fun x hx => by rw [List.length_set]; exact hb x (by simp [hx]))
    refine ⟨o, h1, by simpa using h2, ?_, ?_⟩
    · intro j hj
      cases j with
      | zero =>
        simp only [List.getElem_cons_zero]
        rw [h4 a hn.1]
        simp [hb a (by simp)]
      | succ j =>
        simp only [List.getElem_cons_succ]
        rw [h3 j (by simpa using hj)]
        congr 1; omega
    · intro x hx
      simp only [List.mem_cons, not_or] at hx
      rw [h4 x hx.2, List.getElem?_set_ne (Ne.symm hx.1)]

theorem invLoop_inverse {A : List Nat} (hA : A ~ List.range A.length) :
    ∃ B, invLoop A 0 (List.range A.length) = .ok B ∧ B.length = A.length ∧
      (∀ i, i < A.length → ap B (ap A i) = i) ∧ (∀ i, i < A.length → ap A (ap B i) = i) ∧
      B ~ List.range A.length := by
  obtain ⟨B, h1, h2, h3, _⟩ := invLoop_spec A 0 (List.range A.length) (valid_nodup hA)
    (fun x hx => by simpa using valid_lt hA hx)
  rw [List.length_range] at h2
  have hBA : ∀ i, i < A.length → ap B (ap A i) = i := by
    intro i hi
    have := h3 i hi
    rw [ap_lt hi]
    have hlt : A[i] < B.length := by rw [h2]; exact valid_lt hA (List.getElem_mem hi)
    rw [List.getElem?_eq_getElem hlt] at this
    rw [ap_lt hlt, Option.some.inj this]
    omega
  have hAB : ∀ i, i < A.length → ap A (ap B i) = i := by
    intro a ha
    have : a ∈ A := hA.symm.subset (List.mem_range.mpr ha)
    obtain ⟨i, hi, rfl⟩ := List.getElem_of_mem this
    have := hBA i hi
    rw [← ap_lt hi]
    rw [this]
  refine ⟨B, h1, h2, hBA, hAB, ?_⟩
  have e1 : A.map (ap B) = List.range A.length := by
    apply List.ext_getElem (by simp)
    intro i hi1 hi2
    simp only [List.getElem_map, List.getElem_range]
    have hi : i < A.length := by simpa using hi2
    rw [← ap_lt hi, hBA i hi]
  have e2 : A.map (ap B) ~ B := by
    refine (hA.map (ap B)).trans ?_
    rw [← h2, map_ap_range]
  rw [← e1]
  exact e2.symm

/-! ## Period -/

theorem isEFrom_iff : ∀ (l : List Nat) (i : Nat),
    isEFrom l i = true ↔ ∀ j (h : j < l.length), l[j] = i + j
  | [], i => by simp [isEFrom]
  | a :: l, i => by
    simp only [isEFrom, Bool.and_eq_true, decide_eq_true_eq, isEFrom_iff l (i+1)]
    constructor
    · rintro ⟨h1, h2⟩ j hj
      cases j with
      | zero => simpa using h1
      | succ j =>
        simp only [List.getElem_cons_succ]
        rw [h2 j (by simpa using hj)]; omega
    · intro h
      refine ⟨by have := h 0 (by simp); simpa only [List.getElem_cons_zero, Nat.add_zero] using this, fun j hj => ?_⟩
      have := h (j+1) (by simpa using hj)
      simp only [List.getElem_cons_succ] at this
      rw [this]; omega

theorem isE_iff (p : Perm) : isE p = true ↔ ∀ i, i < p.map.length → ap p.map i = i := by
  unfold isE
  rw [isEFrom_iff]
  constructor
  · intro h i hi; rw [ap_lt hi, h i hi]; omega
  · intro h i hi; rw [← ap_lt hi, h i hi]; omega

/-- `P` holds the `k`-th power of `A`. -/
def IsPow (A P : Perm) (k : Nat) : Prop :=
  P.map.length = A.map.length ∧ ∀ i, i < A.map.length → ap P.map i = (ap A.map)^[k] i

theorem ap_iter_lt {A : List Nat} (hA : ∀ x ∈ A, x < A.length) (k : Nat) {i : Nat}
    (hi : i < A.length) : (ap A)^[k] i < A.length := by
  induction k with
  | zero => exact hi
  | succ k ih => rw [Function.iterate_succ_apply', ap_lt ih]; exact hA _ (List.getElem_mem _)

theorem stareq_pow {A P : Perm} (hA : ∀ x ∈ A.map, x < A.map.length) {k : Nat}
    (h : IsPow A P k) : ∃ P', stareq P A = .ok P' ∧ IsPow A P' (k + 1) := by
  obtain ⟨h1, h2⟩ := h
  unfold stareq
  rw [assertC_ok (by simp [Perm.n, h1]), composeMap_ok (fun x hx => by rw [h1]; exact hA x hx)]
  refine ⟨_, rfl, by simp, ?_⟩
  intro i hi
  simp only
  rw [ap_map hi, Function.iterate_succ_apply]
  have : ap A.map i < A.map.length := by rw [ap_lt hi]; exact hA _ (List.getElem_mem _)
  exact h2 _ this

theorem periodLoop_spec {A : Perm} (hA : ∀ x ∈ A.map, x < A.map.length) :
    ∀ (f : Nat) (P : Perm) (k : Nat), IsPow A P k →
    ∃ p, periodLoop A f P k = .ok p ∧ k ≤ p ∧ p ≤ k + f ∧
      (∀ j, k ≤ j → j < p → ¬ ∀ i, i < A.map.length → (ap A.map)^[j] i = i) ∧
      (p < k + f → ∀ i, i < A.map.length → (ap A.map)^[p] i = i)
  | 0, P, k, _ => ⟨k, rfl, by omega, by omega, by intros; omega, by intros; omega⟩
  | f + 1, P, k, h => by
    have hE : isE P = true ↔ ∀ i, i < A.map.length → (ap A.map)^[k] i = i := by
      rw [isE_iff, h.1]
      constructor
      · intro h' i hi; rw [← h.2 i hi]; exact h' i hi
      · intro h' i hi; rw [h.2 i hi]; exact h' i hi
    rw [periodLoop]
    by_cases he : isE P = true
    · rw [if_pos he]
      exact ⟨k, rfl, by omega, by omega, by intros; omega, fun _ => hE.mp he⟩
    · rw [if_neg he]
      obtain ⟨P', e1, e2⟩ := stareq_pow hA h
      rw [e1, ok_bind]
      obtain ⟨p, g1, g2, g3, g4, g5⟩ := periodLoop_spec hA f P' (k + 1) e2
      refine ⟨p, g1, by omega, by omega, ?_, fun hp => g5 (by omega)⟩
      intro j hj hjp
      rcases Nat.lt_or_eq_of_le hj with hj | rfl
      · exact g4 j hj hjp
      · exact fun h' => he (hE.mpr h')

end Plc.PermM
