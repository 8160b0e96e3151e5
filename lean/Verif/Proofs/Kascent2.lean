import Verif.Proofs.Kascent
import Verif.Spec.Kascent
import Mathlib.Data.Rat.Cast.Order
import Mathlib.Tactic.NormNum

/-! Lemmas on ascents, the choice vector and the insertion loop. -/

namespace Plc.Kasc

abbrev ltB : Int → Int → Bool := fun a b => decide (a < b)
abbrev gtB : Int → Int → Bool := fun a b => decide (a > b)

theorem adj_eq (lt : Int → Int → Bool) : ∀ (p : List Int),
    adj lt p = ((List.range (p.length - 1)).filter fun i => lt (p.getD i 0) (p.getD (i + 1) 0)).length
  | [] => rfl
  | [_] => rfl
  | a :: b :: l => by
    rw [adj, adj_eq lt (b :: l)]
    simp only [List.length_cons, Nat.add_sub_cancel, List.range_succ_eq_map, List.filter_cons, List.filter_map,
      List.getD_cons_zero, List.getD_cons_succ]
    have e : ((fun i => lt ((a :: b :: l).getD i 0) ((b :: l).getD i 0)) ∘ Nat.succ) =
        (fun i => lt ((b :: l).getD i 0) (l.getD i 0)) := by
      funext i
      simp
    rw [e]
    by_cases h : lt a b = true <;> simp [h, Nat.add_comm]

theorem ascents_eq (p : List Int) : ascents p = adj ltB p := (adj_eq ltB p).symm
theorem descents_eq (p : List Int) : descents p = adj gtB p := (adj_eq gtB p).symm

theorem adj_append (lt : Int → Int → Bool) : ∀ (pv : List Int) (a : Int) (w : List Int),
    adj lt (pv ++ a :: w) = adj lt (pv ++ [a]) + adj lt (a :: w)
  | [], a, w => by simp [adj]
  | [c], a, w => by simp [adj]
  | c :: d :: l, a, w => by
    have := adj_append lt (d :: l) a w
    simp only [List.cons_append, adj] at this ⊢
    omega

theorem adj_sum : ∀ (p : List Int), p.Nodup → p ≠ [] → adj ltB p + adj gtB p + 1 = p.length
  | [], _, h => absurd rfl h
  | [_], _, _ => rfl
  | a :: b :: l, h, _ => by
    have ih := adj_sum (b :: l) (List.nodup_cons.mp h).2 (by simp)
    have hab : a ≠ b := by
      intro he
      subst he
      simp at h
    simp only [adj, List.length_cons] at ih ⊢
    rcases lt_or_gt_of_ne hab with h1 | h1
    · have h2 : ¬ b < a := by omega
      simp [ltB, gtB, h1, h2] at ih ⊢; omega
    · have h2 : ¬ a < b := by omega
      simp [ltB, gtB, h1, h2] at ih ⊢; omega

/-- Inserting a large value in an ascent keeps the number of ascents. -/
theorem adj_insert_asc (pv sv : List Int) (a b x : Int) (hab : a < b) (ha : a < x) (hb : b < x) :
    adj ltB (pv ++ a :: x :: b :: sv) = adj ltB (pv ++ a :: b :: sv) := by
  rw [adj_append ltB pv a (x :: b :: sv), adj_append ltB pv a (b :: sv)]
  simp only [adj]
  simp [ltB, hab, ha, hb.le]

/-- Inserting a large value in a descent makes one more. -/
theorem adj_insert_desc (pv sv : List Int) (a b x : Int) (hab : a > b) (ha : a < x) (hb : b < x) :
    adj ltB (pv ++ a :: x :: b :: sv) = adj ltB (pv ++ a :: b :: sv) + 1 := by
  rw [adj_append ltB pv a (x :: b :: sv), adj_append ltB pv a (b :: sv)]
  simp only [adj]
  have h1 : ¬ a < b := by omega
  have h2 : ¬ x < b := by omega
  simp [ltB, h1, h2, ha]
  omega

theorem adj_snoc (vs : List Int) (x : Int) (hne : vs ≠ []) (h : ∀ a ∈ vs, a < x) :
    adj ltB (vs ++ [x]) = adj ltB vs + 1 := by
  obtain ⟨pv, a, rfl⟩ : ∃ pv a, vs = pv ++ [a] := ⟨_, _, (List.dropLast_append_getLast hne).symm⟩
  have e : pv ++ [a] ++ [x] = pv ++ a :: [x] := by simp
  rw [e, adj_append]
  simp [adj, ltB, h a (by simp)]

theorem adj_cons (vs : List Int) (x : Int) (h : ∀ a ∈ vs, a < x) :
    adj ltB (x :: vs) = adj ltB vs := by
  cases vs with
  | nil => rfl
  | cons a l =>
    have := h a (by simp)
    simp [adj, ltB, this.le]

/-- The numbers 1..m. -/
def upto (m : Nat) : List Int := (List.range m).map (fun i : Nat => (i : Int) + 1)

theorem upto_succ (m : Nat) : upto (m + 1) = upto m ++ [(m : Int) + 1] := by
  simp [upto, List.range_succ]

theorem mem_upto {m : Nat} {a : Int} : a ∈ upto m ↔ 1 ≤ a ∧ a ≤ m := by
  simp only [upto, List.mem_map, List.mem_range]
  constructor
  · rintro ⟨i, hi, rfl⟩; omega
  · intro h; exact ⟨(a - 1).toNat, by omega, by omega⟩

theorem nodup_upto (m : Nat) : (upto m).Nodup := by
  refine List.Nodup.map (fun a b h => ?_) List.nodup_range
  simpa using h

/-- The working permutation is one of m letters with q ascents. -/
def Inv (N : Nat) (a : Int × Int) (wp : WPerm) : Prop :=
  ∃ (vs : List Int) (ixs : List Nat), Rep wp vs ixs ∧ vs.Perm (upto a.1.toNat) ∧ (adj ltB vs : Int) = a.2 ∧ wp.max = N

theorem insStep_ok {N : Nat} {x : Nat} {m q q' : Int} {wp : WPerm} (h : Inv N (m, q) wp) (hm : 1 ≤ m) (hq : 0 ≤ q)
    (hqm : q ≤ m - 1) (hN : m < N) (hq' : q = q' ∨ q = q' - 1) :
    ∃ wp', insStep x (m + 1, q') (m, q) wp = .ok wp' ∧ Inv N (m + 1, q') wp' := by
  obtain ⟨vs, ixs, hR, hP, hA, hmax⟩ := h
  simp only at hP hA
  obtain ⟨k, rfl⟩ : ∃ k : Nat, m = k := ⟨m.toNat, by omega⟩
  simp only [Int.toNat_natCast] at hP
  have hlen : vs.length = k := by rw [hP.length_eq]; simp [upto]
  have hused : wp.used = k := by rw [← hR.len, hR.seg.length, hlen]
  have hlt : wp.used < wp.max := by omega
  have hbig : ∀ a ∈ vs, a < (k : Int) + 1 := by
    intro a ha
    have := mem_upto.mp (hP.mem_iff.mp ha)
    omega
  have hne : vs ≠ [] := by
    intro h0
    subst h0
    simp at hlen
    omega
  have hnd : vs.Nodup := hP.nodup_iff.mpr (nodup_upto k)
  have hsum := adj_sum vs hnd hne
  have hto : ((k : Int) + 1).toNat = k + 1 := by omega
  have perm_end : ∀ l : List Int, l.Perm (((k : Int) + 1) :: vs) → l.Perm (upto ((k : Int) + 1).toNat) := by
    intro l hl
    rw [hto, upto_succ]
    exact (hl.trans (hP.cons _)).trans (List.perm_append_singleton _ _).symm
  have mid : ∀ (pv sv : List Int) (a b : Int),
      (pv ++ a :: ((k : Int) + 1) :: b :: sv).Perm (((k : Int) + 1) :: (pv ++ a :: b :: sv)) := by
    intro pv sv a b
    have e : pv ++ a :: ((k : Int) + 1) :: b :: sv = (pv ++ [a]) ++ ((k : Int) + 1) :: (b :: sv) := by simp
    rw [e]
    refine List.perm_middle.trans ?_
    simp
  unfold insStep
  by_cases hc : q' = q
  · subst hc
    simp only [ne_eq, not_true_eq_false, if_false]
    rw [uniformInt, if_pos (by omega), ok_bind]
    have d1 := Int.emod_nonneg (x : Int) (show q' + 1 ≠ 0 by omega)
    have d2 := Int.emod_lt_of_pos (x : Int) (show 0 < q' + 1 by omega)
    by_cases hs : (x : Int) % (q' + 1) = q'
    · rw [if_pos hs]
      obtain ⟨wp', ixs', r1, r2, r3, r4⟩ := insertAtStart_ok (x := (k : Int) + 1) hR hlt
      exact ⟨wp', r1, _, _, r2, perm_end _ (List.Perm.refl _), by simpa [adj_cons _ _ hbig] using hA, by omega⟩
    · rw [if_neg hs]
      obtain ⟨wp', pv, sv, a, b, ixs', r1, r2, r3, r4, r5, r6⟩ := insertAt_ok ltB (x := (k : Int) + 1)
        (want := (x : Int) % (q' + 1)) hR hlt d1 (by omega)
      subst r2
      refine ⟨wp', r1, _, _, r4, perm_end _ (mid _ _ _ _), ?_, by omega⟩
      rw [adj_insert_asc _ _ _ _ _ (by simpa using r3) (hbig a (by simp)) (hbig b (by simp))]
      exact hA
  · have hq1 : q' = q + 1 := by omega
    subst hq1
    rw [if_pos (by simp)]
    simp only
    rw [uniformInt, if_pos (by omega), ok_bind]
    have d1 := Int.emod_nonneg (x : Int) (show (k : Int) - q ≠ 0 by omega)
    have d2 := Int.emod_lt_of_pos (x : Int) (show 0 < (k : Int) - q by omega)
    by_cases hs : (x : Int) % ((k : Int) - q) = (k : Int) - q - 1
    · rw [if_pos hs]
      obtain ⟨wp', ixs', r1, r2, r3, r4⟩ := insertAtEnd_ok (x := (k : Int) + 1) hR hlt hne
      refine ⟨wp', r1, _, _, r2, perm_end _ (List.perm_append_singleton _ _), ?_, by omega⟩
      rw [adj_snoc _ _ hne hbig]
      simp only
      omega
    · rw [if_neg hs]
      obtain ⟨wp', pv, sv, a, b, ixs', r1, r2, r3, r4, r5, r6⟩ := insertAt_ok gtB (x := (k : Int) + 1)
        (want := (x : Int) % ((k : Int) - q)) hR hlt d1 (by omega)
      subst r2
      refine ⟨wp', r1, _, _, r4, perm_end _ (mid _ _ _ _), ?_, by omega⟩
      rw [adj_insert_desc _ _ _ _ _ (by simpa using r3) (hbig a (by simp)) (hbig b (by simp))]
      simp only
      omega

/-- Choice vectors. -/
inductive Choices : List (Int × Int) → Int → Int → Prop where
  | stop {n k : Int} : 1 ≤ n → 0 ≤ k → k ≤ n - 1 → (k = 0 ∨ k = n - 1) → Choices [(n, k)] n k
  | step {n k k' : Int} {l : List (Int × Int)} : Choices l (n - 1) k' → (k' = k ∨ k' = k - 1) → 0 ≤ k → k ≤ n - 1 →
      Choices ((n, k) :: l) n k

theorem nap_ok {tab : List Rat} {N : Nat} (h : TableOk tab N) {n k : Int} (h2 : 2 ≤ n) (hN : n ≤ N) (h1 : 1 ≤ k)
    (hk : k ≤ n - 1) : ∃ p, nap tab n k = .ok p ∧ (k = n - 1 → p = 1) := by
  obtain ⟨n, rfl⟩ : ∃ m : Nat, n = m := ⟨n.toNat, by omega⟩
  obtain ⟨k, rfl⟩ : ∃ m : Nat, k = m := ⟨k.toNat, by omega⟩
  obtain ⟨m, rfl⟩ : ∃ m : Nat, n = m + 2 := ⟨n - 2, by omega⟩
  obtain ⟨j, rfl⟩ : ∃ m : Nat, k = m + 1 := ⟨k - 1, by omega⟩
  have e : (2 - 3 * ((m + 2 : Nat) : Int) + ((m + 2 : Nat) : Int) * ((m + 2 : Nat) : Int)) = ((m + 1) * m : Nat) := by
    push_cast; ring
  have e2 : ((2 - 3 * ((m + 2 : Nat) : Int) + ((m + 2 : Nat) : Int) * ((m + 2 : Nat) : Int)).tdiv 2 + ((j + 1 : Nat) : Int) - 1)
      = (((m + 1) * m / 2 + j : Nat) : Int) := by
    rw [e]
    have : ((((m + 1) * m : Nat) : Int).tdiv 2) = (((m + 1) * m / 2 : Nat) : Int) := by
      rw [Int.tdiv_eq_ediv_of_nonneg (by positivity)]
      simp
    rw [this]
    push_cast
    ring
  obtain ⟨p, hp⟩ := h.entry (m + 2) (j + 1) (by omega) (by omega) (by omega) (by omega)
  refine ⟨p, ?_, ?_⟩
  · unfold nap
    rw [e2, rdI_nat]
    exact rd_eq_ok.mpr hp
  · intro hj
    have hj : j = m := by omega
    subst hj
    have := h.one (j + 2) (by omega) (by omega)
    change tab[(j + 2 - 1) * (j + 2 - 2) / 2 + (j + 1 - 1)]? = some 1 at this
    rw [hp] at this
    simpa using this

theorem choiceLoop_ok {tab : List Rat} {u : Nat → Rat} {N : Nat} (hT : TableOk tab N) (hu : ∀ i, u i < 1) :
    ∀ (fuel : Nat) (cv : List (Int × Int)) (n k : Int), 1 ≤ k → k ≤ n - 1 → n + cv.length = N → n < fuel →
      ∃ l, choiceLoop tab u N fuel cv n k = .ok (cv ++ l) ∧ Choices l n k ∧ 2 ≤ l.length := by
  intro fuel
  induction fuel with
  | zero => intro cv n k h1 h2 h3 h4; omega
  | succ f ih =>
    intro cv n k h1 h2 h3 h4
    obtain ⟨p, hp, hp1⟩ := nap_ok hT (n := n) (k := k) (by omega) (by omega) h1 h2
    unfold choiceLoop
    rw [if_pos (by omega), hp, ok_bind]
    simp only
    generalize hk : (if u cv.length < p then k - 1 else k) = k'
    have hk1 : k' = k ∨ k' = k - 1 := by split at hk <;> omega
    have hk2 : k' ≤ n - 2 := by
      by_cases he : k = n - 1
      · have := hp1 he
        subst this
        rw [if_pos (hu _)] at hk
        omega
      · omega
    by_cases hc : k' ≠ n - 1 - 1 ∧ k' ≠ 0
    · rw [if_pos hc]
      obtain ⟨l, r1, r2, r3⟩ := ih (cv ++ [(n, k)]) (n - 1) k' (by omega) (by omega) (by simp; omega) (by omega)
      exact ⟨(n, k) :: l, by rw [r1]; simp, .step r2 hk1 (by omega) h2, by simp; omega⟩
    · rw [if_neg hc, if_pos (by omega)]
      exact ⟨[(n, k), (n - 1, k')], rfl, .step (.stop (by omega) (by omega) (by omega) (by omega)) hk1 (by omega) h2, by simp⟩

theorem Choices.head {l : List (Int × Int)} {n k : Int} (h : Choices l n k) : l[0]? = some (n, k) := by
  cases h <;> rfl

theorem Choices.bounds {l : List (Int × Int)} {n k : Int} (h : Choices l n k) :
    ∀ a ∈ l, 1 ≤ a.1 ∧ a.1 ≤ n ∧ 0 ≤ a.2 ∧ a.2 ≤ a.1 - 1 := by
  induction h with
  | stop h1 h2 h3 h4 => intro a ha; simp at ha; subst ha; simp; omega
  | step _ h1 h2 h3 ih =>
    intro a ha
    rcases List.mem_cons.mp ha with rfl | ha
    · simp; omega
    · have := ih a ha; omega

theorem Choices.pair {l : List (Int × Int)} {n k : Int} (h : Choices l n k) :
    ∀ (i : Nat) (a b : Int × Int), l[i]? = some a → l[i + 1]? = some b → a.1 = b.1 + 1 ∧ (b.2 = a.2 ∨ b.2 = a.2 - 1) := by
  induction h with
  | stop => intro i a b h1 h2; simp at h2
  | step hl h1 h2 h3 ih =>
    intro i a b ha hb
    cases i with
    | zero =>
      simp only [List.getElem?_cons_zero, Option.some.injEq, List.getElem?_cons_succ] at ha hb
      rw [hl.head] at hb
      simp only [Option.some.injEq] at hb
      subst ha hb
      simp only
      omega
    | succ i => exact ih i a b (by simpa using ha) (by simpa using hb)

theorem Choices.last {l : List (Int × Int)} {n k : Int} (h : Choices l n k) :
    ∃ e, l[l.length - 1]? = some e ∧ 1 ≤ e.1 ∧ (e.2 = 0 ∨ e.2 = e.1 - 1) ∧ e.1 + (l.length - 1 : Nat) = n := by
  induction h with
  | stop h1 h2 h3 h4 => exact ⟨_, rfl, h1, h4, by simp⟩
  | @step n k k' l hl h1 h2 h3 ih =>
    obtain ⟨e, r1, r2, r3, r4⟩ := ih
    have : 0 < l.length := by
      rcases l with _ | ⟨a, l⟩
      · have := hl.head; simp at this
      · simp
    refine ⟨e, ?_, r2, r3, ?_⟩
    · simp only [List.length_cons, Nat.add_sub_cancel]
      rw [show l.length = (l.length - 1) + 1 by omega, List.getElem?_cons_succ]
      exact r1
    · simp only [List.length_cons, Nat.add_sub_cancel]
      omega

theorem insLoop_ok {N : Nat} {v : Nat → Nat} {l : List (Int × Int)} {n k : Int} (h : Choices l n k) (hn : n ≤ N) :
    ∀ (i : Nat) (a : Int × Int) (wp : WPerm), l[i]? = some a → Inv N a wp →
      ∃ wp', insLoop v l i wp = .ok wp' ∧ Inv N (n, k) wp' := by
  intro i
  induction i with
  | zero =>
    intro a wp ha hI
    rw [h.head] at ha
    simp only [Option.some.injEq] at ha
    subst ha
    exact ⟨wp, rfl, hI⟩
  | succ i ih =>
    intro b wp hb hI
    have hi : i < l.length := by
      obtain ⟨h1, _⟩ := List.getElem?_eq_some_iff.mp hb
      omega
    have ha : l[i]? = some l[i] := List.getElem?_eq_getElem hi
    obtain ⟨p1, p2⟩ := h.pair i _ _ ha hb
    obtain ⟨b1, b2, b3, b4⟩ := h.bounds b (List.mem_of_getElem? hb)
    obtain ⟨a1, a2, a3, a4⟩ := h.bounds _ (List.mem_of_getElem? ha)
    generalize l[i] = a at *
    obtain ⟨a1', a2'⟩ := a
    obtain ⟨b1', b2'⟩ := b
    simp only at p1 p2 b1 b2 b3 b4 a1 a2 a3 a4
    subst p1
    obtain ⟨wp', r1, r2⟩ := insStep_ok (x := v (i + 1)) (q' := a2') hI b1 b3 b4 (by omega) p2
    obtain ⟨wp2, s1, s2⟩ := ih _ wp' ha r2
    refine ⟨wp2, ?_, s2⟩
    rw [insLoop, rd_eq_ok.mpr ha, ok_bind, rd_eq_ok.mpr hb, ok_bind, r1, ok_bind, s1]

/-- The initial lists. -/
theorem fillLoop_ok (g : Nat → Int) : ∀ (todo i : Nat) (node : List (Int × Int)), i + todo ≤ node.length →
    ∃ node', fillLoop g todo i node = .ok node' ∧ node'.length = node.length ∧
      (∀ j, i ≤ j → j < i + todo → node'[j]? = some (g j, (j : Int) + 1)) ∧ (∀ j, j < i → node'[j]? = node[j]?) := by
  intro todo
  induction todo with
  | zero => intro i node h; exact ⟨node, rfl, rfl, by intro j h1 h2; omega, fun _ _ => rfl⟩
  | succ t ih =>
    intro i node h
    obtain ⟨node', r1, r2, r3, r4⟩ := ih (i + 1) (node.set i (g i, (i : Int) + 1)) (by simp; omega)
    refine ⟨node', ?_, by simpa using r2, ?_, ?_⟩
    · rw [fillLoop, wr_lt (by omega), ok_bind, r1]
    · intro j h1 h2
      by_cases he : j = i
      · subst he
        rw [r4 j (by omega), List.getElem?_set_self (by omega)]
      · exact r3 j (by omega) (by omega)
    · intro j hj
      rw [r4 j (by omega), List.getElem?_set_ne (by omega)]

theorem seg_fill (g : Nat → Int) (node : List (Int × Int)) (m : Nat)
    (h : ∀ j, j + 1 < m → node[j]? = some (g j, (j : Int) + 1)) (hl : node[m - 1]? = some (g (m - 1), -1)) :
    ∀ (t i : Nat), 0 < t → i + t = m → Seg node i (List.range' i t) ((List.range' i t).map g) := by
  intro t
  induction t with
  | zero => intro i h0; omega
  | succ t ih =>
    intro i _ hi
    rw [List.range'_succ, List.map_cons]
    by_cases ht : t = 0
    · subst ht
      have : m - 1 = i := by omega
      rw [this] at hl
      exact ⟨rfl, -1, hl, rfl⟩
    · refine ⟨rfl, (i : Int) + 1, h i (by omega), ?_⟩
      have := ih (i + 1) (by omega) (by omega)
      push_cast at this
      exact this

theorem makeW_ok (g : Nat → Int) (N m : Nat) (hm : 1 ≤ m) (hN : m < N) :
    ∃ wp', makeW g (wpermNew N) (m : Int) = .ok wp' ∧ Rep wp' ((List.range m).map g) (List.range m) ∧ wp'.max = N := by
  obtain ⟨node', r1, r2, r3, _⟩ := fillLoop_ok g m 0 (List.replicate N (0, 0)) (by simp; omega)
  have r3' := r3 (m - 1) (by omega) (by omega)
  have hidx : ((m : Int).toNat : Int) - 1 = ((m - 1 : Nat) : Int) := by omega
  refine ⟨{ node := node'.set (m - 1) (g (m - 1), -1), start := 0, max := N, used := m }, ?_, ?_, rfl⟩
  · unfold makeW wpermNew
    simp only
    rw [assertC_ok (by simp; omega), ok_bind, Int.toNat_natCast, r1, ok_bind]
    rw [show ((m : Int) - 1) = ((m - 1 : Nat) : Int) by omega, rdI_nat, rd_eq_ok.mpr r3', ok_bind, wrI_nat,
      wr_lt (by rw [r2]; simp; omega), ok_bind]
  · have hs := seg_fill g (node'.set (m - 1) (g (m - 1), -1)) m ?_ ?_ m 0 (by omega) (by omega)
    · rw [← List.range_eq_range'] at hs
      refine ⟨hs, List.nodup_range, fun i hi => List.mem_range.mp hi, by simp, by simp [r2], by simp only; omega⟩
    · intro j hj
      rw [List.getElem?_set_ne (by omega)]
      exact r3 j (by omega) (by omega)
    · rw [List.getElem?_set_self (by rw [r2]; simp; omega)]

theorem upto_asc (m : Nat) : adj ltB (upto m) = m - 1 := by
  induction m with
  | zero => rfl
  | succ m ih =>
    cases m with
    | zero => rfl
    | succ m =>
      rw [upto_succ, adj_snoc, ih]
      · omega
      · rw [upto_succ]; simp
      · intro a ha; have := mem_upto.mp ha; omega

theorem desc_perm (m : Nat) : ((List.range m).map (fun i : Nat => (m : Int) - (i : Int))).Perm (upto m) ∧
    adj ltB ((List.range m).map (fun i : Nat => (m : Int) - (i : Int))) = 0 := by
  induction m with
  | zero => exact ⟨List.Perm.refl _, rfl⟩
  | succ m ih =>
    obtain ⟨h1, h2⟩ := ih
    have e : (List.range (m + 1)).map (fun i : Nat => ((m + 1 : Nat) : Int) - (i : Int)) =
        ((m : Int) + 1) :: (List.range m).map (fun i : Nat => (m : Int) - (i : Int)) := by
      rw [List.range_succ_eq_map, List.map_cons, List.map_map]
      congr 1
      · simp
    rw [e, upto_succ]
    refine ⟨(h1.cons _).trans (List.perm_append_singleton _ _).symm, ?_⟩
    rw [adj_cons, h2]
    intro a ha
    have := mem_upto.mp (h1.mem_iff.mp ha)
    omega

theorem make_ok (N : Nat) (e : Int × Int) (h1 : 1 ≤ e.1) (hN : e.1 < N) (he : e.2 = 0 ∨ e.2 = e.1 - 1) :
    ∃ wp, makeFirst (wpermNew N) e = .ok wp ∧ Inv N e wp := by
  obtain ⟨m, k⟩ := e
  obtain ⟨m, rfl⟩ : ∃ j : Nat, m = j := ⟨m.toNat, by simp only at h1; omega⟩
  unfold makeFirst
  simp only at h1 hN he ⊢
  by_cases hc : k = 0
  · rw [if_pos hc]
    obtain ⟨wp, r1, r2, r3⟩ := makeW_ok (fun i : Nat => (m : Int) - (i : Int)) N m (by omega) (by omega)
    refine ⟨wp, r1, _, _, r2, ?_, ?_, r3⟩
    · exact (desc_perm m).1
    · rw [(desc_perm m).2, hc]; rfl
  · rw [if_neg hc]
    obtain ⟨wp, r1, r2, r3⟩ := makeW_ok (fun i : Nat => (i : Int) + 1) N m (by omega) (by omega)
    refine ⟨wp, r1, _, _, r2, List.Perm.refl _, ?_, r3⟩
    have := upto_asc m
    unfold upto at this
    rw [this]
    simp only
    omega

end Plc.Kasc
