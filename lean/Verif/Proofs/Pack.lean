import Verif.Model.Pack
import Verif.Proofs.Basic

namespace Plc.Pack

theorem testBit_one_shl (s j : Nat) : (1 <<< s).testBit j = decide (j = s) := by
  rw [Nat.one_shiftLeft, Nat.testBit_two_pow]
  simp [eq_comm]

theorem and_one_shl_ne_zero (w s : Nat) : (w &&& (1 <<< s) ≠ 0) ↔ w.testBit s = true := by
  constructor
  · intro h
    obtain ⟨j, hj⟩ := Nat.exists_testBit_of_ne_zero h
    rw [Nat.testBit_and, testBit_one_shl] at hj
    simp at hj
    rw [← hj.2]; exact hj.1
  · intro h h0
    have := congrArg (fun x => x.testBit s) h0
    simp [Nat.testBit_and, testBit_one_shl, h] at this

theorem packInner_spec (l : List Nat) (hb : ∀ b ∈ l, b = 0 ∨ b = 1) :
    ∀ r tb w, r ≤ 32 → tb ≤ l.length →
    ∃ w', packInner l l.length r tb w = .ok (tb + min r (l.length - tb), w', decide (l.length - tb < r)) ∧
      ∀ j, w'.testBit j = (w.testBit j || decide (32 - r ≤ j ∧ l[tb + (j - (32 - r))]? = some 1 ∧ j < 32)) := by
  intro r
  induction r with
  | zero =>
    intro tb w _ _
    refine ⟨w, by simp [packInner], ?_⟩
    intro j
    have : ¬ (32 - 0 ≤ j ∧ l[tb + (j - (32 - 0))]? = some 1 ∧ j < 32) := by omega
    simp only [this, decide_false, Bool.or_false]
  | succ r ih =>
    intro tb w hr htb
    unfold packInner
    by_cases h : tb = l.length
    · subst h
      refine ⟨w, by simp, ?_⟩
      intro j
      simp
    · have hlt : tb < l.length := by omega
      obtain ⟨w', h1, h2⟩ := ih (tb + 1) (if l[tb] = 1 then w ||| (1 <<< (32 - (r + 1))) else w)
        (by omega) (by omega)
      refine ⟨w', ?_, ?_⟩
      · have hbit := hb l[tb] (List.getElem_mem hlt)
        rw [if_neg h, rd_lt hlt]
        simp only [ok_bind]
        rw [assertC_ok (by rcases hbit with h | h <;> simp [h])]
        simp only [ok_bind]
        rw [h1]
        congr 2
        · omega
        · congr 1
          simp; omega
      · intro j
        rw [h2]
        have hbit := hb l[tb] (List.getElem_mem hlt)
        by_cases hj : j = 32 - (r + 1)
        · have : ¬ (32 - r ≤ j ∧ l[tb + 1 + (j - (32 - r))]? = some 1 ∧ j < 32) := by omega
          simp only [this, decide_false, Bool.or_false]
          clear this
          subst hj
          split
          · rename_i h1'
            have : l[tb + (32 - (r+1) - (32 - (r+1)))]? = some 1 := by simp [h1', hlt]
            simp only [Nat.testBit_or, testBit_one_shl, this]
            simp; right; omega
          · rename_i h1'
            have : ¬ l[tb + (32 - (r+1) - (32 - (r+1)))]? = some 1 := by simp [h1', hlt]
            simp only [this]; simp
        · have e1 : (if l[tb] = 1 then w ||| (1 <<< (32 - (r + 1))) else w).testBit j = w.testBit j := by
            split
            · simp only [Nat.testBit_or, testBit_one_shl, hj, decide_false, Bool.or_false]
            · rfl
          rw [e1]
          congr 1
          by_cases hj2 : 32 - r ≤ j
          · have : tb + 1 + (j - (32 - r)) = tb + (j - (32 - (r + 1))) := by omega
            rw [this]
            have h3 : 32 - (r+1) ≤ j := by omega
            simp only [hj2, h3]
          · have h3 : ¬ 32 - (r+1) ≤ j := by omega
            simp only [hj2, h3, false_and]

/-- What a packed buffer is: bit `k` of the string is bit `k % 32` of word `k / 32`. -/
def Packed (ws bits : List Nat) : Prop :=
  ws.length = nwords bits.length ∧ (∀ w ∈ ws, w < 2 ^ 32) ∧
  ∀ k (h : k < bits.length), ∃ w, ws[k / 32]? = some w ∧ (w.testBit (k % 32) = true ↔ bits[k] = 1)

theorem packOuter_spec (l : List Nat) (hb : ∀ b ∈ l, b = 0 ∨ b = 1) :
    ∀ r acc, acc.length + r = nwords l.length → 32 * acc.length < l.length →
      (∀ w ∈ acc, w < 2 ^ 32) →
      (∀ k (h : k < 32 * acc.length) (h' : k < l.length), ∃ w, acc[k / 32]? = some w ∧
        (w.testBit (k % 32) = true ↔ l[k] = 1)) →
      ∃ ws, packOuter l l.length r (32 * acc.length) acc = .ok ws ∧ Packed ws l := by
  intro r
  induction r with
  | zero =>
    intro acc h1 h2
    unfold nwords at h1; omega
  | succ r ih =>
    intro acc h1 h2 hsz h3
    obtain ⟨w', e1, e2⟩ := packInner_spec l hb 32 (32 * acc.length) 0 (by omega) (by omega)
    have hsz' : ∀ w ∈ acc ++ [w'], w < 2 ^ 32 := by
      intro w hw
      rw [List.mem_append, List.mem_singleton] at hw
      rcases hw with hw | hw
      · exact hsz w hw
      · subst hw
        apply Nat.lt_pow_two_of_testBit
        intro i hi
        rw [e2]
        have : ¬ i < 32 := by omega
        simp [this]
    have hnew : ∀ k (h : k < 32 * (acc ++ [w']).length) (h' : k < l.length), ∃ w, (acc ++ [w'])[k / 32]? = some w ∧
        (w.testBit (k % 32) = true ↔ l[k] = 1) := by
      intro k hk hk'
      by_cases hlt : k < 32 * acc.length
      · obtain ⟨w, hw, hw2⟩ := h3 k hlt hk'
        refine ⟨w, ?_, hw2⟩
        rw [List.getElem?_append_left (by omega)]; exact hw
      · have hd : k / 32 = acc.length := by simp at hk; omega
        refine ⟨w', by simp [hd], ?_⟩
        rw [e2]
        have : 32 * acc.length + (k % 32 - (32 - 32)) = k := by omega
        rw [this]
        have : k % 32 < 32 := by omega
        simp [this, hk']
    unfold packOuter
    rw [e1]
    simp only [ok_bind]
    by_cases hfull : l.length - 32 * acc.length < 32 ∨ l.length - 32 * acc.length = 32
    · have hr : r = 0 := by unfold nwords at h1; omega
      subst hr
      refine ⟨acc ++ [w'], ?_, ?_, hsz', ?_⟩
      · by_cases hh : l.length - 32 * acc.length < 32
        · simp [hh]
        · have : 32 * acc.length + min 32 (l.length - 32 * acc.length) = l.length := by omega
          simp [this]
      · simp; omega
      · intro k hk
        exact hnew k (by simp; omega) hk
    · have n1 : ¬ (l.length - 32 * acc.length < 32) := by omega
      have n2 : ¬ (32 * acc.length + min 32 (l.length - 32 * acc.length) = l.length) := by omega
      have n3 : 32 * acc.length + min 32 (l.length - 32 * acc.length) = 32 * (acc ++ [w']).length := by
        simp; omega
      simp only [n1, decide_false, n2]
      rw [n3]
      simp only [Bool.false_eq_true, if_false]
      refine ih (acc ++ [w']) (by simp; omega) (by simp; omega) hsz' hnew

theorem packbitstring_packed (l : List Nat) (hb : ∀ b ∈ l, b = 0 ∨ b = 1) (hne : l ≠ []) :
    ∃ ws, packbitstring l l.length = .ok ws ∧ Packed ws l := by
  have := packOuter_spec l hb (nwords l.length) [] (by simp)
    (by simpa using List.length_pos_iff.mpr hne) (by simp) (by intro k h; simp at h)
  simpa [packbitstring] using this

theorem unpackInner_spec (w : Nat) (l : List Nat) (hb : ∀ b ∈ l, b = 0 ∨ b = 1) (base : Nat)
    (hw : ∀ j, j < 32 → ∀ (h : base + j < l.length), (w.testBit j = true ↔ l[base + j] = 1)) :
    ∀ r tb, r ≤ 32 → tb = base + (32 - r) → tb ≤ l.length →
      unpackInner w l.length r tb (l.take tb) =
        .ok (tb + min r (l.length - tb), l.take (tb + min r (l.length - tb)), decide (l.length - tb < r)) := by
  intro r
  induction r with
  | zero => intro tb _ _ _; simp [unpackInner]
  | succ r ih =>
    intro tb hr htb hle
    unfold unpackInner
    by_cases h : tb = l.length
    · simp [h]
    · have hlt : tb < l.length := by omega
      rw [if_neg h]
      have hbit : l.take tb ++ [if w &&& (1 <<< (32 - (r + 1))) ≠ 0 then 1 else 0] = l.take (tb + 1) := by
        rw [List.take_add_one, List.getElem?_eq_getElem hlt]
        congr 1
        simp only [Option.toList_some, List.cons.injEq, and_true]
        simp only [and_one_shl_ne_zero]
        have hw' := hw (32 - (r + 1)) (by omega) (by omega)
        have hb' := hb l[tb] (List.getElem_mem hlt)
        have e : l[base + (32 - (r + 1))] = l[tb] := by congr 1; omega
        rw [e] at hw'
        by_cases ht : w.testBit (32 - (r + 1)) = true
        · rw [if_pos ht, hw'.mp ht]
        · rw [if_neg ht]
          have := mt hw'.mpr ht
          omega
      rw [hbit, ih (tb + 1) (by omega) (by omega) (by omega)]
      have e1 : tb + 1 + min r (l.length - (tb + 1)) = tb + min (r + 1) (l.length - tb) := by omega
      rw [e1]
      congr 3
      simp; omega

theorem unpackOuter_spec (l ws : List Nat) (hb : ∀ b ∈ l, b = 0 ∨ b = 1) (hp : Packed ws l) :
    ∀ r ti, ti + r = nwords l.length → 32 * ti < l.length →
      unpackOuter ws l.length r ti (32 * ti) (l.take (32 * ti)) = .ok l := by
  intro r
  induction r with
  | zero => intro ti h1 h2; unfold nwords at h1; omega
  | succ r ih =>
    intro ti h1 h2
    unfold unpackOuter
    rw [if_neg (by omega)]
    have hti : ti < ws.length := by rw [hp.1]; omega
    rw [rd_lt hti]
    simp only [ok_bind]
    rw [unpackInner_spec ws[ti] l hb (32 * ti) ?_ 32 (32 * ti) (by omega) (by omega) (by omega)]
    · simp only [ok_bind]
      by_cases hlast : l.length - 32 * ti ≤ 32
      · have e : 32 * ti + min 32 (l.length - 32 * ti) = l.length := by omega
        rw [e]
        simp
      · have e : 32 * ti + min 32 (l.length - 32 * ti) = 32 * (ti + 1) := by omega
        rw [e]
        have n1 : ¬ (l.length - 32 * ti < 32) := by omega
        have n2 : ¬ (32 * (ti + 1) = l.length) := by omega
        simp only [n1, n2, decide_false, Bool.false_eq_true, if_false]
        exact ih (ti + 1) (by omega) (by omega)
    · intro j hj h
      obtain ⟨w, hw1, hw2⟩ := hp.2.2 (32 * ti + j) h
      have d1 : (32 * ti + j) / 32 = ti := by omega
      have d2 : (32 * ti + j) % 32 = j := by omega
      rw [d1, List.getElem?_eq_getElem hti] at hw1
      rw [d2] at hw2
      cases hw1
      exact hw2

theorem unpackbitstring_packed (l ws : List Nat) (hb : ∀ b ∈ l, b = 0 ∨ b = 1) (hne : l ≠ [])
    (hp : Packed ws l) : unpackbitstring ws l.length = .ok l := by
  have := unpackOuter_spec l ws hb hp (nwords l.length) 0 (by omega)
    (by simpa using List.length_pos_iff.mpr hne)
  simpa [unpackbitstring] using this

end Plc.Pack
