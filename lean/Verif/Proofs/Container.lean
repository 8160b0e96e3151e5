import Verif.Model.Container
import Verif.Proofs.Basic
import Verif.Proofs.Multidx

namespace Plc.Container

/-- The block holds the stack `s` (oldest first) at its start, and every place is there. -/
def Inv {α : Type} (c : Cont α) (s : List (Option α)) : Prop :=
  c.nelts = s.length ∧ c.elt.take s.length = s ∧ c.elt.length = c.bufsize ∧
    c.nelts < c.bufsize ∧ 100 ≤ c.initsize ∧ c.initsize ≤ c.bufsize

theorem clearLoop_spec {α : Type} : ∀ (c k : Nat) (b : List (Option α)), k + c ≤ b.length →
    ∃ b', clearLoop c k b = .ok b' ∧ b'.length = b.length ∧ b'.take k = b.take k := by
  intro c
  induction c with
  | zero => intro k b _; exact ⟨b, rfl, rfl, rfl⟩
  | succ c ih =>
    intro k b h
    obtain ⟨b', h1, h2, h3⟩ := ih (k + 1) (b.set k none) (by simp; omega)
    refine ⟨b', ?_, by simpa using h2, ?_⟩
    · unfold clearLoop
      rw [wr_lt (by omega)]
      exact h1
    · have h4 := congrArg (List.take k) h3
      rw [List.take_take, List.take_take] at h4
      rw [Nat.min_eq_left (by omega)] at h4
      rw [h4, List.take_set_of_le (by omega)]

theorem addto_spec {α : Type} (junk : Option α) {c : Cont α} {s : List (Option α)}
    (h : Inv c s) (x : Option α) (hb : (c.bufsize + c.initsize) * 8 < 2 ^ 32) :
    ∃ c', addto junk c x = .ok c' ∧ Inv c' (s ++ [x]) ∧ c'.initsize = c.initsize ∧
      (c'.bufsize = c.bufsize ∨ (c'.bufsize = c.bufsize + c.initsize ∧ c.nelts + 1 = c.bufsize)) := by
  obtain ⟨h1, h2, h3, h4, h5, h6⟩ := h
  have fin : ∀ d : Cont α, d.nelts = s.length → d.elt.take s.length = s →
      d.elt.length = d.bufsize → d.nelts + 1 < d.bufsize → 100 ≤ d.initsize →
      d.initsize ≤ d.bufsize →
      ∃ b, wr d.elt d.nelts x = .ok b ∧ Inv { d with elt := b, nelts := d.nelts + 1 } (s ++ [x]) := by
    intro d g1 g2 g3 g4 g5 g6
    refine ⟨_, wr_lt (by omega), ?_, ?_, ?_, ?_, ?_, ?_⟩
    · simp [g1]
    · simp only [List.length_append, List.length_singleton, g1]
      rw [List.take_add_one, List.take_set_of_le (Nat.le_refl _), g2]
      rw [List.getElem?_set_self (by omega)]
      rfl
    · simp [g3]
    · simpa using g4
    · exact g5
    · exact g6
  unfold addto
  by_cases hc : c.nelts = c.bufsize - 1
  · simp only [if_pos hc, Nat.mod_eq_of_lt hb]
    have hl : (reallocTo junk c.elt ((c.bufsize + c.initsize) * 8 / 8)).length
        = c.bufsize + c.initsize := by
      unfold reallocTo
      simp
      omega
    have ht : (reallocTo junk c.elt ((c.bufsize + c.initsize) * 8 / 8)).take s.length = s := by
      unfold reallocTo
      rw [List.take_take, Nat.min_eq_left (by omega), List.take_append_of_le_length (by omega), h2]
    obtain ⟨b', e1, e2, e3⟩ := clearLoop_spec (c.bufsize + c.initsize - c.nelts) c.nelts
      (reallocTo junk c.elt ((c.bufsize + c.initsize) * 8 / 8)) (by omega)
    rw [e1]
    simp only [ok_bind]
    obtain ⟨b, w1, w2⟩ := fin { c with elt := b', bufsize := c.bufsize + c.initsize } h1
      (by show b'.take _ = s; rw [← h1, e3, h1, ht]) (by show b'.length = _; rw [e2, hl])
      (by show c.nelts + 1 < c.bufsize + c.initsize; omega) h5
      (by show c.initsize ≤ c.bufsize + c.initsize; omega)
    simp only at w1
    rw [w1]
    refine ⟨_, rfl, w2, rfl, Or.inr ⟨rfl, by omega⟩⟩
  · simp only [if_neg hc, ok_bind]
    obtain ⟨b, w1, w2⟩ := fin c h1 h2 h3 (by omega) h5 h6
    rw [w1]
    exact ⟨_, rfl, w2, rfl, Or.inl rfl⟩

theorem pop_spec {α : Type} {c : Cont α} {s : List (Option α)} {x : Option α}
    (h : Inv c (s ++ [x])) :
    ∃ c', pop c = .ok (c', x) ∧ Inv c' s ∧ c'.initsize = c.initsize ∧ c'.bufsize = c.bufsize := by
  obtain ⟨h1, h2, h3, h4, h5, h6⟩ := h
  simp only [List.length_append, List.length_singleton] at h1 h2
  unfold pop
  rw [if_neg (by omega), h1]
  have hx : c.elt[s.length]? = some x := by
    have : (c.elt.take (s.length + 1))[s.length]? = some x := by rw [h2]; simp
    rwa [List.getElem?_take_of_lt (by omega)] at this
  have hs : c.elt.take s.length = s := by
    have : (c.elt.take (s.length + 1)).take s.length = s := by rw [h2]; simp
    rwa [List.take_take, Nat.min_eq_left (by omega)] at this
  rw [Nat.add_sub_cancel, rd_ok hx]
  simp only [ok_bind]
  rw [wr_lt (by omega)]
  refine ⟨_, rfl, ⟨rfl, ?_, by simpa using h3, ?_, h5, h6⟩, rfl, rfl⟩
  · simp only
    rw [List.take_set_of_le (Nat.le_refl _), hs]
  · simp only; omega

theorem elt_spec {α : Type} {c : Cont α} {s : List (Option α)} (h : Inv c s) (i : Nat) :
    elt c i = if h : i < s.length then .ok s[i] else .error .die := by
  obtain ⟨h1, h2, h3, h4, h5, h6⟩ := h
  unfold elt
  by_cases hi : i < s.length
  · rw [dif_pos hi, assertC_ok (by simp; omega)]
    simp only [ok_bind]
    apply rd_ok
    rw [← List.getElem?_take_of_lt hi, h2, List.getElem?_eq_getElem hi]
  · rw [dif_neg hi]
    have : assertC (decide (i < c.nelts)) = .error .die := by
      unfold assertC; rw [if_neg]; simp; omega
    rw [this]; rfl

end Plc.Container
