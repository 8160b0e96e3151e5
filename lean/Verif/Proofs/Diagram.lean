import Verif.Spec.Diagram
import Verif.Proofs.Basic
import Mathlib.Data.Fintype.Card
import Mathlib.Data.Fintype.Prod

namespace Plc

theorem slot_eq_some {cross : List Cross} {c k e : Nat} :
    slot cross c k = some e ↔ k < 4 ∧ ∃ cr, cross[c]? = some cr ∧ cr.at k = e := by
  unfold slot
  split
  · simp [*]
  · simp [*]

theorem slot_lt {cross : List Cross} {c k e : Nat} (h : slot cross c k = some e) :
    c < cross.length ∧ k < 4 := by
  rw [slot_eq_some] at h
  obtain ⟨h1, cr, h2, _⟩ := h
  exact ⟨(List.getElem?_eq_some_iff.mp h2).1, h1⟩

theorem slot_of_lt {cross : List Cross} {c k : Nat} (hc : c < cross.length) (hk : k < 4) :
    slot cross c k = some (cross[c].at k) := by
  rw [slot_eq_some]; exact ⟨hk, _, by simp [hc], rfl⟩

namespace Consistent

variable {cross : List Cross} {edge : List Edge}

/-- Every place of every crossing is an end of the edge whose number is written there. -/
theorem slots (h : Consistent cross edge) {c k e : Nat} (hs : slot cross c k = some e) :
    ∃ r, edge[e]? = some r ∧
      ((r.head = c ∧ r.headpos = k) ∨ (r.tail = c ∧ r.tailpos = k)) := by
  have hn := h.count
  let f : Fin edge.length × Bool → Fin cross.length × Fin 4 := fun p =>
    have hh := slot_lt (h.head p.1 edge[p.1] (by simp))
    have ht := slot_lt (h.tail p.1 edge[p.1] (by simp))
    if p.2 then (⟨_, hh.1⟩, ⟨_, hh.2⟩) else (⟨_, ht.1⟩, ⟨_, ht.2⟩)
  have hval : ∀ p, slot cross (f p).1 (f p).2 = some p.1.val := by
    intro p
    by_cases hp : p.2 = true
    · simpa [f, hp] using h.head p.1 edge[p.1] (by simp)
    · simpa [f, hp] using h.tail p.1 edge[p.1] (by simp)
  have hinj : Function.Injective f := by
    intro p q hpq
    have h1 := hval p
    rw [hpq, hval q] at h1
    have e1 : q.1 = p.1 := by
      apply Fin.ext; simpa using h1
    obtain ⟨p1, p2⟩ := p
    obtain ⟨q1, q2⟩ := q
    simp only at e1
    subst e1
    have hne := h.ends_ne q1 edge[q1] (by simp)
    cases p2 <;> cases q2 <;> simp [f] at hpq ⊢
    · exact hne (by simp [hpq.1, hpq.2])
    · exact hne (by simp [hpq.1, hpq.2])
  have hbij : Function.Bijective f := by
    rw [Fintype.bijective_iff_injective_and_card]
    refine ⟨hinj, ?_⟩
    simp [hn]; omega
  have hlt := slot_lt hs
  obtain ⟨p, hp⟩ := hbij.2 (⟨c, hlt.1⟩, ⟨k, hlt.2⟩)
  have h1 := hval p
  rw [hp] at h1
  simp only [hs] at h1
  obtain ⟨p1, p2⟩ := p
  simp at h1
  refine ⟨edge[p1], by rw [h1]; simp, ?_⟩
  cases p2
  · right; simpa [f] using hp
  · left; simpa [f] using hp

theorem slot_edge_lt (h : Consistent cross edge) {c k e : Nat} (hs : slot cross c k = some e) :
    e < edge.length := by
  obtain ⟨r, hr, _⟩ := h.slots hs
  exact (List.getElem?_eq_some_iff.mp hr).1

end Consistent

end Plc
