import Verif.Model.Strands
import Verif.Proofs.Comps
import Verif.Spec.Examples
import Batteries.Lean.Except

/-! # C26: over- and understrands -/

namespace Plc

open Plc.Strands Plc.Core Plc.Cmp

/-- An edge comes in at place `k` of crossing `c`. -/
def ComesIn (cross : List Cross) (edge : List Edge) (c k : Nat) : Prop :=
  ∃ e r, slot cross c k = some e ∧ edge[e]? = some r ∧ r.head = c ∧ r.headpos = k

/-- An edge goes out at place `k` of crossing `c`. -/
def GoesOut (cross : List Cross) (edge : List Edge) (c k : Nat) : Prop :=
  ∃ e r, slot cross c k = some e ∧ edge[e]? = some r ∧ r.tail = c ∧ r.tailpos = k

instance (cross : List Cross) (edge : List Edge) (c k : Nat) : Decidable (ComesIn cross edge c k) :=
  match h : slot cross c k with
  | none => isFalse (by rintro ⟨e, r, h1, _⟩; rw [h] at h1; simp at h1)
  | some e =>
    match h' : edge[e]? with
    | none => isFalse (by rintro ⟨e', r, h1, h2, _⟩; rw [h] at h1; cases h1; rw [h'] at h2; simp at h2)
    | some r =>
      if hr : r.head = c ∧ r.headpos = k then isTrue ⟨e, r, h, h', hr⟩
      else isFalse (by
        rintro ⟨e', r', h1, h2, h3⟩
        rw [h] at h1; cases h1
        rw [h'] at h2; cases h2
        exact hr h3)

theorem Strands.in_or_out {cross : List Cross} {edge : List Edge} (hC : Consistent cross edge) {c k : Nat}
    (hc : c < cross.length) (hk : k < 4) : ComesIn cross edge c k ∨ GoesOut cross edge c k := by
  have hs := slot_of_lt hc hk
  obtain ⟨r, h1, h2 | h2⟩ := hC.slots hs
  · exact Or.inl ⟨_, r, hs, h1, h2⟩
  · exact Or.inr ⟨_, r, hs, h1, h2⟩

theorem Strands.not_both {cross : List Cross} {edge : List Edge} (hC : Consistent cross edge) {c k : Nat}
    (h1 : ComesIn cross edge c k) (h2 : GoesOut cross edge c k) : False := by
  obtain ⟨e, r, a1, a2, a3, a4⟩ := h1
  obtain ⟨e', r', b1, b2, b3, b4⟩ := h2
  rw [a1] at b1; cases b1
  rw [a2] at b2; cases b2
  exact hC.ends_ne e r a2 (by rw [a3, a4, b3, b4])

theorem Strands.in_opp {cross : List Cross} {edge : List Edge} (hC : Consistent cross edge)
    (hO : Oriented cross edge) {c k : Nat} (h1 : ComesIn cross edge c k) :
    GoesOut cross edge c ((k + 2) % 4) := by
  obtain ⟨e, r, a1, a2, a3, a4⟩ := h1
  obtain ⟨e', r', b1, b2, b3⟩ := hO.through_head e r a2
  rw [a3] at b2
  rw [a4] at b3
  refine ⟨e', r', ?_, b1, b2, b3⟩
  have := hC.tail e' r' b1
  rwa [b2, b3] at this

theorem Strands.out_opp {cross : List Cross} {edge : List Edge} (hC : Consistent cross edge)
    (hO : Oriented cross edge) {c k : Nat} (h1 : GoesOut cross edge c k) :
    ComesIn cross edge c ((k + 2) % 4) := by
  obtain ⟨e, r, a1, a2, a3, a4⟩ := h1
  obtain ⟨e', r', b1, b2, b3⟩ := hO.through_tail e r a2
  rw [a3] at b2
  rw [a4] at b3
  refine ⟨e', r', ?_, b1, b2, b3⟩
  have := hC.head e' r' b1
  rwa [b2, b3] at this

theorem Strands.overUnder_eq {cross : List Cross} {edge : List Edge} (hC : Consistent cross edge) {cr : Nat}
    {x : Cross} (hx : cross[cr]? = some x) :
    overUnder cross edge cr = .ok (ouTable (decide (ComesIn cross edge cr 0))
      (decide (ComesIn cross edge cr 1)) x.sign) := by
  obtain ⟨hlt, rfl⟩ := List.getElem?_eq_some_iff.mp hx
  have hin : ∀ k, k < 4 → ∃ r, edge[cross[cr].at k]? = some r ∧
      (ComesIn cross edge cr k ↔ (r.head = cr ∧ r.headpos = k)) := by
    intro k hk
    have hs := slot_of_lt hlt hk
    obtain ⟨r, h1, _⟩ := hC.slots hs
    refine ⟨r, h1, ?_, ?_⟩
    · rintro ⟨e, r', a1, a2, a3⟩
      rw [hs] at a1; cases a1
      rw [h1] at a2; cases a2
      exact a3
    · intro h; exact ⟨_, r, hs, h1, h⟩
  obtain ⟨r0, h0, i0⟩ := hin 0 (by decide)
  obtain ⟨r1, h1, i1⟩ := hin 1 (by decide)
  have h0' : edge[cross[cr].e0]? = some r0 := h0
  have h1' : edge[cross[cr].e1]? = some r1 := h1
  unfold overUnder
  rw [assertC_ok (by simpa using hlt), ok_bind, rd_lt hlt, ok_bind, rd_ok h0', ok_bind, rd_ok h1', ok_bind]
  simp only [i0, i1]

/-- **C26.** At every crossing of a consistent and oriented diagram, over- and understrand
enter and leave at opposite places; an edge comes in where they enter and goes out where they
leave; the understrand leaves a quarter turn counterclockwise from the overstrand when the
crossing is positive or unset, and a quarter turn clockwise when it is negative. -/
theorem C26_overunder (cross : List Cross) (edge : List Edge) (hC : Consistent cross edge)
    (hO : Oriented cross edge) (cr : Nat) (x : Cross) (hx : cross[cr]? = some x) :
    ∃ u, overUnder cross edge cr = .ok u ∧
      u.overIn < 4 ∧ u.underIn < 4 ∧
      u.overOut = (u.overIn + 2) % 4 ∧ u.underOut = (u.underIn + 2) % 4 ∧
      ComesIn cross edge cr u.overIn ∧ GoesOut cross edge cr u.overOut ∧
      ComesIn cross edge cr u.underIn ∧ GoesOut cross edge cr u.underOut ∧
      u.underOut = (u.overOut + if x.sign = .neg then 3 else 1) % 4 := by
  have hlt := (List.getElem?_eq_some_iff.mp hx).1
  rw [overUnder_eq hC hx]
  refine ⟨_, rfl, ?_⟩
  have d0 := in_or_out hC hlt (show 0 < 4 by decide)
  have d1 := in_or_out hC hlt (show 1 < 4 by decide)
  have o0 : ComesIn cross edge cr 0 → GoesOut cross edge cr 2 := in_opp hC hO (k := 0)
  have o1 : ComesIn cross edge cr 1 → GoesOut cross edge cr 3 := in_opp hC hO (k := 1)
  have p0 : GoesOut cross edge cr 0 → ComesIn cross edge cr 2 := out_opp hC hO (k := 0)
  have p1 : GoesOut cross edge cr 1 → ComesIn cross edge cr 3 := out_opp hC hO (k := 1)
  by_cases h0 : ComesIn cross edge cr 0 <;> by_cases h1 : ComesIn cross edge cr 1 <;>
    cases hs : x.sign <;> simp only [h0, h1, decide_true, decide_false, ouTable, true_and, false_or] at * <;>
    simp_all

/-- **C26.** Flipping the sign of a crossing swaps over- and understrand. -/
theorem C26_flip (cross : List Cross) (edge : List Edge) (hC : Consistent cross edge) (cr : Nat) (x : Cross)
    (hx : cross[cr]? = some x) (hs : x.sign = .pos) :
    ∃ u, overUnder cross edge cr = .ok u ∧
      overUnder (cross.set cr { x with sign := .neg }) edge cr =
        .ok ⟨u.underIn, u.underOut, u.overIn, u.overOut⟩ := by
  obtain ⟨hlt, hxe⟩ := List.getElem?_eq_some_iff.mp hx
  have hslot : ∀ c k, slot (cross.set cr { x with sign := .neg }) c k = slot cross c k := by
    intro c k
    unfold slot
    split
    · by_cases hc : c = cr
      · subst hc
        rw [List.getElem?_set_self hlt, hx]
        rfl
      · rw [List.getElem?_set_ne (Ne.symm hc)]
    · rfl
  have hC' : Consistent (cross.set cr { x with sign := .neg }) edge :=
    ⟨by simpa using hC.count, fun e r h => by rw [hslot]; exact hC.head e r h,
      fun e r h => by rw [hslot]; exact hC.tail e r h, hC.ends_ne⟩
  have hin : ∀ k, ComesIn (cross.set cr { x with sign := .neg }) edge cr k ↔ ComesIn cross edge cr k := by
    intro k
    unfold ComesIn
    simp only [hslot]
  rw [overUnder_eq hC hx, overUnder_eq hC' (List.getElem?_set_self hlt)]
  refine ⟨_, rfl, ?_⟩
  simp only [hin, hs]
  by_cases h0 : ComesIn cross edge cr 0 <;> by_cases h1 : ComesIn cross edge cr 1 <;> simp [h0, h1, ouTable]

/-- **C26.** `pd_overstrand`, `pd_understrand` and the functions with `_pos` return these places and
the edges written there. -/
theorem C26_strands (cross : List Cross) (edge : List Edge) (hC : Consistent cross edge)
    (hO : Oriented cross edge) (cr : Nat) (hcr : cr < cross.length) :
    ∃ (oi oo ui uo : Nat) (a b c d : Nat),
      overstrandPos cross edge cr = .ok (oi, oo) ∧ understrandPos cross edge cr = .ok (ui, uo) ∧
      overstrand cross edge cr = .ok (a, b) ∧ understrand cross edge cr = .ok (c, d) ∧
      (oi + 2) % 4 = oo ∧ (ui + 2) % 4 = uo ∧
      slot cross cr oi = some a ∧ slot cross cr oo = some b ∧ slot cross cr ui = some c ∧
      slot cross cr uo = some d ∧
      (∃ r, edge[a]? = some r ∧ r.head = cr ∧ r.headpos = oi) ∧
      (∃ r, edge[b]? = some r ∧ r.tail = cr ∧ r.tailpos = oo) ∧
      (∃ r, edge[c]? = some r ∧ r.head = cr ∧ r.headpos = ui) ∧
      (∃ r, edge[d]? = some r ∧ r.tail = cr ∧ r.tailpos = uo) ∧
      (∀ x, cross[cr]? = some x → uo = (oo + if x.sign = .neg then 3 else 1) % 4) := by
  have hx := List.getElem?_eq_getElem hcr
  obtain ⟨u, h1, h2, h3, h4, h5, h6, h7, h8, h9, h10⟩ := C26_overunder cross edge hC hO cr _ hx
  obtain ⟨a, ra, a1, a2⟩ := h6
  obtain ⟨b, rb, b1, b2⟩ := h7
  obtain ⟨c, rc, c1, c2⟩ := h8
  obtain ⟨d, rdd, d1, d2⟩ := h9
  have hr : ∀ k e, slot cross cr k = some e → cross[cr].rdPos k = .ok e := by
    intro k e h
    have hk := (slot_lt h).2
    rw [slot_of_lt hcr hk] at h
    rw [Cross.rdPos_lt hk]
    simpa using h
  refine ⟨u.overIn, u.overOut, u.underIn, u.underOut, a, b, c, d, ?_, ?_, ?_, ?_, h4.symm, h5.symm, a1, b1, c1, d1,
    ⟨ra, a2⟩, ⟨rb, b2⟩, ⟨rc, c2⟩, ⟨rdd, d2⟩, ?_⟩
  · unfold overstrandPos; rw [h1, ok_bind]
  · unfold understrandPos; rw [h1, ok_bind]
  · unfold overstrand overstrandPos
    rw [h1]
    simp only [ok_bind]
    rw [rd_lt hcr, ok_bind, hr _ _ a1, ok_bind, hr _ _ b1, ok_bind]
  · unfold understrand understrandPos
    rw [h1]
    simp only [ok_bind]
    rw [rd_lt hcr, ok_bind, hr _ _ c1, ok_bind, hr _ _ d1, ok_bind]
  · intro x hx'
    rw [hx] at hx'
    cases hx'
    exact h10

example : Consistent (trefoilCross .neg) trefoilEdge ∧ Oriented (trefoilCross .neg) trefoilEdge := by decide

example : overstrand (trefoilCross .neg) trefoilEdge 1 ≠ understrand (trefoilCross .neg) trefoilEdge 1 := by
  decide

end Plc
