import Verif.Model.Moves
import Verif.Proofs.Loop
import Verif.Props.Buffers
import Verif.Props.Comps

namespace Plc.Moves

open Plc.Core Plc.Cmp Plc.Buffers List

variable {cross : List Cross} {edge : List Edge}

theorem wrPos_ok (x : Cross) {k : Nat} (hk : k < 4) (e : Nat) : ∃ x', x.wrPos k e = .ok x' ∧ x'.sign = x.sign ∧
    ∀ j, x'.at j = if j % 4 = k then e else x.at j := by
  have : k = 0 ∨ k = 1 ∨ k = 2 ∨ k = 3 := by omega
  rcases this with rfl | rfl | rfl | rfl <;>
  · refine ⟨_, rfl, rfl, ?_⟩
    intro j
    have hj : j % 4 = 0 ∨ j % 4 = 1 ∨ j % 4 = 2 ∨ j % 4 = 3 := by omega
    rcases hj with h | h | h | h <;> simp [Cross.at, h]

theorem setSlot_ok {c k : Nat} (hc : c < cross.length) (hk : k < 4) (e : Nat) :
    ∃ cross', setSlot cross c k e = .ok cross' ∧ cross'.length = cross.length ∧
      ∀ (d : Nat) (x : Cross), cross[d]? = some x → ∃ x', cross'[d]? = some x' ∧ x'.sign = x.sign ∧
        ∀ j, x'.at j = if d = c ∧ j % 4 = k then e else x.at j := by
  obtain ⟨x', h1, h2, h3⟩ := wrPos_ok cross[c] hk e
  refine ⟨cross.set c x', ?_, by simp, ?_⟩
  · unfold setSlot
    rw [rd_lt hc, ok_bind, h1, ok_bind, wr_lt hc]
  · intro d x hx
    by_cases hd : d = c
    · subst hd
      rw [List.getElem?_eq_getElem hc] at hx
      cases hx
      exact ⟨x', by simp [hc], h2, fun j => by rw [h3]; simp⟩
    · refine ⟨x, by rw [List.getElem?_set_ne (Ne.symm hd)]; exact hx, rfl, fun j => ?_⟩
      rw [if_neg (fun h => hd h.1)]

theorem at_eq_slot {d k : Nat} {x : Cross} (hx : cross[d]? = some x) : slot cross d (k % 4) = some (x.at k) := by
  obtain ⟨h, rfl⟩ := List.getElem?_eq_some_iff.mp hx
  rw [slot_of_lt h (Nat.mod_lt _ (by decide)), ← at_lt]

/-! ### Adding a loop -/

/-- The places of the new ends for the two orientations. -/
theorem kink_ok (ea eb e : Nat) {eo : Or} (ho : eo ≠ .unset) : ∃ x ha tb te he, r1Kink ea eb e eo = .ok (x, ha, tb, te, he) ∧
    x.sign = .unset ∧ ha < 4 ∧ tb < 4 ∧ te = (ha + 2) % 4 ∧ he = (tb + 2) % 4 ∧
    x.at ha = ea ∧ x.at tb = eb ∧ x.at te = e ∧ x.at he = e ∧ ha ≠ tb ∧
    (eo = .pos → he = (te + 1) % 4) ∧ (eo = .neg → te = (he + 1) % 4) := by
  cases eo with
  | pos => exact ⟨_, _, _, _, _, rfl, rfl, by decide, by decide, rfl, rfl, rfl, rfl, rfl, rfl, by decide, by simp, by simp⟩
  | neg => exact ⟨_, _, _, _, _, rfl, rfl, by decide, by decide, rfl, rfl, rfl, rfl, rfl, rfl, by decide, by simp, by simp⟩
  | unset => exact absurd rfl ho

/-- The diagram after the surgery, by what is written where. -/
structure Added (cross : List Cross) (edge : List Edge) (e : Nat) (r : Edge) (ha tb : Nat)
    (cross1 : List Cross) (edge1 : List Edge) : Prop where
  len : cross1.length = cross.length + 1
  elen : edge1.length = edge.length + 2
  halt : ha < 4
  tblt : tb < 4
  hne : ha ≠ tb
  old : ∀ (d : Nat) (x : Cross), cross[d]? = some x → ∃ x', cross1[d]? = some x' ∧ x'.sign = x.sign ∧
    ∀ j, x'.at j = if d = r.head ∧ j % 4 = r.headpos then edge.length + 1 else
      if d = r.tail ∧ j % 4 = r.tailpos then edge.length else x.at j
  kink : ∃ x', cross1[cross.length]? = some x' ∧ x'.sign = .unset ∧ x'.at ha = edge.length ∧
    x'.at tb = edge.length + 1 ∧ x'.at (ha + 2) = e ∧ x'.at (tb + 2) = e
  keep : ∀ f : Nat, f < edge.length → f ≠ e → edge1[f]? = edge[f]?
  ee : edge1[e]? = some ⟨cross.length, (tb + 2) % 4, cross.length, (ha + 2) % 4⟩
  ea : edge1[edge.length]? = some ⟨cross.length, ha, r.tail, r.tailpos⟩
  eb : edge1[edge.length + 1]? = some ⟨r.head, r.headpos, cross.length, tb⟩

theorem r1AddRaw_ok (hC : Consistent cross edge) {e : Nat} {r : Edge} (he : edge[e]? = some r) {eo : Or} (ho : eo ≠ .unset) :
    ∃ cross1 edge1 ha tb, r1AddRaw cross edge e eo = .ok (cross1, edge1) ∧ Added cross edge e r ha tb cross1 edge1 ∧
      (eo = .pos → (tb + 2) % 4 = ((ha + 2) % 4 + 1) % 4) ∧ (eo = .neg → (ha + 2) % 4 = ((tb + 2) % 4 + 1) % 4) := by
  obtain ⟨x, ha, tb, te, he', k1, k2, k3, k4, rfl, rfl, k5, k6, k7, k8, k9, k10, k11⟩ :=
    kink_ok edge.length (edge.length + 1) e ho
  have hlt := (List.getElem?_eq_some_iff.mp he).1
  have ph := slot_lt (hC.head e r he)
  have pt := slot_lt (hC.tail e r he)
  obtain ⟨c1, s1, s2, s3⟩ := setSlot_ok (cross := cross ++ [x]) (c := r.tail) (k := r.tailpos)
    (by simp; omega) pt.2 edge.length
  obtain ⟨c2, t1, t2, t3⟩ := setSlot_ok (cross := c1) (c := r.head) (k := r.headpos)
    (by rw [s2]; simp; omega) ph.2 (edge.length + 1)
  have hw : e < (edge ++ [(⟨cross.length, ha, r.tail, r.tailpos⟩ : Edge), ⟨r.head, r.headpos, cross.length, tb⟩]).length := by
    simp; omega
  refine ⟨c2, (edge ++ [(⟨cross.length, ha, r.tail, r.tailpos⟩ : Edge), ⟨r.head, r.headpos, cross.length, tb⟩]).set e
    ⟨cross.length, (tb + 2) % 4, cross.length, (ha + 2) % 4⟩, ha, tb, ?_, ?_, k10, k11⟩
  · unfold r1AddRaw
    simp only
    rw [rd_eq_ok.mpr he, ok_bind, k1, ok_bind]
    simp only
    rw [wr_lt hw, ok_bind, s1, ok_bind, t1, ok_bind]
  · refine ⟨by rw [t2, s2]; simp, by simp, k3, k4, k9, ?_, ?_, ?_, ?_, ?_, ?_⟩
    · intro d y hy
      have hd := (List.getElem?_eq_some_iff.mp hy).1
      obtain ⟨y1, a1, a2, a3⟩ := s3 d y (by rw [List.getElem?_append_left hd]; exact hy)
      obtain ⟨y2, b1, b2, b3⟩ := t3 d y1 a1
      exact ⟨y2, b1, by rw [b2, a2], fun j => by rw [b3, a3]⟩
    · obtain ⟨y1, a1, a2, a3⟩ := s3 cross.length x (by simp)
      obtain ⟨y2, b1, b2, b3⟩ := t3 cross.length y1 a1
      have : ∀ j, y2.at j = x.at j := by
        intro j
        rw [b3, a3, if_neg (fun h => by have := h.1; omega), if_neg (fun h => by have := h.1; omega)]
      refine ⟨y2, b1, by rw [b2, a2, k2], by rw [this, k5], by rw [this, k6], ?_, ?_⟩
      · rw [this, at_lt]; exact k7
      · rw [this, at_lt]; exact k8
    · intro f hf hne
      rw [List.getElem?_set_ne (Ne.symm hne), List.getElem?_append_left hf]
    · rw [List.getElem?_set_self hw]
    · rw [List.getElem?_set_ne (by omega)]; simp
    · rw [List.getElem?_set_ne (by omega)]; simp

namespace Added

variable {cross1 : List Cross} {edge1 : List Edge} {e ha tb : Nat} {r : Edge}

theorem cases (h : Added cross edge e r ha tb cross1 edge1) {f : Nat} (hf : f < edge1.length) :
    (f < edge.length ∧ f ≠ e) ∨ f = e ∨ f = edge.length ∨ f = edge.length + 1 := by
  have := h.elen; omega

theorem slot_old (h : Added cross edge e r ha tb cross1 edge1) (hC : Consistent cross edge) (he : edge[e]? = some r)
    {d k g : Nat} (hs : slot cross d k = some g) (hg : g ≠ e) : slot cross1 d k = some g := by
  obtain ⟨hk, x, hx, rfl⟩ := slot_eq_some.mp hs
  obtain ⟨x', a1, _, a3⟩ := h.old d x hx
  refine slot_eq_some.mpr ⟨hk, x', a1, ?_⟩
  rw [a3, if_neg, if_neg]
  · rintro ⟨rfl, h2⟩
    rw [Nat.mod_eq_of_lt hk] at h2
    subst h2
    rw [hC.tail e r he] at hs
    exact hg (Option.some.inj hs).symm
  · rintro ⟨rfl, h2⟩
    rw [Nat.mod_eq_of_lt hk] at h2
    subst h2
    rw [hC.head e r he] at hs
    exact hg (Option.some.inj hs).symm

theorem slot_head (h : Added cross edge e r ha tb cross1 edge1) (hC : Consistent cross edge) (he : edge[e]? = some r) :
    slot cross1 r.head r.headpos = some (edge.length + 1) := by
  obtain ⟨hk, x, hx, _⟩ := slot_eq_some.mp (hC.head e r he)
  obtain ⟨x', a1, _, a3⟩ := h.old _ x hx
  refine slot_eq_some.mpr ⟨hk, x', a1, ?_⟩
  rw [a3, if_pos ⟨rfl, Nat.mod_eq_of_lt hk⟩]

theorem slot_tail (h : Added cross edge e r ha tb cross1 edge1) (hC : Consistent cross edge) (he : edge[e]? = some r) :
    slot cross1 r.tail r.tailpos = some edge.length := by
  obtain ⟨hk, x, hx, _⟩ := slot_eq_some.mp (hC.tail e r he)
  obtain ⟨x', a1, _, a3⟩ := h.old _ x hx
  refine slot_eq_some.mpr ⟨hk, x', a1, ?_⟩
  rw [a3, if_neg, if_pos ⟨rfl, Nat.mod_eq_of_lt hk⟩]
  rintro ⟨h1, h2⟩
  rw [Nat.mod_eq_of_lt hk] at h2
  exact hC.ends_ne e r he (by rw [Prod.mk.injEq]; exact ⟨h1.symm, h2.symm⟩)

theorem slot_kink (h : Added cross edge e r ha tb cross1 edge1) :
    slot cross1 cross.length ha = some edge.length ∧ slot cross1 cross.length tb = some (edge.length + 1) ∧
    slot cross1 cross.length ((ha + 2) % 4) = some e ∧ slot cross1 cross.length ((tb + 2) % 4) = some e := by
  obtain ⟨x', a1, _, a2, a3, a4, a5⟩ := h.kink
  refine ⟨slot_eq_some.mpr ⟨h.halt, x', a1, a2⟩, slot_eq_some.mpr ⟨h.tblt, x', a1, a3⟩, ?_, ?_⟩
  · rw [at_eq_slot a1, a4]
  · rw [at_eq_slot a1, a5]

theorem consistent (h : Added cross edge e r ha tb cross1 edge1) (hC : Consistent cross edge) (he : edge[e]? = some r) :
    Consistent cross1 edge1 := by
  obtain ⟨k1, k2, k3, k4⟩ := h.slot_kink
  have hlt := (List.getElem?_eq_some_iff.mp he).1
  have h1 := h.halt
  have h2 := h.tblt
  have h3 := h.hne
  have main : ∀ (f : Nat) (s : Edge), edge1[f]? = some s →
      slot cross1 s.head s.headpos = some f ∧ slot cross1 s.tail s.tailpos = some f ∧
        (s.head, s.headpos) ≠ (s.tail, s.tailpos) := by
    intro f s hs
    have hf := (List.getElem?_eq_some_iff.mp hs).1
    rcases h.cases hf with ⟨f1, f2⟩ | rfl | rfl | rfl
    · rw [h.keep f f1 f2] at hs
      exact ⟨h.slot_old hC he (hC.head f s hs) f2, h.slot_old hC he (hC.tail f s hs) f2, hC.ends_ne f s hs⟩
    · rw [h.ee] at hs
      cases hs
      refine ⟨k4, k3, ?_⟩
      simp only [ne_eq, Prod.mk.injEq, true_and]
      omega
    · rw [h.ea] at hs
      cases hs
      refine ⟨k1, h.slot_tail hC he, ?_⟩
      have := (slot_lt (hC.tail e r he)).1
      simp only [ne_eq, Prod.mk.injEq]
      omega
    · rw [h.eb] at hs
      cases hs
      refine ⟨h.slot_head hC he, k2, ?_⟩
      have := (slot_lt (hC.head e r he)).1
      simp only [ne_eq, Prod.mk.injEq]
      omega
  exact ⟨by rw [h.len, h.elen, hC.count]; omega, fun f s hs => (main f s hs).1, fun f s hs => (main f s hs).2.1,
    fun f s hs => (main f s hs).2.2⟩

theorem oriented (h : Added cross edge e r ha tb cross1 edge1) (hO : Oriented cross edge) (he : edge[e]? = some r) :
    Oriented cross1 edge1 := by
  have h1 := h.halt
  have h2 := h.tblt
  have hlt := (List.getElem?_eq_some_iff.mp he).1
  -- the edge with the same tail, and the edge with the same head, as an old edge
  have tl : ∀ (g : Nat) (s : Edge), edge[g]? = some s → ∃ (g' : Nat) (s' : Edge), edge1[g']? = some s' ∧ s'.tail = s.tail ∧
      s'.tailpos = s.tailpos := by
    intro g s hs
    by_cases hg : g = e
    · subst hg
      rw [he] at hs
      cases hs
      exact ⟨_, _, h.ea, rfl, rfl⟩
    · exact ⟨g, s, by rw [h.keep g (List.getElem?_eq_some_iff.mp hs).1 hg]; exact hs, rfl, rfl⟩
  have hd : ∀ (g : Nat) (s : Edge), edge[g]? = some s → ∃ (g' : Nat) (s' : Edge), edge1[g']? = some s' ∧ s'.head = s.head ∧
      s'.headpos = s.headpos := by
    intro g s hs
    by_cases hg : g = e
    · subst hg
      rw [he] at hs
      cases hs
      exact ⟨_, _, h.eb, rfl, rfl⟩
    · exact ⟨g, s, by rw [h.keep g (List.getElem?_eq_some_iff.mp hs).1 hg]; exact hs, rfl, rfl⟩
  constructor
  · intro f s hs
    have hf := (List.getElem?_eq_some_iff.mp hs).1
    rcases h.cases hf with ⟨f1, f2⟩ | rfl | rfl | rfl
    · rw [h.keep f f1 f2] at hs
      obtain ⟨g, t, a1, a2, a3⟩ := hO.through_head f s hs
      obtain ⟨g', t', b1, b2, b3⟩ := tl g t a1
      exact ⟨g', t', b1, by rw [b2, a2], by rw [b3, a3]⟩
    · rw [h.ee] at hs
      cases hs
      refine ⟨_, _, h.eb, rfl, ?_⟩
      simp only
      omega
    · rw [h.ea] at hs
      cases hs
      exact ⟨_, _, h.ee, rfl, rfl⟩
    · rw [h.eb] at hs
      cases hs
      obtain ⟨g, t, a1, a2, a3⟩ := hO.through_head e r he
      obtain ⟨g', t', b1, b2, b3⟩ := tl g t a1
      exact ⟨g', t', b1, by rw [b2, a2], by rw [b3, a3]⟩
  · intro f s hs
    have hf := (List.getElem?_eq_some_iff.mp hs).1
    rcases h.cases hf with ⟨f1, f2⟩ | rfl | rfl | rfl
    · rw [h.keep f f1 f2] at hs
      obtain ⟨g, t, a1, a2, a3⟩ := hO.through_tail f s hs
      obtain ⟨g', t', b1, b2, b3⟩ := hd g t a1
      exact ⟨g', t', b1, by rw [b2, a2], by rw [b3, a3]⟩
    · rw [h.ee] at hs
      cases hs
      refine ⟨_, _, h.ea, rfl, ?_⟩
      simp only
      omega
    · rw [h.ea] at hs
      cases hs
      obtain ⟨g, t, a1, a2, a3⟩ := hO.through_tail e r he
      obtain ⟨g', t', b1, b2, b3⟩ := hd g t a1
      exact ⟨g', t', b1, by rw [b2, a2], by rw [b3, a3]⟩
    · rw [h.eb] at hs
      cases hs
      exact ⟨_, _, h.ee, rfl, rfl⟩

/-- The old diagram is the new one without the loop. -/
theorem removed (h : Added cross edge e r ha tb cross1 edge1) (hC : Consistent cross edge) (he : edge[e]? = some r)
    (hadj : (tb + 2) % 4 = ((ha + 2) % 4 + 1) % 4 ∨ (ha + 2) % 4 = ((tb + 2) % 4 + 1) % 4) :
    LoopRemoved cross1 edge1 cross.length edge.length e (edge.length + 1) cross edge
      (fun f => if f = e then edge.length else f) id (fun _ => 0) := by
  have hlt := (List.getElem?_eq_some_iff.mp he).1
  have h1 := h.halt
  have h2 := h.tblt
  exact {
    len := h.len
    elen := h.elen
    loop := by
      refine ⟨_, _, _, h.ea, h.ee, h.eb, rfl, rfl, hadj, rfl, ?_, rfl, ?_⟩ <;> simp only <;> omega
    ne01 := by omega
    ne02 := by omega
    ne12 := by omega
    slt := fun d hd => ⟨by rw [h.len, id]; omega, by rw [id]; omega⟩
    sinj := fun _ _ _ _ h => h
    tlt := fun f hf => by
      rw [h.elen]
      split
      · omega
      · refine ⟨by omega, ‹_›, by omega⟩
    tinj := fun f f' hf hf' hh => by
      split at hh <;> split at hh <;> omega
    cross := by
      intro d x hx
      obtain ⟨x', a1, a2, a3⟩ := h.old d x hx
      refine ⟨x', a1, a2.symm, fun k => ?_⟩
      have hs := at_eq_slot (k := k) hx
      have hl := hC.slot_edge_lt hs
      refine ⟨hl, ?_⟩
      simp only [Nat.add_zero]
      rw [a3]
      by_cases c1 : d = r.head ∧ k % 4 = r.headpos
      · rw [if_pos c1, if_pos rfl]
        have := hC.head e r he
        rw [← c1.1, ← c1.2, hs] at this
        rw [if_pos (Option.some.inj this)]
      · rw [if_neg c1]
        by_cases c2 : d = r.tail ∧ k % 4 = r.tailpos
        · rw [if_pos c2]
          have := hC.tail e r he
          rw [← c2.1, ← c2.2, hs] at this
          rw [if_pos (Option.some.inj this), if_neg (by omega)]
        · rw [if_neg c2, if_neg (show ¬ x.at k = edge.length + 1 by omega), if_neg]
          intro hxe
          rw [hxe] at hs
          obtain ⟨r', b1, b2⟩ := hC.slots hs
          rw [he] at b1
          cases b1
          rcases b2 with ⟨b2, b3⟩ | ⟨b2, b3⟩
          · exact c1 ⟨b2.symm, b3.symm⟩
          · exact c2 ⟨b2.symm, b3.symm⟩
    edge := by
      intro f s hs
      have hf := (List.getElem?_eq_some_iff.mp hs).1
      have ph := slot_lt (hC.head f s hs)
      have pt := slot_lt (hC.tail f s hs)
      refine ⟨ph.1, ph.2, pt.1, pt.2, ?_⟩
      by_cases hfe : f = e
      · subst hfe
        rw [he] at hs
        cases hs
        refine ⟨⟨cross.length, ha, r.tail, r.tailpos⟩, ⟨r.head, r.headpos, cross.length, tb⟩,
          by rw [if_pos rfl]; exact h.ea, by rw [if_pos rfl, if_pos rfl]; exact h.eb, rfl, ?_, rfl, ?_⟩
        · exact Nat.mod_eq_of_lt pt.2
        · exact Nat.mod_eq_of_lt ph.2
      · refine ⟨s, s, by simp only [if_neg hfe]; rw [h.keep f hf hfe]; exact hs, ?_, rfl, ?_, rfl, ?_⟩
        · simp only [if_neg hfe]
          rw [if_neg (by omega), h.keep f hf hfe]; exact hs
        · exact Nat.mod_eq_of_lt pt.2
        · exact Nat.mod_eq_of_lt ph.2 }

/-- Strands are not split or joined. -/
theorem strands (h : Added cross edge e r ha tb cross1 edge1) (hC : Consistent cross edge) (hO : Oriented cross edge)
    (he : edge[e]? = some r) {m : Nat} (hK : AtMostStrands cross edge m) : AtMostStrands cross1 edge1 m := by
  have hlt := (List.getElem?_eq_some_iff.mp he).1
  have hC1 := h.consistent hC he
  have hO1 := h.oriented hO he
  have hI := Comps.injOn_nx hC1 hO1
  -- being on one strand is symmetric
  have symm : ∀ x y, x < edge1.length → Relation.ReflTransGen (Follows cross1 edge1) x y →
      Relation.ReflTransGen (Follows cross1 edge1) y x := by
    intro x y hx hxy
    have fw : ∀ k z, z < edge1.length → Relation.ReflTransGen (Follows cross1 edge1) z ((Comps.nx cross1 edge1)^[k] z) := by
      intro k z hz
      induction k with
      | zero => exact .refl
      | succ k ih =>
        rw [Function.iterate_succ_apply']
        refine ih.tail ((Comps.follows_iff hC1 _ _).mpr ⟨?_, rfl⟩)
        exact Finset.mem_range.mp (hI.iterate_mem (Finset.mem_range.mpr hz) k)
    have bw : ∃ k, (Comps.nx cross1 edge1)^[k] x = y := by
      clear fw
      induction hxy with
      | refl => exact ⟨0, rfl⟩
      | tail _ hs ih =>
        obtain ⟨k, hk⟩ := ih
        refine ⟨k + 1, ?_⟩
        rw [Function.iterate_succ_apply', hk]
        exact ((Comps.follows_iff hC1 _ _).mp hs).2
    have hy : y < edge1.length := by
      obtain ⟨k, rfl⟩ := bw
      exact Finset.mem_range.mp (hI.iterate_mem (Finset.mem_range.mpr hx) k)
    obtain ⟨k, rfl⟩ := hI.reach_symm (Finset.mem_range.mpr hx) bw
    exact fw k y hy
  have f1 : Follows cross1 edge1 edge.length e := by
    refine ⟨_, h.ea, ?_⟩
    exact h.slot_kink.2.2.1
  have f2 : Follows cross1 edge1 e (edge.length + 1) := by
    refine ⟨_, h.ee, ?_⟩
    have := h.slot_kink.2.1
    have h2 := h.tblt
    simp only
    rw [show ((tb + 2) % 4 + 2) % 4 = tb by omega]
    exact this
  -- one old step
  have step : ∀ x y, Follows cross edge x y → Relation.ReflTransGen (Follows cross1 edge1) x y := by
    rintro x y ⟨s, hs, hsl⟩
    -- the edge one arrives at
    have arrive : ∀ c k, slot cross c k = some y → (c, k) ≠ (r.head, r.headpos) → ∃ z, slot cross1 c k = some z ∧
        Relation.ReflTransGen (Follows cross1 edge1) z y := by
      intro c k hck hne
      by_cases hy : y = e
      · subst hy
        obtain ⟨r', b1, b2⟩ := hC.slots hck
        rw [he] at b1
        cases b1
        rcases b2 with ⟨b2, b3⟩ | ⟨b2, b3⟩
        · exact absurd (by rw [b2, b3]) hne
        · rw [← b2, ← b3]
          exact ⟨_, h.slot_tail hC he, .single f1⟩
      · exact ⟨y, h.slot_old hC he hck hy, .refl⟩
    -- the place one arrives at is a tail
    obtain ⟨g, t, a1, a2, a3⟩ := hO.through_head x s hs
    have hnh : (s.head, (s.headpos + 2) % 4) ≠ (r.head, r.headpos) := by
      intro hh
      rw [Prod.mk.injEq] at hh
      have b1 := hC.tail g t a1
      have b2 := hC.head e r he
      rw [a2, a3, hh.1, hh.2, b2] at b1
      have hge : e = g := Option.some.inj b1
      subst hge
      rw [he] at a1
      cases a1
      exact hC.ends_ne e r he (by rw [Prod.mk.injEq, a2, a3]; exact ⟨hh.1.symm, hh.2.symm⟩)
    obtain ⟨z, z1, z2⟩ := arrive _ _ hsl hnh
    by_cases hx : x = e
    · subst hx
      rw [he] at hs
      cases hs
      exact ((Relation.ReflTransGen.single f2).tail ⟨_, h.eb, z1⟩).trans z2
    · exact (Relation.ReflTransGen.single ⟨s, by rw [h.keep x (List.getElem?_eq_some_iff.mp hs).1 hx]; exact hs, z1⟩).trans z2
  have steps : ∀ x y, Relation.ReflTransGen (Follows cross edge) x y → Relation.ReflTransGen (Follows cross1 edge1) x y := by
    intro x y hxy
    induction hxy with
    | refl => exact .refl
    | tail _ hs ih => exact ih.trans (step _ _ hs)
  intro es hes hpw
  have := hK (es.map (fun x => if x < edge.length then x else e)) (by
    intro x hx
    obtain ⟨y, _, rfl⟩ := List.mem_map.mp hx
    split
    · assumption
    · exact hlt) (by
    rw [List.pairwise_map]
    refine List.Pairwise.imp_of_mem ?_ hpw
    intro x y hx hy hxy hr
    apply hxy
    have rep : ∀ x, x < edge1.length → Relation.ReflTransGen (Follows cross1 edge1) x (if x < edge.length then x else e) := by
      intro x hx
      split
      · exact .refl
      · have := h.elen
        have : x = edge.length ∨ x = edge.length + 1 := by omega
        rcases this with rfl | rfl
        · exact .single f1
        · exact symm _ _ (by omega) (.single f2)
    exact ((rep x (hes x hx)).trans (steps _ _ hr)).trans (symm _ _ (hes y hy) (rep y (hes y hy))))
  rwa [List.length_map] at this

end Added

/-! ### Regeneration, as renaming -/

theorem at_of_rotate {x x' : Cross} {τ : Nat → Nat} {q : Nat}
    (h : [x'.e0, x'.e1, x'.e2, x'.e3] = ([x.e0, x.e1, x.e2, x.e3].map τ).rotate q) (k : Nat) :
    x'.at k = τ (x.at (k + q % 4)) := by
  have hr : ([x.e0, x.e1, x.e2, x.e3].map τ).rotate q = ([x.e0, x.e1, x.e2, x.e3].map τ).rotate (q % 4) :=
    (List.rotate_mod _ q).symm
  rw [hr] at h
  rw [at_lt, at_lt x]
  have e : (k + q % 4) % 4 = (k % 4 + q % 4) % 4 := by omega
  rw [e]
  have h1 : q % 4 = 0 ∨ q % 4 = 1 ∨ q % 4 = 2 ∨ q % 4 = 3 := by omega
  have h2 : k % 4 = 0 ∨ k % 4 = 1 ∨ k % 4 = 2 ∨ k % 4 = 3 := by omega
  rcases h1 with h1 | h1 | h1 | h1 <;> rw [h1] at h ⊢ <;> simp [List.rotate] at h <;>
    obtain ⟨a, b, c, d⟩ := h <;> rcases h2 with h2 | h2 | h2 | h2 <;> rw [h2] <;> simp [Cross.at, a, b, c, d]

theorem unshift {k k' q : Nat} (hk : k' < 4) (h : (k' + q) % 4 = k) : k' = (k + 4 - q % 4) % 4 := by omega

theorem renamed_of {cross' : List Cross} {edge' : List Edge} {τ σ ρ : Nat → Nat} (hC' : Consistent cross' edge')
    (len : cross'.length = cross.length) (elen : edge'.length = edge.length)
    (slt : ∀ c, c < cross.length → σ c < cross.length)
    (sinj : ∀ c d, c < cross.length → d < cross.length → σ c = σ d → c = d)
    (tlt : ∀ e, e < edge.length → τ e < edge.length)
    (tinj : ∀ e f, e < edge.length → f < edge.length → τ e = τ f → e = f)
    (hx : ∀ (c : Nat) (x : Cross), cross[c]? = some x → ∃ x', cross'[σ c]? = some x' ∧
        x'.sign = x.sign ∧
        [x'.e0, x'.e1, x'.e2, x'.e3] = ([x.e0, x.e1, x.e2, x.e3].map τ).rotate (ρ c))
    (hr : ∀ (e : Nat) (r : Edge), edge[e]? = some r → ∃ r', edge'[τ e]? = some r' ∧
        r'.head = σ r.head ∧ (r'.headpos + ρ r.head) % 4 = r.headpos ∧
        r'.tail = σ r.tail ∧ (r'.tailpos + ρ r.tail) % 4 = r.tailpos) :
    Renamed cross edge cross' edge' τ σ (fun c => ρ c % 4) (fun _ => false) ∧ SameSigns cross cross' σ := by
  refine ⟨⟨len, elen, slt, sinj, tlt, tinj, fun _ => Nat.mod_lt _ (by decide), ?_, ?_⟩, ?_⟩
  · intro c x h
    obtain ⟨x', a1, _, a3⟩ := hx c x h
    exact ⟨x', a1, at_of_rotate a3⟩
  · intro e r h
    obtain ⟨r', a1, a2, a3, a4, a5⟩ := hr e r h
    rw [a1]
    congr 1
    unfold moveEdge
    rw [if_neg (by decide)]
    obtain ⟨h1, h2, h3, h4⟩ := r'
    simp only at a2 a3 a4 a5
    rw [Edge.mk.injEq]
    exact ⟨a2, unshift (slot_lt (hC'.head _ _ a1)).2 a3, a4, unshift (slot_lt (hC'.tail _ _ a1)).2 a5⟩
  · intro c x h
    obtain ⟨x', a1, a2, _⟩ := hx c x h
    exact ⟨x', a1, a2⟩

theorem SameSigns.trans {cross' cross'' : List Cross} {σ σ' : Nat → Nat} (h : SameSigns cross cross' σ)
    (h' : SameSigns cross' cross'' σ') : SameSigns cross cross'' (fun c => σ' (σ c)) := by
  intro c x hx
  obtain ⟨x', a1, a2⟩ := h c x hx
  obtain ⟨x'', b1, b2⟩ := h' _ x' a1
  exact ⟨x'', b1, by rw [b2, a2]⟩

theorem strands_renamed {cross' : List Cross} {edge' : List Edge} {τ σ ρ : Nat → Nat}
    (h : Renamed cross edge cross' edge' τ σ ρ (fun _ => false)) (hC : Consistent cross edge)
    (hO : Oriented cross edge) {m : Nat} (hK : AtMostStrands cross edge m) : AtMostStrands cross' edge' m := by
  intro es hes hpw
  have hex : ∀ x ∈ es, ∃ y, y < edge.length ∧ τ y = x := fun x hx =>
    surj_of_inj h.tlt h.tinj (by rw [← h.elen]; exact hes x hx)
  have step : ∀ x y, Relation.ReflTransGen (Follows cross edge) x y →
      Relation.ReflTransGen (Follows cross' edge') (τ x) (τ y) := by
    intro x y hxy
    induction hxy with
    | refl => exact .refl
    | tail _ hs ih => exact ih.tail (by simpa using h.follows hC hO (fun _ _ _ => rfl) hs)
  choose! g g1 g2 using hex
  have := hK (es.map g) (by
    intro x hx
    obtain ⟨y, hy, rfl⟩ := List.mem_map.mp hx
    exact g1 y hy) (by
    rw [List.pairwise_map]
    refine List.Pairwise.imp_of_mem ?_ hpw
    intro x y hx hy hxy hr
    apply hxy
    have := step _ _ hr
    rwa [g2 x hx, g2 y hy] at this)
  rwa [List.length_map] at this

/-- `pd_regenerate_crossings`. -/
theorem regenCrossings_renamed (qs : QSort) (hC : Consistent cross edge) (hsmall : edge.length ≤ 2 ^ 31) :
    ∃ cross' edge' σ ρ, regenCrossings qs cross edge = .ok (cross', edge') ∧
      Renamed cross edge cross' edge' id σ ρ (fun _ => false) ∧ SameSigns cross cross' σ ∧
      cross'.Pairwise (fun a b => ¬ ([b.e0, b.e1, b.e2, b.e3] : List Nat) < [a.e0, a.e1, a.e2, a.e3]) ∧
      (∀ c ∈ cross', c.e0 ≤ c.e1 ∧ c.e0 ≤ c.e2 ∧ c.e0 ≤ c.e3) := by
  obtain ⟨cross', edge', σ, ρ, h1, h2, h3, h4, h5, h6, h7, h8, _, h10, h11⟩ := C18_regenerate_crossings qs cross edge hC hsmall
  obtain ⟨a, b⟩ := renamed_of (τ := id) h8 h2 h3 h4 h5 (fun _ h => h) (fun _ _ _ _ h => h) (by simpa using h6) h7
  exact ⟨cross', edge', σ, _, h1, a, b, h10, h11⟩

end Plc.Moves
