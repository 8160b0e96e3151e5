import Verif.Proofs.Erased
import Verif.Proofs.Euler
import Verif.Proofs.LoopPlane

/-! Pulling strands off crossings keeps diagrams plane as long as every strand crosses the others evenly. -/

namespace Plc

open Plc.Core Plc.Places List Plc.Planar Plc.Faces Plc.Orbit

namespace Planar

variable {cross : List Cross} {edge : List Edge} (hC : Consistent cross edge)

include hC in
/-- The number of ends at a crossing, place by place. -/
theorem sum_inc (z : Nat → K) {c : Nat} (hc : c < cross.length) :
    ∑ e ∈ Finset.range edge.length, inc edge c e * z e =
      z (eslot cross (c, 0)) + z (eslot cross (c, 1)) + z (eslot cross (c, 2)) + z (eslot cross (c, 3)) := by
  have h1 : ∑ e ∈ Finset.range edge.length, inc edge c e * z e = ∑ d ∈ D edge, (if (begp edge d).1 = c then z d.1 else 0) := by
    rw [sum_D]
    apply Finset.sum_congr rfl
    intro e _
    unfold inc begp
    simp only [if_true, reduceCtorEq, if_false]
    split <;> split <;> ring
  have h2 : ∑ d ∈ D edge, (if (begp edge d).1 = c then z d.1 else 0) =
      ∑ p ∈ P cross, (if p.1 = c then z (eslot cross p) else 0) := by
    refine Finset.sum_nbij (begp edge) (fun d hd => (begp_mem hC hd).1) (fun x hx y hy e => begp_inj hC hx hy e) ?_ ?_
    · intro p hp
      exact ⟨_, dartAt_mem hC hp, begp_dartAt hC hp⟩
    · intro d hd
      rw [(begp_mem hC hd).2]
  have h3 : ∑ p ∈ P cross, (if p.1 = c then z (eslot cross p) else 0) = ∑ k ∈ Finset.range 4, z (eslot cross (c, k)) := by
    unfold P
    rw [Finset.sum_product, Finset.sum_eq_single c]
    · simp
    · intro b _ hb
      simp [hb]
    · intro h
      exact absurd (Finset.mem_range.mpr hc) h
  rw [h1, h2, h3, Finset.sum_range_succ, Finset.sum_range_succ, Finset.sum_range_succ, Finset.sum_range_one]

include hC in
theorem isCycle_iff {z : Nat → K} : IsCycle cross edge z ↔ ∀ c, c < cross.length →
    z (eslot cross (c, 0)) + z (eslot cross (c, 1)) + z (eslot cross (c, 2)) + z (eslot cross (c, 3)) = 0 := by
  constructor
  · intro h c hc
    rw [← sum_inc hC z hc]
    exact h c hc
  · intro h c hc
    rw [sum_inc hC z hc]
    exact h c hc

/-- All ends together are even. -/
theorem sum_all (hC : Consistent cross edge) (z : Nat → K) : ∑ c ∈ Finset.range cross.length,
    (z (eslot cross (c, 0)) + z (eslot cross (c, 1)) + z (eslot cross (c, 2)) + z (eslot cross (c, 3))) = 0 := by
  rw [Finset.sum_congr rfl (fun c hc => (sum_inc hC z (Finset.mem_range.mp hc)).symm), Finset.sum_comm]
  apply Finset.sum_eq_zero
  intro e he
  rw [Finset.mem_range] at he
  rw [← Finset.sum_mul]
  have h1 := (mem_P.mp (hd_mem hC he).1).1
  have h2 := (mem_P.mp (tl_mem hC he).1).1
  have : ∑ c ∈ Finset.range cross.length, inc edge c e = 0 := by
    unfold inc
    rw [Finset.sum_add_distrib, Finset.sum_ite_eq, Finset.sum_ite_eq, if_pos (Finset.mem_range.mpr h1),
      if_pos (Finset.mem_range.mpr h2)]
    exact CharTwo.add_self_eq_zero 1
  rw [this, zero_mul]

/-- A diagram is connected if no property of crossings separates it. -/
theorem connected_of (h : ∀ g : Nat → Prop, (∀ r ∈ edge, g r.head ↔ g r.tail) → ∀ c d, c < cross.length → d < cross.length → g c → g d) :
    Connected cross edge := by
  intro c d hc hd
  refine h (Relation.ReflTransGen (Joined edge) c) ?_ c d hc hd .refl
  intro r hr
  exact ⟨fun hh => hh.tail ⟨r, hr, .inl ⟨rfl, rfl⟩⟩, fun hh => hh.tail ⟨r, hr, .inr ⟨rfl, rfl⟩⟩⟩

theorem connected_prop (hcon : Connected cross edge) {g : Nat → Prop} (hg : ∀ r ∈ edge, g r.head ↔ g r.tail) {c d : Nat}
    (hc : c < cross.length) (hd : d < cross.length) : g c ↔ g d := by
  have := const_of_joined hcon (g := g) (fun r hr => propext (hg r hr)) hc hd
  rw [this]

end Planar

namespace Erased

variable {cross cross' : List Cross} {edge edge' : List Edge} {X G : List Nat} {W : List (Nat × Nat)} {τ σ ρ : Nat → Nat}

/-- The side with which a side of the second diagram begins. -/
def beg (W : List (Nat × Nat)) (τ : Nat → Nat) (d : Dart) : Dart := if d.2 = .pos then (τ d.1, .pos) else (lastOf W (τ d.1), .neg)

/-- The side with which it ends. -/
def fin (W : List (Nat × Nat)) (τ : Nat → Nat) (d : Dart) : Dart := if d.2 = .pos then (lastOf W (τ d.1), .pos) else (τ d.1, .neg)

theorem dart_mem (h : Erased cross edge X G W cross' edge' τ σ ρ) (B : Bypass edge X G W) {d : Dart} (hd : d ∈ D edge') :
    beg W τ d ∈ D edge ∧ fin W τ d ∈ D edge := by
  obtain ⟨h1, h2⟩ := mem_D.mp hd
  have l1 := (h.tlt _ h1).1
  have l2 := B.last_lt l1
  unfold beg fin
  split
  · exact ⟨mem_D.mpr ⟨l1, .inl rfl⟩, mem_D.mpr ⟨l2, .inl rfl⟩⟩
  · exact ⟨mem_D.mpr ⟨l2, .inr rfl⟩, mem_D.mpr ⟨l1, .inr rfl⟩⟩

theorem dart_ends (h : Erased cross edge X G W cross' edge' τ σ ρ) {d : Dart} (hd : d ∈ D edge') :
    place σ ρ (begp edge' d) = begp edge (beg W τ d) ∧ place σ ρ (endp edge' d) = endp edge (fin W τ d) := by
  obtain ⟨h1, h2⟩ := mem_D.mp hd
  obtain ⟨e1, e2⟩ := h.ends h1
  unfold beg fin begp endp place
  rcases h2 with h2 | h2
  · simp only [h2, if_true]
    exact ⟨e1, e2⟩
  · simp only [h2, reduceCtorEq, if_false]
    exact ⟨e2, e1⟩

/-- The next side of a face. -/
theorem nd_fin (h : Erased cross edge X G W cross' edge' τ σ ρ) (B : Bypass edge X G W) (hC : Consistent cross edge)
    (hC' : Consistent cross' edge') {d : Dart} (hd : d ∈ D edge') :
    nd cross edge (fin W τ d) = beg W τ (nd cross' edge' d) := by
  have hn := (injOn_nd hC').maps _ hd
  apply begp_inj hC ((injOn_nd hC).maps _ (h.dart_mem B hd).2) (h.dart_mem B hn).1
  rw [begp_nd hC (h.dart_mem B hd).2, ← (h.dart_ends hd).2, ← (h.dart_ends hn).1, begp_nd hC' hd, place_turn]

/-- A set of faces which agrees along the strands is a set of faces of the second diagram. -/
theorem faceFn (h : Erased cross edge X G W cross' edge' τ σ ρ) (B : Bypass edge X G W) (hC : Consistent cross edge)
    (hC' : Consistent cross' edge') {f : Dart → K} (hf : FaceFn cross edge f)
    (hW : ∀ p ∈ W, f (p.2, .pos) = f (p.1, .pos) ∧ f (p.2, .neg) = f (p.1, .neg)) :
    FaceFn cross' edge' (fun d => f (τ d.1, d.2)) := by
  have hl : ∀ e, f (lastOf W e, .pos) = f (e, .pos) ∧ f (lastOf W e, .neg) = f (e, .neg) := by
    intro e
    by_cases hm : e ∈ W.map (·.1)
    · obtain ⟨p, hp, rfl⟩ := List.mem_map.mp hm
      rw [lastOf_mem B.fst (show (p.1, p.2) ∈ W from hp)]
      exact hW p hp
    · rw [lastOf_not hm]
      exact ⟨rfl, rfl⟩
  have hb : ∀ d ∈ D edge', f (beg W τ d) = f (τ d.1, d.2) ∧ f (fin W τ d) = f (τ d.1, d.2) := by
    intro d hd
    unfold beg fin
    rcases (mem_D.mp hd).2 with h2 | h2
    · simp only [h2, if_true]
      exact ⟨trivial, (hl _).1⟩
    · simp only [h2, reduceCtorEq, if_false]
      exact ⟨(hl _).2, trivial⟩
  intro d hd
  have hn := (injOn_nd hC').maps _ hd
  simp only
  rw [← (hb _ hn).1, ← h.nd_fin B hC hC' hd, hf _ (h.dart_mem B hd).2, (hb _ hd).2]

/-- What is written at a place, from the first diagram. -/
theorem eslot_first (h : Erased cross edge X G W cross' edge' τ σ ρ) {p : Nat × Nat} (hp : p ∈ P cross') :
    τ (eslot cross' p) = firstOf W (eslot cross (place σ ρ p)) := by
  obtain ⟨d, k⟩ := p
  obtain ⟨h1, h2⟩ := mem_P.mp hp
  simp only at h1 h2
  obtain ⟨x, x1, -, x3⟩ := h.cross d cross'[d] (List.getElem?_eq_getElem h1)
  obtain ⟨q1, q2⟩ := List.getElem?_eq_some_iff.mp x1
  have e1 : eslot cross' (d, k) = cross'[d].at k := eslot_of_slot (slot_of_lt h1 h2)
  have e2 : eslot cross (place σ ρ (d, k)) = x.at (k + ρ d) := by
    refine eslot_of_slot ?_
    unfold place
    rw [slot_of_lt q1 (Nat.mod_lt _ (by decide)), q2, ← at_lt]
  rw [e1, e2]
  exact (x3 k).2

/-- Sums around a crossing that stays. -/
theorem sum_kept (h : Erased cross edge X G W cross' edge' τ σ ρ) {z z' : Nat → K} (hz : ∀ f, f < edge'.length → z (τ f) = z' f)
    (hC' : Consistent cross' edge') (hf : ∀ e, z (firstOf W e) = z e) {d : Nat} (hd : d < cross'.length) :
    z' (eslot cross' (d, 0)) + z' (eslot cross' (d, 1)) + z' (eslot cross' (d, 2)) + z' (eslot cross' (d, 3)) =
    z (eslot cross (σ d, 0)) + z (eslot cross (σ d, 1)) + z (eslot cross (σ d, 2)) + z (eslot cross (σ d, 3)) := by
  have key : ∀ k, k < 4 → z' (eslot cross' (d, k)) = z (eslot cross (σ d, (k + ρ d) % 4)) := by
    intro k hk
    have hp : (d, k) ∈ P cross' := mem_P.mpr ⟨hd, hk⟩
    rw [← hz _ (eslot_lt hC' hp), h.eslot_first hp, hf]
    rfl
  rw [key 0 (by decide), key 1 (by decide), key 2 (by decide), key 3 (by decide)]
  have : ρ d % 4 < 4 := Nat.mod_lt _ (by decide)
  rw [show (0 + ρ d) % 4 = ρ d % 4 by omega, show (1 + ρ d) % 4 = (1 + ρ d % 4) % 4 by omega,
    show (2 + ρ d) % 4 = (2 + ρ d % 4) % 4 by omega, show (3 + ρ d) % 4 = (3 + ρ d % 4) % 4 by omega]
  generalize ρ d % 4 = r at this
  match r, this with
  | 0, _ => rfl
  | 1, _ => simp only [Nat.reduceAdd, Nat.reduceMod]; ring
  | 2, _ => simp only [Nat.reduceAdd, Nat.reduceMod]; ring
  | 3, _ => simp only [Nat.reduceAdd, Nat.reduceMod]; ring

theorem first_eq {α : Type} (B : Bypass edge X G W) {z : Nat → α} (hz : ∀ p ∈ W, z p.2 = z p.1) (e : Nat) : z (firstOf W e) = z e := by
  by_cases hm : e ∈ W.map (·.2)
  · obtain ⟨p, hp, rfl⟩ := List.mem_map.mp hm
    rw [firstOf_mem B.snd (show (p.1, p.2) ∈ W from hp), hz p hp]
  · rw [firstOf_not hm]

/-- A cycle of the second diagram, continued along the strands, is a cycle of the first. -/
theorem lift_cycle (h : Erased cross edge X G W cross' edge' τ σ ρ) (B : Bypass edge X G W) (hC : Consistent cross edge)
    (hC' : Consistent cross' edge') (hO : Oriented cross edge) {z z' : Nat → K} (hz : ∀ f, f < edge'.length → z (τ f) = z' f)
    (hW : ∀ p ∈ W, z p.2 = z p.1)
    (hX : ∀ e, e < edge.length → (hd edge[e]!).1 ∈ X → z (Comps.nx cross edge e) = z e) (hz' : IsCycle cross' edge' z') :
    IsCycle cross edge z := by
  rw [isCycle_iff hC]
  rw [isCycle_iff hC'] at hz'
  intro c hc
  by_cases hcX : c ∈ X
  · have opp : ∀ k, k < 4 → z (eslot cross (turn 2 (c, k))) = z (eslot cross (c, k)) := by
      intro k hk
      have hp : (c, k) ∈ P cross := mem_P.mpr ⟨hc, hk⟩
      have hlt := eslot_lt hC hp
      rcases ends_at hC hp with e | e
      · have := hX _ hlt (by rw [e]; exact hcX)
        unfold Comps.nx at this
        rwa [e] at this
      · have hp2 := turn_mem 2 hp
        have hlt2 := eslot_lt hC hp2
        rcases ends_at hC hp2 with e2 | e2
        · have := hX _ hlt2 (by rw [e2]; exact hcX)
          unfold Comps.nx at this
          rw [e2, turn_turn hp 2 2 (by decide)] at this
          exact this.symm
        · -- two tails opposite to each other
          obtain ⟨g, s, b1, b2, b3⟩ := hO.through_tail (eslot cross (c, k)) edge[eslot cross (c, k)]! (by simp [hlt])
          have hs := hC.head g s b1
          have e' : (edge[eslot cross (c, k)]!.tail, edge[eslot cross (c, k)]!.tailpos) = (c, k) := e
          rw [Prod.mk.injEq] at e'
          rw [b2, b3, e'.1, e'.2] at hs
          have hg : eslot cross (turn 2 (c, k)) = g := eslot_of_slot hs
          rw [hg] at e2 hlt2
          have hsg : edge[g]! = s := (getBang b1).1
          have hne := hC.ends_ne g s b1
          rw [hsg] at e2
          refine absurd ?_ hne
          have : tl s = turn 2 (c, k) := e2
          show hd s = tl s
          rw [this]
          unfold hd turn
          rw [b2, b3, e'.1, e'.2]
    have o0 := opp 0 (by decide)
    have o1 := opp 1 (by decide)
    simp only [turn, Nat.reduceAdd, Nat.reduceMod] at o0 o1
    rw [o0, o1]
    have := CharTwo.add_self_eq_zero (z (eslot cross (c, 0)) + z (eslot cross (c, 1)))
    rw [← this]
    ring
  · obtain ⟨d, d1, rfl⟩ := h.sonto c hc hcX
    rw [← h.sum_kept hz hC' (first_eq B hW) d1]
    exact hz' d d1

/-- If cycles bound in the first diagram and every cycle can be continued so that what it bounds is the same on both ends of each
strand, cycles bound in the second. -/
theorem exact (h : Erased cross edge X G W cross' edge' τ σ ρ) (B : Bypass edge X G W) (hC : Consistent cross edge)
    (hC' : Consistent cross' edge') (hO : Oriented cross edge) (hE : Exact cross edge)
    (hL : ∀ z' : Nat → K, ∃ z : Nat → K, (∀ f, f < edge'.length → z (τ f) = z' f) ∧ (∀ p ∈ W, z p.2 = z p.1) ∧
      (∀ e, e < edge.length → (hd edge[e]!).1 ∈ X → z (Comps.nx cross edge e) = z e) ∧
      ∀ f, FaceFn cross edge f → (∀ e, e < edge.length → z e = f (e, .pos) + f (e, .neg)) →
        ∀ p ∈ W, f (p.2, .pos) = f (p.1, .pos)) : Exact cross' edge' := by
  intro z' hz'
  obtain ⟨z, z1, z2, z3, z4⟩ := hL z'
  obtain ⟨f, f1, f2⟩ := hE z (h.lift_cycle B hC hC' hO z1 z2 z3 hz')
  have hpos := z4 f f1 f2
  refine ⟨_, h.faceFn B hC hC' f1 (fun p hp => ⟨hpos p hp, ?_⟩), ?_⟩
  · have e1 := z2 p hp
    rw [f2 _ (B.lt p hp).1, f2 _ (B.lt p hp).2, hpos p hp] at e1
    exact add_left_cancel e1
  · intro e he
    simp only
    rw [← z1 e he, f2 _ (h.tlt e he).1]

/-- If what is at the ends of the strands is always the same, the second diagram is connected, too. -/
theorem connected (h : Erased cross edge X G W cross' edge' τ σ ρ) (B : Bypass edge X G W)
    (hcon : Connected cross edge)
    (hW : ∀ g : Nat → Prop, (∀ r ∈ edge', g r.head ↔ g r.tail) → ∃ v : Prop, ∀ f, f < edge'.length → τ f ∈ W.map (·.1) →
      (g edge'[f]!.tail ↔ v)) : Connected cross' edge' := by
  apply connected_of
  intro g hg c d hc hd hgc
  obtain ⟨v, hv⟩ := hW g hg
  let g0 : Nat → Prop := fun x => (∃ d, d < cross'.length ∧ σ d = x ∧ g d) ∨ (x ∈ X ∧ v)
  have hX : ∀ x, x ∈ X → (g0 x ↔ v) := by
    intro x hx
    constructor
    · rintro (⟨d, d1, rfl, -⟩ | h1)
      · exact absurd hx (h.slt d d1).2
      · exact h1.2
    · exact fun h1 => .inr ⟨hx, h1⟩
  have hS : ∀ d, d < cross'.length → (g0 (σ d) ↔ g d) := by
    intro d hd
    constructor
    · rintro (⟨d', d1, d2, d3⟩ | h1)
      · rw [h.sinj _ _ d1 hd d2] at d3
        exact d3
      · exact absurd h1.1 (h.slt d hd).2
    · exact fun h1 => .inl ⟨d, hd, rfl, h1⟩
  have hg0 : ∀ r ∈ edge, g0 r.head ↔ g0 r.tail := by
    intro r hr
    obtain ⟨e, he, hre⟩ := List.getElem_of_mem hr
    have hre' : edge[e]? = some r := by rw [List.getElem?_eq_getElem he, hre]
    have ht := B.tail e r hre'
    have hh := B.head e r hre'
    -- the new edge
    have new : ∀ f, f < edge'.length → ∃ r' ∈ edge', edge'[f]! = r' ∧ r'.tail < cross'.length ∧ r'.head < cross'.length ∧
        (∀ s, edge[τ f]? = some s → σ r'.tail = s.tail) ∧ ∀ s, edge[lastOf W (τ f)]? = some s → σ r'.head = s.head := by
      intro f hf
      obtain ⟨p1, p2, p3, p4, s, q, a1, a2, a3, a4, a5, a6⟩ := h.edge f _ (List.getElem?_eq_getElem hf)
      refine ⟨_, List.getElem_mem hf, by simp [hf], p3, p1, ?_, ?_⟩
      · intro s' hs'
        rw [a1] at hs'
        cases hs'
        exact a3
      · intro s' hs'
        rw [a2] at hs'
        cases hs'
        exact a5
    by_cases h1 : r.tail ∈ X
    · rw [hX _ h1]
      by_cases h2 : r.head ∈ X
      · rw [hX _ h2]
      · rcases hh.mp h2 with h3 | h3
        · exact absurd (ht.mp h1) h3.1
        · obtain ⟨p, hp, rfl⟩ := List.mem_map.mp h3
          obtain ⟨f, f1, f2⟩ := h.tonto p.1 (B.lt p hp).1 (B.kept p hp)
          obtain ⟨r', r1, r2, r3, r4, r5, r6⟩ := new f f1
          rw [f2, lastOf_mem B.fst (show (p.1, p.2) ∈ W from hp)] at r6
          rw [← r6 r hre', hS _ r4, hg r' r1, ← r2]
          exact hv f f1 (by rw [f2]; exact List.mem_map_of_mem hp)
    · have hG : e ∉ G := fun hg' => h1 (ht.mpr hg')
      obtain ⟨f, f1, f2⟩ := h.tonto e he hG
      obtain ⟨r', r1, r2, r3, r4, r5, r6⟩ := new f f1
      rw [f2] at r5 r6
      rw [← r5 r hre', hS _ r3]
      by_cases h2 : r.head ∈ X
      · rw [hX _ h2, ← r2]
        have h3 : e ∈ W.map (·.1) := by
          by_contra hn
          exact (hh.mpr (.inl ⟨hG, hn⟩)) h2
        exact (hv f f1 (by rw [f2]; exact h3)).symm
      · have h3 : e ∉ W.map (·.1) := by
          rcases hh.mp h2 with h3 | h3
          · exact h3.2
          · obtain ⟨p, hp, rfl⟩ := List.mem_map.mp h3
            exact absurd (B.gone p hp) hG
        rw [lastOf_not h3] at r6
        rw [← r6 r hre', hS _ r4]
        exact hg r' r1
  have := connected_prop hcon hg0 (h.slt c hc).1 (h.slt d hd).1
  rw [hS c hc, hS d hd] at this
  exact this.mp hgc

end Erased

end Plc
