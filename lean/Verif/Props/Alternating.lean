import Verif.Model.Query
import Verif.Proofs.Checker
import Verif.Props.Ewing

/-! # C61: alternating diagrams -/

namespace Plc

open Plc.Cmp Plc.Strands Plc.Ewing Plc.Query Plc.Planar

/-- Every edge goes from an overpass to an underpass or from an underpass to an overpass. -/
def Alternating (cross : List Cross) (edge : List Edge) : Prop :=
  ∀ r ∈ edge, OverLeaves cross edge r.tail r.tailpos ↔ ¬ OverLeaves cross edge r.head ((r.headpos + 2) % 4)

namespace Query

variable {cross : List Cross} {edge : List Edge}

/-- At each crossing: where strands go in and out. -/
theorem places (hC : Consistent cross edge) (hO : Oriented cross edge) {c : Nat} (hc : c < cross.length) :
    ∃ u, overUnder cross edge c = .ok u ∧ u.overOut < 4 ∧ u.underOut < 4 ∧ u.overIn = (u.overOut + 2) % 4 ∧
      u.underIn = (u.underOut + 2) % 4 ∧ u.overOut % 2 ≠ u.underOut % 2 ∧
      (∀ k, GoesOut cross edge c k → k = u.overOut ∨ k = u.underOut) ∧
      (∀ k, GoesOut cross edge c k → (OverLeaves cross edge c k ↔ k = u.overOut)) := by
  have hx := List.getElem?_eq_getElem hc
  obtain ⟨u, u1, u2, u3, u4, u5, u6, u7, u8, u9, u10⟩ := C26_overunder cross edge hC hO c _ hx
  have hpar : u.overOut % 2 ≠ u.underOut % 2 := by
    rw [u10]
    split <;> omega
  have out : ∀ k, GoesOut cross edge c k → k = u.overOut ∨ k = u.underOut := by
    intro k hk
    have hk4 : k < 4 := by
      obtain ⟨e, r, s1, -⟩ := hk
      exact (slot_lt s1).2
    by_contra h
    have : k = u.overIn ∨ k = u.underIn := by omega
    rcases this with rfl | rfl
    · exact not_both hC u6 hk
    · exact not_both hC u8 hk
  refine ⟨u, u1, by omega, by omega, by omega, by omega, hpar, out, ?_⟩
  intro k hk
  constructor
  · rintro ⟨h1, -, x, h2, h3⟩
    rw [hx] at h2
    cases h2
    rcases out k hk with h | h
    · exact h
    · exfalso
      subst h
      rcases out _ h3 with h | h
      · split at h <;> rename_i hs <;> simp only [hs, if_true, if_false] at u10 <;> omega
      · split at h <;> omega
  · rintro rfl
    exact ⟨by omega, hk, _, hx, by rw [← u10]; exact u9⟩

/-- The parity of the place where the overstrand leaves. -/
def par (cross : List Cross) (edge : List Edge) (c : Nat) : K :=
  match overUnder cross edge c with
  | .ok u => (u.overOut : K)
  | .error _ => 0

theorem cast_eq {a b : Nat} : (a : K) = (b : K) ↔ a % 2 = b % 2 := by
  rw [ZMod.natCast_eq_natCast_iff]
  rfl

theorem odd_iff {a b c d : Nat} : (a : K) + (b : K) + (c : K) + (d : K) = 1 ↔ ((a % 2 = b % 2) ↔ ¬ (c % 2 = d % 2)) := by
  have : (a : K) + (b : K) + (c : K) + (d : K) = ((a + b + c + d : Nat) : K) := by push_cast; ring
  rw [this, show (1 : K) = ((1 : Nat) : K) by simp, cast_eq]
  omega

theorem edge_ok (hC : Consistent cross edge) (hO : Oriented cross edge) {e : Nat} {r : Edge} (hr : edge[e]? = some r) :
    ∃ b, edgeAlternates cross edge e = .ok b ∧
      (b = true ↔ (OverLeaves cross edge r.tail r.tailpos ↔ ¬ OverLeaves cross edge r.head ((r.headpos + 2) % 4))) ∧
      (b = true ↔ par cross edge r.tail + (r.tailpos : K) + par cross edge r.head + (r.headpos : K) = 1) := by
  have ht := hC.tail e r hr
  have hh := hC.head e r hr
  obtain ⟨u, u1, u2, u3, u4, u5, u6, u7, u8⟩ := places hC hO (slot_lt ht).1
  obtain ⟨v, v1, v2, v3, v4, v5, v6, v7, v8⟩ := places hC hO (slot_lt hh).1
  have gt : GoesOut cross edge r.tail r.tailpos := ⟨e, r, ht, hr, rfl, rfl⟩
  have gh : GoesOut cross edge r.head ((r.headpos + 2) % 4) := in_opp hC hO ⟨e, r, hh, hr, rfl, rfl⟩
  have hh4 := (slot_lt hh).2
  have p1 : par cross edge r.tail = (u.overOut : K) := by rw [par, u1]
  have p2 : par cross edge r.head = (v.overOut : K) := by rw [par, v1]
  rw [u8 _ gt, v8 _ gh, p1, p2, odd_iff]
  have a1 := u7 _ gt
  have a2 := v7 _ gh
  unfold edgeAlternates
  rw [rd_ok hr, ok_bind]
  unfold understrandPos overstrandPos
  rw [u1, v1]
  simp only [ok_bind]
  by_cases h1 : u.underOut = r.tailpos
  · rw [if_pos h1]
    by_cases h2 : v.underIn = r.headpos
    · rw [if_pos h2]
      exact ⟨false, rfl, by simp; omega, by simp; omega⟩
    · rw [if_neg h2, if_neg (by omega)]
      exact ⟨true, rfl, by simp; omega, by simp; omega⟩
  · rw [if_neg h1, if_pos (by omega)]
    by_cases h2 : v.overIn = r.headpos
    · rw [if_pos h2]
      exact ⟨false, rfl, by simp; omega, by simp; omega⟩
    · rw [if_neg h2, if_neg (by omega)]
      exact ⟨true, rfl, by simp; omega, by simp; omega⟩

theorem edges_ok (hC : Consistent cross edge) (hO : Oriented cross edge) {Q : Nat → Prop}
    (hQ : ∀ e < edge.length, ∃ b, edgeAlternates cross edge e = .ok b ∧ (b = true ↔ Q e)) : ∀ l : List Nat, (∀ e ∈ l, e < edge.length) →
    ∃ b, edgesAlternate cross edge l = .ok b ∧ (b = true ↔ ∀ e ∈ l, Q e)
  | [], _ => ⟨true, rfl, by simp⟩
  | e :: l, h => by
    obtain ⟨b, b1, b2⟩ := hQ e (h e (by simp))
    obtain ⟨c, c1, c2⟩ := edges_ok hC hO hQ l (fun x hx => h x (by simp [hx]))
    rw [edgesAlternate, b1, ok_bind]
    cases b with
    | false => exact ⟨false, rfl, by simpa using fun h => absurd (b2.mpr h) (by simp)⟩
    | true =>
      refine ⟨c, c1, ?_⟩
      rw [c2]
      simp [b2.mp rfl]

theorem comps_ok (hC : Consistent cross edge) (hO : Oriented cross edge) {Q : Nat → Prop}
    (hQ : ∀ e < edge.length, ∃ b, edgeAlternates cross edge e = .ok b ∧ (b = true ↔ Q e)) : ∀ l : List Comp,
    (∀ k ∈ l, ∀ e ∈ k.edge, e < edge.length) →
    ∃ b, compsAlternate cross edge l = .ok b ∧ (b = true ↔ ∀ k ∈ l, ∀ e ∈ k.edge, Q e)
  | [], _ => ⟨true, rfl, by simp⟩
  | k :: l, h => by
    obtain ⟨b, b1, b2⟩ := edges_ok hC hO hQ k.edge (h k (by simp))
    obtain ⟨c, c1, c2⟩ := comps_ok hC hO hQ l (fun x hx => h x (by simp [hx]))
    rw [compsAlternate, b1, ok_bind]
    cases b with
    | false => exact ⟨false, rfl, by simpa using fun h => absurd (b2.mpr h) (by simp)⟩
    | true =>
      refine ⟨c, c1, ?_⟩
      rw [c2]
      simp only [List.mem_cons, forall_eq_or_imp]
      exact ⟨fun h => ⟨b2.mp rfl, h⟩, fun h => h.2⟩

theorem alternating_ok (hC : Consistent cross edge) (hO : Oriented cross edge) {comps : List Comp}
    (hs : ∀ c ∈ cross, c.sign ≠ .unset) (hK : ∀ e, (∃ k ∈ comps, e ∈ k.edge) ↔ e < edge.length) :
    ∃ b, isAlternating cross edge comps = .ok b ∧ (b = true ↔ Alternating cross edge) ∧
      (b = true ↔ ∀ r ∈ edge, par cross edge r.tail + (r.tailpos : K) + par cross edge r.head + (r.headpos : K) = 1) := by
  have hany : cross.any (fun c => c.sign = .unset) = false := by
    rw [List.any_eq_false]
    intro c hc
    simpa using hs c hc
  unfold isAlternating
  rw [hany, if_neg (by simp)]
  have hin : ∀ k ∈ comps, ∀ e ∈ k.edge, e < edge.length := fun k hk e he => (hK e).mp ⟨k, hk, he⟩
  obtain ⟨b, b1, b2⟩ := comps_ok hC hO (Q := fun e => ∀ r, edge[e]? = some r →
      (OverLeaves cross edge r.tail r.tailpos ↔ ¬ OverLeaves cross edge r.head ((r.headpos + 2) % 4))) (by
    intro e he
    obtain ⟨b, b1, b2, -⟩ := edge_ok hC hO (List.getElem?_eq_getElem he)
    refine ⟨b, b1, ?_⟩
    rw [b2, List.getElem?_eq_getElem he]
    simp) comps hin
  obtain ⟨c, c1, c2⟩ := comps_ok hC hO (Q := fun e => ∀ r, edge[e]? = some r →
      par cross edge r.tail + (r.tailpos : K) + par cross edge r.head + (r.headpos : K) = 1) (by
    intro e he
    obtain ⟨b, b1, -, b2⟩ := edge_ok hC hO (List.getElem?_eq_getElem he)
    refine ⟨b, b1, ?_⟩
    rw [b2, List.getElem?_eq_getElem he]
    simp) comps hin
  rw [b1] at c1
  cases c1
  have all : ∀ Q : Edge → Prop, (∀ k ∈ comps, ∀ e ∈ k.edge, ∀ r, edge[e]? = some r → Q r) ↔ ∀ r ∈ edge, Q r := by
    intro Q
    constructor
    · intro h r hr
      obtain ⟨e, he⟩ := List.mem_iff_getElem?.mp hr
      obtain ⟨k, hk, hke⟩ := (hK e).mpr (List.getElem?_eq_some_iff.mp he).1
      exact h k hk e hke r he
    · intro h k _ e _ r hr
      exact h r (List.mem_of_getElem? hr)
  refine ⟨b, b1, ?_, ?_⟩
  · rw [b2, all]
    rfl
  · rw [c2, all]

/-- The same crossings with other signs. -/
def withSigns (τ : Nat → Or) (cross : List Cross) : List Cross := cross.mapIdx (fun i x => { x with sign := τ i })

theorem withSigns_get (τ : Nat → Or) (cross : List Cross) (c : Nat) :
    (withSigns τ cross)[c]? = cross[c]?.map (fun x => { x with sign := τ c }) := by
  unfold withSigns
  rw [List.getElem?_mapIdx]

theorem slot_withSigns (τ : Nat → Or) (c k : Nat) : slot (withSigns τ cross) c k = slot cross c k := by
  unfold slot
  split
  · rw [withSigns_get, Option.map_map]
    rfl
  · rfl

theorem consistent_withSigns (τ : Nat → Or) (hC : Consistent cross edge) : Consistent (withSigns τ cross) edge :=
  ⟨by rw [withSigns, List.length_mapIdx]; exact hC.count, fun e r h => by rw [slot_withSigns]; exact hC.head e r h,
    fun e r h => by rw [slot_withSigns]; exact hC.tail e r h, hC.ends_ne⟩

theorem comesIn_withSigns (τ : Nat → Or) (c k : Nat) : ComesIn (withSigns τ cross) edge c k ↔ ComesIn cross edge c k := by
  unfold ComesIn
  simp only [slot_withSigns]

theorem par_withSigns (hC : Consistent cross edge) {τ σ : Nat → Or} {c : Nat} (hc : c < cross.length) (h1 : τ c ≠ .unset)
    (h2 : σ c ≠ .unset) : par (withSigns τ cross) edge c = par (withSigns σ cross) edge c + if τ c = σ c then 0 else 1 := by
  have hx := List.getElem?_eq_getElem hc
  unfold par
  rw [overUnder_eq (consistent_withSigns τ hC) (by rw [withSigns_get, hx]; rfl),
    overUnder_eq (consistent_withSigns σ hC) (by rw [withSigns_get, hx]; rfl)]
  simp only [comesIn_withSigns]
  cases hτ : τ c <;> cases hσ : σ c <;> simp only [hτ, hσ, ne_eq, not_true_eq_false] at h1 h2 <;>
    by_cases d0 : ComesIn cross edge c 0 <;> by_cases d1 : ComesIn cross edge c 1 <;> simp only [d0, d1, decide_true, decide_false, ouTable] <;>
    decide

end Query

/-- C61. On a diagram with all signs set `pd_is_alternating` decides whether overpasses and underpasses alternate along every edge. -/
theorem C61_alternating (cross : List Cross) (edge : List Edge) (comps : List Comp) (hC : Consistent cross edge)
    (hO : Oriented cross edge) (hs : ∀ c ∈ cross, c.sign ≠ .unset) (hK : ∀ e, (∃ k ∈ comps, e ∈ k.edge) ↔ e < edge.length) :
    ∃ b, isAlternating cross edge comps = .ok b ∧ (b = true ↔ Alternating cross edge) := by
  obtain ⟨b, b1, b2, -⟩ := alternating_ok hC hO hs hK
  exact ⟨b, b1, b2⟩

/-- C61. If a sign is not set the program exits. -/
theorem C61_unset_dies (cross : List Cross) (edge : List Edge) (comps : List Comp) (hs : ∃ c ∈ cross, c.sign = .unset) :
    isAlternating cross edge comps = .error .die := by
  unfold isAlternating
  rw [if_pos]
  rw [List.any_eq_true]
  obtain ⟨c, h1, h2⟩ := hs
  exact ⟨c, h1, by simpa using h2⟩

/-- C61. Every plane diagram can be made alternating by setting the signs, in exactly two ways, which are opposite to each other. -/
theorem C61_two_ways (cross : List Cross) (edge : List Edge) (comps : List Comp) (h : PlaneDiagram cross edge)
    (hK : ∀ e, (∃ k ∈ comps, e ∈ k.edge) ↔ e < edge.length) :
    ∃ σ : Nat → Or, (∀ c, σ c ≠ .unset) ∧ ∀ τ : Nat → Or, (∀ c < cross.length, τ c ≠ .unset) →
      ∃ b, isAlternating (withSigns τ cross) edge comps = .ok b ∧
        (b = true ↔ (∀ c < cross.length, τ c = σ c) ∨ (∀ c < cross.length, τ c ≠ σ c)) := by
  have hC := h.consistent
  obtain ⟨col, hcol⟩ := chessboard h
  let P := withSigns (fun _ => .pos) cross
  let σ : Nat → Or := fun c => if par P edge c = col c then .pos else .neg
  have hσ : ∀ c, σ c ≠ .unset := by
    intro c
    simp only [σ]
    split <;> simp
  have hpar : ∀ τ : Nat → Or, ∀ c < cross.length, τ c ≠ .unset →
      par (withSigns τ cross) edge c = col c + if τ c = σ c then 0 else 1 := by
    intro τ c hc hτ
    rw [par_withSigns hC (σ := fun _ => .pos) hc hτ (by simp)]
    change par P edge c + _ = _
    by_cases hp : par P edge c = col c
    · have e : σ c = .pos := if_pos hp
      rw [hp]
      simp only [e]
    · have e : σ c = .neg := if_neg hp
      have e' : par P edge c = col c + 1 := by
        clear * - hp
        generalize par P edge c = x at *
        generalize col c = y at *
        revert x y; decide
      rw [e']
      simp only [e]
      generalize col c = y
      cases hc : τ c with
      | unset => exact absurd hc hτ
      | pos => simp
      | neg => revert y; decide
  refine ⟨σ, hσ, fun τ hτ => ?_⟩
  have hO : Oriented (withSigns τ cross) edge := ⟨h.oriented.through_head, h.oriented.through_tail⟩
  obtain ⟨b, b1, -, b2⟩ := alternating_ok (consistent_withSigns τ hC) hO (comps := comps) (by
    intro x hx
    obtain ⟨c, hc⟩ := List.mem_iff_getElem?.mp hx
    rw [withSigns_get] at hc
    obtain ⟨y, hy, rfl⟩ := Option.map_eq_some_iff.mp hc
    exact hτ c (List.getElem?_eq_some_iff.mp hy).1) hK
  refine ⟨b, b1, ?_⟩
  rw [b2]
  have ends : ∀ r ∈ edge, r.head < cross.length ∧ r.tail < cross.length := by
    intro r hr
    obtain ⟨e, he⟩ := List.mem_iff_getElem?.mp hr
    exact ⟨(slot_lt (hC.head e r he)).1, (slot_lt (hC.tail e r he)).1⟩
  let g : Nat → K := fun c => if τ c = σ c then 0 else 1
  have key : (∀ r ∈ edge, par (withSigns τ cross) edge r.tail + (r.tailpos : K) + par (withSigns τ cross) edge r.head + (r.headpos : K) = 1)
      ↔ ∀ r ∈ edge, g r.head = g r.tail := by
    refine forall₂_congr fun r hr => ?_
    obtain ⟨e1, e2⟩ := ends r hr
    rw [hpar τ _ e1 (hτ _ e1), hpar τ _ e2 (hτ _ e2)]
    have := hcol r hr
    change col r.tail + g r.tail + _ + (col r.head + g r.head) + _ = 1 ↔ _
    generalize g r.tail = x
    generalize g r.head = y
    generalize (r.tailpos : K) = z at *
    generalize (r.headpos : K) = w at *
    generalize col r.tail = p at *
    generalize col r.head = q at *
    clear * - this
    revert x y z w p q
    decide
  rw [key]
  constructor
  · intro hg
    obtain ⟨x, hx⟩ := List.exists_mem_of_ne_nil _ h.nonempty
    obtain ⟨c0, hc0⟩ := List.mem_iff_getElem?.mp hx
    have hc0 := (List.getElem?_eq_some_iff.mp hc0).1
    have hconst := fun c hc => const_of_joined h.connected hg (c := c) hc hc0
    by_cases h0 : τ c0 = σ c0
    · left
      intro c hc
      by_contra hne
      have := hconst c hc
      simp only [g, if_neg hne, if_pos h0] at this
      exact absurd this (by decide)
    · right
      intro c hc he
      have := hconst c hc
      simp only [g, if_pos he, if_neg h0] at this
      exact absurd this (by decide)
  · rintro (hall | hall)
    · intro r hr
      obtain ⟨e1, e2⟩ := ends r hr
      simp only [g, if_pos (hall _ e1), if_pos (hall _ e2)]
    · intro r hr
      obtain ⟨e1, e2⟩ := ends r hr
      simp only [g, if_neg (hall _ e1), if_neg (hall _ e2)]

/-! ### Examples -/

/-- A trefoil with equal signs is alternating, one with a changed sign is not. -/
example : isAlternating (trefoilCross .neg) trefoilEdge [⟨[0, 1, 2, 3, 4, 5], 65⟩] = .ok true ∧
    isAlternating (withSigns (fun c => if c = 0 then .pos else .neg) (trefoilCross .neg)) trefoilEdge [⟨[0, 1, 2, 3, 4, 5], 65⟩] = .ok false := by
  decide

end Plc
