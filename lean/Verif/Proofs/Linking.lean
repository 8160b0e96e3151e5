import Verif.Model.Strands
import Verif.Props.Comps
import Verif.Props.Strands
import Mathlib.Algebra.BigOperators.Group.Finset.Basic
import Mathlib.Algebra.BigOperators.Group.List.Basic
import Mathlib.Algebra.BigOperators.Ring.Finset
import Mathlib.Algebra.Order.BigOperators.Group.List
import Mathlib.Data.Int.Order.Basic

namespace Plc

open Plc.Cmp

/-- The components of a diagram: together they list every edge once, and each is closed under
going straight on. -/
structure CompsOf (cross : List Cross) (edge : List Edge) (comps : List Comp) : Prop where
  all : (comps.flatMap (·.edge)).Perm (List.range edge.length)
  closed : ∀ c ∈ comps, ∀ e e', e ∈ c.edge → Follows cross edge e e' → e' ∈ c.edge

namespace Strands

open Plc.Core Plc.Cmp

/-! ### Looking up the component of an edge -/

theorem findPos_spec (e : Nat) : ∀ (l : List Nat) (i : Nat),
    (e ∈ l → ∃ p, findPos e l i = some p) ∧ (e ∉ l → findPos e l i = none)
  | [], _ => by simp [findPos]
  | x :: l, i => by
    unfold findPos
    have ih := findPos_spec e l (i + 1)
    constructor
    · intro h
      split
      · exact ⟨i, rfl⟩
      · rename_i hx
        exact ih.1 (by simpa [Ne.symm hx] using h)
    · intro h
      rw [List.mem_cons, not_or] at h
      rw [if_neg (Ne.symm h.1)]
      exact ih.2 h.2

theorem findComp_spec (e : Nat) : ∀ (l : List Comp) (i : Nat), (∃ c ∈ l, e ∈ c.edge) →
    ∃ (j p : Nat) (c : Comp), findComp e l i = .ok (i + j, p) ∧ l[j]? = some c ∧ e ∈ c.edge
  | [], _, h => by simp at h
  | c :: l, i, h => by
    unfold findComp
    by_cases hc : e ∈ c.edge
    · obtain ⟨p, hp⟩ := (findPos_spec e c.edge 0).1 hc
      rw [hp]
      exact ⟨0, p, c, rfl, rfl, hc⟩
    · rw [(findPos_spec e c.edge 0).2 hc]
      obtain ⟨j, p, c', h1, h2, h3⟩ := findComp_spec e l (i + 1) (by
        obtain ⟨d, hd, he⟩ := h
        rw [List.mem_cons] at hd
        rcases hd with rfl | hd
        · exact absurd he hc
        · exact ⟨d, hd, he⟩)
      refine ⟨j + 1, p, c', ?_, by simpa using h2, h3⟩
      simp only
      rw [h1]
      congr 2
      omega

section

variable {cross : List Cross} {edge : List Edge} {comps : List Comp}

theorem comp_unique (hK : CompsOf cross edge comps) {i j : Nat} {a b : Comp} (ha : comps[i]? = some a)
    (hb : comps[j]? = some b) {e : Nat} (h1 : e ∈ a.edge) (h2 : e ∈ b.edge) : i = j := by
  have hn : (comps.flatMap (·.edge)).Nodup := hK.all.nodup_iff.mpr List.nodup_range
  rw [List.nodup_flatMap] at hn
  have := List.pairwise_iff_getElem.mp hn.2
  obtain ⟨hi, rfl⟩ := List.getElem?_eq_some_iff.mp ha
  obtain ⟨hj, rfl⟩ := List.getElem?_eq_some_iff.mp hb
  rcases Nat.lt_trichotomy i j with h | h | h
  · exact absurd h2 (this i j hi hj h h1)
  · exact h
  · exact absurd h1 (this j i hj hi h h2)

theorem comp_nodup (hK : CompsOf cross edge comps) {c : Comp} (hc : c ∈ comps) : c.edge.Nodup := by
  have hn : (comps.flatMap (·.edge)).Nodup := hK.all.nodup_iff.mpr List.nodup_range
  rw [List.nodup_flatMap] at hn
  exact hn.1 c hc

theorem comp_lt (hK : CompsOf cross edge comps) {c : Comp} (hc : c ∈ comps) {e : Nat} (he : e ∈ c.edge) :
    e < edge.length :=
  List.mem_range.mp (hK.all.mem_iff.mp (List.mem_flatMap.mpr ⟨c, hc, he⟩))

theorem compAndPos_ok (hK : CompsOf cross edge comps) {e : Nat} (he : e < edge.length) :
    ∃ (j p : Nat) (c : Comp), compAndPos edge.length comps e = .ok (j, p) ∧ comps[j]? = some c ∧ e ∈ c.edge := by
  have := hK.all.mem_iff.mpr (List.mem_range.mpr he)
  rw [List.mem_flatMap] at this
  obtain ⟨j, p, c, h1, h2, h3⟩ := findComp_spec e comps 0 this
  refine ⟨j, p, c, ?_, h2, h3⟩
  unfold compAndPos
  rw [assertC_ok (by simpa using he), ok_bind, h1, Nat.zero_add]

/-! ### Crossings and their incoming edges -/

/-- The crossing at the head of an edge, the place, and the edge written next to it. -/
def hc (edge : List Edge) (e : Nat) : Nat := (edge[e]!).head
def hk (edge : List Edge) (e : Nat) : Nat := (edge[e]!).headpos
def othr (cross : List Cross) (edge : List Edge) (e : Nat) : Nat :=
  (slot cross (hc edge e) ((hk edge e + 1) % 4)).getD 0

variable (hC : Consistent cross edge) (hO : Oriented cross edge) (hK : CompsOf cross edge comps)

include hC hO in
/-- The two incoming edges of a crossing. -/
theorem incoming {c : Nat} (h : c < cross.length) : ∃ e0 e1 k0 k1, e0 < edge.length ∧ e1 < edge.length ∧
    hc edge e0 = c ∧ hc edge e1 = c ∧ hk edge e0 = k0 ∧ hk edge e1 = k1 ∧ k0 % 2 = 0 ∧ k1 % 2 = 1 ∧ k0 < 4 ∧ k1 < 4 ∧
    e0 ≠ e1 ∧ ∀ e, e < edge.length → hc edge e = c → e = e0 ∨ e = e1 := by
  have get : ∀ k, k < 4 → ComesIn cross edge c k → ∃ e, e < edge.length ∧ hc edge e = c ∧ hk edge e = k := by
    rintro k _ ⟨e, r, _, h2, h3, h4⟩
    obtain ⟨hlt, hr⟩ := List.getElem?_eq_some_iff.mp h2
    refine ⟨e, hlt, ?_, ?_⟩
    · unfold hc; rw [getElem!_pos edge e hlt, hr, h3]
    · unfold hk; rw [getElem!_pos edge e hlt, hr, h4]
  have one : ∀ k, k < 2 → ∃ e k', e < edge.length ∧ hc edge e = c ∧ hk edge e = k' ∧ (k' = k ∨ k' = k + 2) := by
    intro k hk2
    rcases in_or_out hC h (show k < 4 by omega) with h1 | h1
    · obtain ⟨e, a, b, d⟩ := get k (by omega) h1
      exact ⟨e, k, a, b, d, Or.inl rfl⟩
    · have := out_opp hC hO h1
      rw [Nat.mod_eq_of_lt (by omega)] at this
      obtain ⟨e, a, b, d⟩ := get (k + 2) (by omega) this
      exact ⟨e, k + 2, a, b, d, Or.inr rfl⟩
  have uniq : ∀ e e', e < edge.length → e' < edge.length → hc edge e = hc edge e' → hk edge e = hk edge e' →
      e = e' := by
    intro e e' he he' h1 h2
    have a := hC.head e edge[e] (List.getElem?_eq_getElem he)
    have b := hC.head e' edge[e'] (List.getElem?_eq_getElem he')
    unfold hc at h1
    unfold hk at h2
    rw [getElem!_pos edge e he, getElem!_pos edge e' he'] at h1 h2
    rw [h1, h2, b] at a
    simpa using a.symm
  obtain ⟨e0, k0, a1, a2, a3, a4⟩ := one 0 (by decide)
  obtain ⟨e1, k1, b1, b2, b3, b4⟩ := one 1 (by decide)
  refine ⟨e0, e1, k0, k1, a1, b1, a2, b2, a3, b3, by omega, by omega, by omega, by omega, ?_, ?_⟩
  · rintro rfl; omega
  · intro e he hec
    have hhe : ComesIn cross edge c (hk edge e) := by
      have hs := hC.head e edge[e] (List.getElem?_eq_getElem he)
      refine ⟨e, edge[e], ?_, List.getElem?_eq_getElem he, ?_, ?_⟩
      · unfold hk hc at *
        rw [getElem!_pos edge e he] at *
        rw [← hec]
        exact hs
      · unfold hc at hec; rwa [getElem!_pos edge e he] at hec
      · unfold hk; rw [getElem!_pos edge e he]
    have hk4 : hk edge e < 4 := by
      obtain ⟨_, _, h1, _⟩ := hhe
      exact (slot_lt h1).2
    have key : ∀ f kf, f < edge.length → hc edge f = c → hk edge f = kf → hk edge e % 2 = kf % 2 → e = f := by
      intro f kf hf hfc hfk hpar
      apply uniq e f he hf (by rw [hec, hfc])
      have hfin : ComesIn cross edge c kf := by
        have hs := hC.head f edge[f] (List.getElem?_eq_getElem hf)
        refine ⟨f, edge[f], ?_, List.getElem?_eq_getElem hf, ?_, ?_⟩
        · unfold hk hc at *
          rw [getElem!_pos edge f hf] at *
          rw [← hfc, ← hfk]
          exact hs
        · unfold hc at hfc; rwa [getElem!_pos edge f hf] at hfc
        · unfold hk at hfk; rwa [getElem!_pos edge f hf] at hfk
      have hkf4 : kf < 4 := by
        obtain ⟨_, _, h1, _⟩ := hfin
        exact (slot_lt h1).2
      by_contra hne
      have hopp := in_opp hC hO hfin
      have : (kf + 2) % 4 = hk edge e := by omega
      rw [this] at hopp
      exact not_both hC hhe hopp
    rcases Nat.mod_two_eq_zero_or_one (hk edge e) with hp | hp
    · exact Or.inl (key e0 k0 a1 a2 a3 (by omega))
    · exact Or.inr (key e1 k1 b1 b2 b3 (by omega))

include hC hO hK in
/-- Opposite edges of a crossing lie on the same component. -/
theorem opp_comp {c k e f : Nat} {K : Comp} (hKm : K ∈ comps) (he : slot cross c k = some e)
    (hf : slot cross c ((k + 2) % 4) = some f) : e ∈ K.edge ↔ f ∈ K.edge := by
  have dir : ∀ k e f, slot cross c k = some e → slot cross c ((k + 2) % 4) = some f → ComesIn cross edge c k →
      ∀ K ∈ comps, e ∈ K.edge → f ∈ K.edge := by
    intro k e f he hf hin K hKm hm
    obtain ⟨e', r, h1, h2, h3, h4⟩ := hin
    rw [he] at h1
    cases h1
    refine hK.closed K hKm e f hm ⟨r, h2, ?_⟩
    rw [h3, h4]
    exact hf
  have both : ∀ k e f, slot cross c k = some e → slot cross c ((k + 2) % 4) = some f → ComesIn cross edge c k →
      ∀ K ∈ comps, (e ∈ K.edge ↔ f ∈ K.edge) := by
    intro k e f he hf hin K hKm
    refine ⟨dir k e f he hf hin K hKm, ?_⟩
    intro hfm
    have hel := hC.slot_edge_lt he
    have := hK.all.mem_iff.mpr (List.mem_range.mpr hel)
    obtain ⟨K', hK', heK'⟩ := List.mem_flatMap.mp this
    have hfK' := dir k e f he hf hin K' hK' heK'
    obtain ⟨i, hi, rfl⟩ := List.getElem_of_mem hKm
    obtain ⟨j, hj, rfl⟩ := List.getElem_of_mem hK'
    have := comp_unique hK (List.getElem?_eq_getElem hi) (List.getElem?_eq_getElem hj) hfm hfK'
    subst this
    exact heK'
  have hlt := slot_lt he
  rcases in_or_out hC hlt.1 hlt.2 with h | h
  · exact both k e f he hf h K hKm
  · have := out_opp hC hO h
    refine (both _ f e hf ?_ this K hKm).symm
    rw [show ((k + 2) % 4 + 2) % 4 = k by have := hlt.2; omega]
    exact he

/-! ### The sums -/

/-- Position `k` of crossing `c` lies on component `K`. -/
def onComp (cross : List Cross) (K : Comp) (c k : Nat) : Bool :=
  match slot cross c k with
  | some e => decide (e ∈ K.edge)
  | none => false

theorem onComp_some {K : Comp} {c k e : Nat} (h : slot cross c k = some e) :
    (onComp cross K c k = true ↔ e ∈ K.edge) := by
  unfold onComp
  rw [h]
  simp

/-- Weight of a crossing. -/
def sg (cross : List Cross) (g : Or → Int) (c : Nat) : Int := ((cross[c]?).map (fun x => g x.sign)).getD 0

/-- Summand of an edge. -/
def wt (cross : List Cross) (edge : List Edge) (g : Or → Int) (B : Comp) (e : Nat) : Int :=
  if othr cross edge e ∈ B.edge then sg cross g (hc edge e) else 0

include hC in
theorem othr_slot {e : Nat} (he : e < edge.length) :
    slot cross (hc edge e) ((hk edge e + 1) % 4) = some (othr cross edge e) := by
  have hs := hC.head e edge[e] (List.getElem?_eq_getElem he)
  have hlt := slot_lt hs
  unfold othr hc hk
  rw [getElem!_pos edge e he, slot_of_lt hlt.1 (Nat.mod_lt _ (by decide))]
  rfl

include hC in
theorem hc_lt {e : Nat} (he : e < edge.length) : hc edge e < cross.length ∧ hk edge e < 4 ∧
    slot cross (hc edge e) (hk edge e) = some e := by
  have hs := hC.head e edge[e] (List.getElem?_eq_getElem he)
  have hlt := slot_lt hs
  unfold hc hk
  rw [getElem!_pos edge e he]
  exact ⟨hlt.1, hlt.2, hs⟩

include hC hO hK in
theorem fiber {A B : Comp} (hA : A ∈ comps) (hB : B ∈ comps) (g : Or → Int) {c : Nat} (h : c < cross.length) :
    ∑ e ∈ A.edge.toFinset with hc edge e = c, wt cross edge g B e =
      (if onComp cross A c 0 ∧ onComp cross B c 1 then sg cross g c else 0) +
      (if onComp cross A c 1 ∧ onComp cross B c 0 then sg cross g c else 0) := by
  obtain ⟨e0, e1, k0, k1, l0, l1, c0, c1, p0, p1, q0, q1, r0, r1, hne, hall⟩ := incoming hC hO h
  have s0 := (hc_lt hC l0).2.2
  have s1 := (hc_lt hC l1).2.2
  rw [c0, p0] at s0
  rw [c1, p1] at s1
  -- which component the even and the odd places lie on
  have par : ∀ K ∈ comps, ∀ k e k' e', slot cross c k = some e → slot cross c k' = some e' → k % 2 = k' % 2 →
      (e ∈ K.edge ↔ e' ∈ K.edge) := by
    intro K hKm k e k' e' h1 h2 hp
    have hk1 := (slot_lt h1).2
    have hk2 := (slot_lt h2).2
    by_cases hkk : k = k'
    · subst hkk
      rw [h1] at h2
      cases h2
      rfl
    · refine opp_comp hC hO hK hKm h1 ?_
      rw [show (k + 2) % 4 = k' by omega]
      exact h2
  have on0 : ∀ K ∈ comps, (onComp cross K c 0 = true ↔ e0 ∈ K.edge) := by
    intro K hKm
    have hs := slot_of_lt h (show 0 < 4 by decide)
    rw [onComp_some hs]
    exact par K hKm 0 _ k0 _ hs s0 (by omega)
  have on1 : ∀ K ∈ comps, (onComp cross K c 1 = true ↔ e1 ∈ K.edge) := by
    intro K hKm
    have hs := slot_of_lt h (show 1 < 4 by decide)
    rw [onComp_some hs]
    exact par K hKm 1 _ k1 _ hs s1 (by omega)
  have oth0 : othr cross edge e0 ∈ B.edge ↔ e1 ∈ B.edge := by
    have := othr_slot hC l0
    rw [c0, p0] at this
    exact par B hB _ _ k1 _ this s1 (by omega)
  have oth1 : othr cross edge e1 ∈ B.edge ↔ e0 ∈ B.edge := by
    have := othr_slot hC l1
    rw [c1, p1] at this
    exact par B hB _ _ k0 _ this s0 (by omega)
  have hset : A.edge.toFinset.filter (fun e => hc edge e = c) =
      ({e0, e1} : Finset Nat).filter (fun e => e ∈ A.edge) := by
    ext e
    rw [Finset.mem_filter, Finset.mem_filter, List.mem_toFinset, Finset.mem_insert, Finset.mem_singleton]
    constructor
    · rintro ⟨h1, h2⟩
      exact ⟨hall e (comp_lt hK hA h1) h2, h1⟩
    · rintro ⟨rfl | rfl, h2⟩
      · exact ⟨h2, c0⟩
      · exact ⟨h2, c1⟩
  rw [hset, Finset.sum_filter, Finset.sum_pair hne]
  simp only [on0 A hA, on0 B hB, on1 A hA, on1 B hB]
  unfold wt
  simp only [oth0, oth1, c0, c1]
  by_cases a : e0 ∈ A.edge <;> by_cases b : e1 ∈ A.edge <;> by_cases x : e0 ∈ B.edge <;>
    by_cases y : e1 ∈ B.edge <;> simp [a, b, x, y]

include hC hO hK in
theorem sum_eq {A B : Comp} (hA : A ∈ comps) (hB : B ∈ comps) (g : Or → Int) :
    (A.edge.map (wt cross edge g B)).sum = ((List.range cross.length).map (fun c =>
      (if onComp cross A c 0 ∧ onComp cross B c 1 then sg cross g c else 0) +
      (if onComp cross A c 1 ∧ onComp cross B c 0 then sg cross g c else 0))).sum := by
  rw [← List.sum_toFinset _ (comp_nodup hK hA), ← List.sum_toFinset _ List.nodup_range]
  rw [← Finset.sum_fiberwise_of_maps_to (s := A.edge.toFinset) (t := (List.range cross.length).toFinset)
    (g := fun e => hc edge e) (f := wt cross edge g B)]
  · apply Finset.sum_congr rfl
    intro c hcm
    rw [List.mem_toFinset, List.mem_range] at hcm
    exact fiber hC hO hK hA hB g hcm
  · intro e he
    rw [List.mem_toFinset] at he ⊢
    rw [List.mem_range]
    exact (hc_lt hC (comp_lt hK hA he)).1

include hC hK in
theorem loop_step {B : Comp} {long : Nat} (hB : comps[long]? = some B) {e : Nat}
    (he : e < edge.length) : ∃ (r : Edge) (x : Cross) (o oc p : Nat), edge[e]? = some r ∧
      cross[r.head]? = some x ∧ x.rdPos ((r.headpos + 1) % 4) = .ok o ∧
      compAndPos edge.length comps o = .ok (oc, p) ∧ (oc = long ↔ othr cross edge e ∈ B.edge) ∧
      hc edge e = r.head := by
  obtain ⟨h1, h2, h3⟩ := hc_lt hC he
  have ho := othr_slot hC he
  have hlt := hC.slot_edge_lt ho
  obtain ⟨j, p, c, q1, q2, q3⟩ := compAndPos_ok hK hlt
  have hr : edge[e]? = some edge[e]! := by rw [getElem!_pos edge e he]; exact List.getElem?_eq_getElem he
  refine ⟨edge[e]!, cross[hc edge e], othr cross edge e, j, p, hr, List.getElem?_eq_getElem h1, ?_, q1, ?_, rfl⟩
  · have hm : (hk edge e + 1) % 4 < 4 := Nat.mod_lt _ (by decide)
    rw [slot_of_lt h1 hm] at ho
    have : (edge[e]!.headpos + 1) % 4 = (hk edge e + 1) % 4 := rfl
    rw [this, Cross.rdPos_lt hm]
    simpa using ho
  · constructor
    · rintro rfl
      rw [hB] at q2
      cases q2
      exact q3
    · intro hm
      exact comp_unique hK q2 hB q3 hm

include hC hK in
theorem lkLoop_eq {B : Comp} {long : Nat} (hB : comps[long]? = some B) : ∀ (l : List Nat) (lk : Int),
    (∀ e ∈ l, e < edge.length) →
    lkLoop cross edge comps long l lk = .ok (lk + (l.map (wt cross edge lkSign B)).sum)
  | [], lk, _ => by simp [lkLoop]
  | e :: l, lk, h => by
    obtain ⟨r, x, o, oc, p, h1, h2, h3, h4, h5, h6⟩ := loop_step hC hK hB (h e (by simp))
    unfold lkLoop
    rw [rd_ok h1, ok_bind, rd_ok h2, ok_bind, h3, ok_bind, h4, ok_bind]
    simp only
    rw [lkLoop_eq hB l _ (fun e he => h e (by simp [he])), List.map_cons, List.sum_cons]
    congr 1
    have : wt cross edge lkSign B e = if oc = long then lkSign x.sign else 0 := by
      unfold wt sg
      rw [h6, h2]
      simp only [h5]
      rfl
    rw [this]
    split <;> omega

include hC hK in
theorem ulkLoop_eq {B : Comp} {long : Nat} (hB : comps[long]? = some B) : ∀ (l : List Nat) (lk : Int),
    (∀ e ∈ l, e < edge.length) →
    ulkLoop cross edge comps long l lk = .ok (lk + (l.map (wt cross edge (fun _ => 1) B)).sum)
  | [], lk, _ => by simp [ulkLoop]
  | e :: l, lk, h => by
    obtain ⟨r, x, o, oc, p, h1, h2, h3, h4, h5, h6⟩ := loop_step hC hK hB (h e (by simp))
    unfold ulkLoop
    rw [rd_ok h1, ok_bind, rd_ok h2, ok_bind, h3, ok_bind, h4, ok_bind]
    simp only
    rw [ulkLoop_eq hB l _ (fun e he => h e (by simp [he])), List.map_cons, List.sum_cons]
    congr 1
    have : wt cross edge (fun _ => 1) B e = if oc = long then 1 else 0 := by
      unfold wt sg
      rw [h6, h2]
      simp only [h5]
      rfl
    rw [this]
    split <;> omega

end

end Strands

end Plc
