import Verif.Proofs.LinkKept
import Verif.Props.Triangle

/-! Linking numbers when a triangle is turned over. -/

namespace Plc.LinkKept

open Plc.Core Plc.Cmp Plc.Places Plc.Faces Plc.Moves Plc.Comps Plc.Planar Plc.BigonDel Plc.Isotopy Plc.Ok Plc.Triangle List

variable {pd pd' : Io.Pd}

theorem opp_place (hN : Neat pd) {A : Comp} (hA : A ∈ pd.comp) {c : Nat} (hc : c < pd.cross.length) (a b : Nat) (hab : b % 4 = (a + 2) % 4) :
    eslot pd.cross (c, b % 4) ∈ A.edge ↔ eslot pd.cross (c, a % 4) ∈ A.edge := by
  have hx := List.getElem?_eq_getElem hc
  have w1 := place_at (p := (c, a % 4)) (mem_P.mpr ⟨hc, Nat.mod_lt _ (by decide)⟩) hx
  have w2 := place_at (p := (c, b % 4)) (mem_P.mpr ⟨hc, Nat.mod_lt _ (by decide)⟩) hx
  simp only at w1 w2
  rw [← w1, ← w2, hab, ← at_lt, ← at_lt]
  exact opp hN hA hx a

/-- The strand of a side. -/
theorem line_comp (hN : Neat pd) {A : Comp} (hA : A ∈ pd.comp) {e : Fin 3 → Nat} {o : Fin 3 → Or} {X k : Fin 3 → Nat}
    (t : Tri pd.cross pd.edge e o X k) (j : Fin 3) :
    (eslot pd.cross (X j, (k j + 3) % 4) ∈ A.edge ↔ e j ∈ A.edge) ∧ (eslot pd.cross (X j, (k j + 1) % 4) ∈ A.edge ↔ e j ∈ A.edge) ∧
    (eslot pd.cross (X (j + 1), k (j + 1) % 4) ∈ A.edge ↔ e j ∈ A.edge) ∧
    (eslot pd.cross (X (j + 1), (k (j + 1) + 2) % 4) ∈ A.edge ↔ e j ∈ A.edge) := by
  have hC := hN.tidy.plane.consistent
  have key : eslot pd.cross (X j, (k j + 3) % 4) = e j ∧ eslot pd.cross (X (j + 1), k (j + 1) % 4) = e j ∧ X j < pd.cross.length ∧
      X (j + 1) < pd.cross.length := by
    obtain ⟨h1, h2⟩ := hd_mem hC (t.lt j)
    obtain ⟨h3, h4⟩ := tl_mem hC (t.lt j)
    rcases t.ends j with ⟨-, a, b⟩ | ⟨-, a, b⟩
    · rw [b] at h1 h2
      rw [a] at h3 h4
      exact ⟨h4, h2, (mem_P.mp h3).1, (mem_P.mp h1).1⟩
    · rw [a] at h1 h2
      rw [b] at h3 h4
      exact ⟨h2, h4, (mem_P.mp h1).1, (mem_P.mp h3).1⟩
  obtain ⟨k1, k2, k3, k4⟩ := key
  refine ⟨by rw [k1], ?_, by rw [k2], ?_⟩
  · rw [opp_place hN hA k3 (k j + 3) (k j + 1) (by omega), k1]
  · rw [opp_place hN hA k4 (k (j + 1)) (k (j + 1) + 2) rfl, k2]

theorem goes_comp (hN : Neat pd) {A : Comp} (hA : A ∈ pd.comp) {e : Fin 3 → Nat} {o : Fin 3 → Or} {X k : Fin 3 → Nat}
    (t : Tri pd.cross pd.edge e o X k) {q : Nat × Nat} (hq : q ∈ P pd.cross) :
    eslot pd.cross (goes X k q) ∈ A.edge ↔ eslot pd.cross q ∈ A.edge := by
  have l := line_comp hN hA t
  rcases place_cases X k hq with h | ⟨j, rfl | rfl | rfl | rfl⟩
  · rw [goes_out h]
  · first | rw [goes_q t.inj, (l j).2.1, (l j).2.2.1] | rw [goes_u t.inj, (l j).2.1, (l j).2.2.1] | rw [goes_p t.inj, (l j).1, (l j).2.2.2] | rw [goes_v t.inj, (l j).1, (l j).2.2.2]
  · first | rw [goes_q t.inj, (l j).2.1, (l j).2.2.1] | rw [goes_u t.inj, (l j).2.1, (l j).2.2.1] | rw [goes_p t.inj, (l j).1, (l j).2.2.2] | rw [goes_v t.inj, (l j).1, (l j).2.2.2]
  · first | rw [goes_q t.inj, (l j).2.1, (l j).2.2.1] | rw [goes_u t.inj, (l j).2.1, (l j).2.2.1] | rw [goes_p t.inj, (l j).1, (l j).2.2.2] | rw [goes_v t.inj, (l j).1, (l j).2.2.2]
  · first | rw [goes_q t.inj, (l j).2.1, (l j).2.2.1] | rw [goes_u t.inj, (l j).2.1, (l j).2.2.1] | rw [goes_p t.inj, (l j).1, (l j).2.2.2] | rw [goes_v t.inj, (l j).1, (l j).2.2.2]

/-- At each place there is an edge of the same component as before. -/
theorem flip_comp (hN : Neat pd) {A : Comp} (hA : A ∈ pd.comp) {e : Fin 3 → Nat} {o : Fin 3 → Or} {X k : Fin 3 → Nat}
    (t : Tri pd.cross pd.edge e o X k) {cross : List Cross} {edge : List Edge}
    (B : TriangleFlipped pd.cross pd.edge [e 0, e 1, e 2] cross edge) {c : Nat} {x y : Cross} (hx : pd.cross[c]? = some x)
    (hy : cross[c]? = some y) (i : Nat) : y.at i ∈ A.edge ↔ x.at i ∈ A.edge := by
  have hC := hN.tidy.plane.consistent
  have hO := hN.tidy.plane.oriented
  have hc := (List.getElem?_eq_some_iff.mp hx).1
  have hp : (c, i % 4) ∈ P pd.cross := mem_P.mpr ⟨hc, Nat.mod_lt _ (by decide)⟩
  have hp' : (c, i % 4) ∈ P cross := mem_P.mpr ⟨by rw [B.len]; exact hc, Nat.mod_lt _ (by decide)⟩
  have w1 := place_at hp hx
  have w2 := place_at hp' hy
  simp only at w1 w2
  rw [at_lt y, at_lt x, w1, w2]
  have hf := eslot_lt B.consistent hp'
  rw [B.elen] at hf
  rcases ends_at B.consistent hp' with h | h
  · rw [B.hd_eq hC hO t hf] at h
    have := goes_comp hN hA t (hd_mem hC hf).1
    rw [h, (hd_mem hC hf).2] at this
    exact this.symm
  · rw [B.tl_eq hC hO t hf] at h
    have := goes_comp hN hA t (tl_mem hC hf).1
    rw [h, (tl_mem hC hf).2] at this
    exact this.symm

/-- From each edge of a component all others are reached. -/
theorem comp_reach (hN : Neat pd) {A : Comp} (hA : A ∈ pd.comp) {e f : Nat} (he : e ∈ A.edge) (hf : f ∈ A.edge) :
    ∃ n, (nx pd.cross pd.edge)^[n] e = f := by
  have hC := hN.tidy.plane.consistent
  obtain ⟨-, -, -, k4⟩ := goodComps_of_retag hN.tidy.goodComps
  obtain ⟨i, hi⟩ := List.mem_iff_getElem?.mp he
  obtain ⟨j, hj⟩ := List.mem_iff_getElem?.mp hf
  have il := (List.getElem?_eq_some_iff.mp hi).1
  have jl := (List.getElem?_eq_some_iff.mp hj).1
  have key : ∀ n, A.edge[(i + n) % A.edge.length]? = some ((nx pd.cross pd.edge)^[n] e) := by
    intro n
    induction n with
    | zero => rw [Nat.add_zero, Nat.mod_eq_of_lt il]; exact hi
    | succ n ih =>
      obtain ⟨e', h1, h2⟩ := k4 A hA _ _ ih
      rw [Function.iterate_succ_apply', ((follows_iff hC _ _).mp h2).2, ← h1]
      congr 1
      rw [← Nat.add_assoc, Nat.mod_add_mod]
  refine ⟨A.edge.length + j - i, ?_⟩
  have := key (A.edge.length + j - i)
  rw [show i + (A.edge.length + j - i) = j + A.edge.length by omega, Nat.add_mod_right, Nat.mod_eq_of_lt jl, hj] at this
  exact (Option.some.inj this).symm

theorem comp_lt (hN : Neat pd) {A : Comp} (hA : A ∈ pd.comp) {e : Nat} (he : e ∈ A.edge) : e < pd.edge.length := by
  obtain ⟨k1, -⟩ := goodComps_of_retag hN.tidy.goodComps
  rw [← List.mem_range, ← k1]
  exact List.mem_flatMap.mpr ⟨A, hA, he⟩

/-- Components go to components if edges which follow each other go to such edges. -/
theorem comp_match (hN : Neat pd) (hN' : Neat pd') {τ : Nat → Nat} (hel : pd'.edge.length = pd.edge.length)
    (hlt : ∀ e, e < pd.edge.length → τ e < pd.edge.length)
    (hinj : ∀ e f, e < pd.edge.length → f < pd.edge.length → τ e = τ f → e = f)
    (hnx : ∀ e, e < pd.edge.length → nx pd'.cross pd'.edge (τ e) = τ (nx pd.cross pd.edge e)) {A : Comp} (hA : A ∈ pd.comp) :
    ∃ (j : Nat) (A' : Comp), pd'.comp[j]? = some A' ∧ ∀ e, e < pd.edge.length → (τ e ∈ A'.edge ↔ e ∈ A.edge) := by
  have hC := hN.tidy.plane.consistent
  have hO := hN.tidy.plane.oriented
  obtain ⟨-, -, k3, -⟩ := goodComps_of_retag hN.tidy.goodComps
  obtain ⟨l1, -⟩ := goodComps_of_retag hN'.tidy.goodComps
  obtain ⟨a, ha⟩ := List.exists_mem_of_ne_nil _ (k3 A hA)
  have hal := comp_lt hN hA ha
  have : τ a ∈ pd'.comp.flatMap (·.edge) := by rw [l1, List.mem_range, hel]; exact hlt a hal
  obtain ⟨A', h1, h2⟩ := List.mem_flatMap.mp this
  obtain ⟨j, hj⟩ := List.mem_iff_getElem?.mp h1
  refine ⟨j, A', hj, fun e he => ?_⟩
  have it : ∀ n, (nx pd.cross pd.edge)^[n] a ∈ A.edge ∧ (nx pd'.cross pd'.edge)^[n] (τ a) = τ ((nx pd.cross pd.edge)^[n] a) ∧
      τ ((nx pd.cross pd.edge)^[n] a) ∈ A'.edge := by
    intro n
    induction n with
    | zero => exact ⟨ha, rfl, h2⟩
    | succ n ih =>
      obtain ⟨i1, i2, i3⟩ := ih
      have hl := comp_lt hN hA i1
      rw [Function.iterate_succ_apply', Function.iterate_succ_apply', i2, hnx _ hl]
      refine ⟨(nx_mem hN hA hl).mpr i1, rfl, ?_⟩
      rw [← hnx _ hl]
      exact (nx_mem hN' h1 (by rw [hel]; exact hlt _ hl)).mpr i3
  constructor
  · intro h
    obtain ⟨n, hn⟩ := comp_reach hN' h1 h2 h
    rw [(it n).2.1] at hn
    rw [← hinj _ _ (comp_lt hN hA (it n).1) he hn]
    exact (it n).1
  · intro h
    obtain ⟨n, hn⟩ := comp_reach hN hA ha h
    rw [← hn]
    exact (it n).2.2

/-- The strand through a place comes in on an edge of the component which is there. -/
theorem incoming (hN : Neat pd) {A : Comp} (hA : A ∈ pd.comp) {c : Nat} {x : Cross} (hx : pd.cross[c]? = some x) {k : Nat}
    (hk : x.at k ∈ A.edge) : ∃ e, e < pd.edge.length ∧ e ∈ A.edge ∧ (hd pd.edge[e]!).1 = c := by
  have hC := hN.tidy.plane.consistent
  have hO := hN.tidy.plane.oriented
  have hc := (List.getElem?_eq_some_iff.mp hx).1
  have mp : (c, k % 4) ∈ P pd.cross := mem_P.mpr ⟨hc, Nat.mod_lt _ (by decide)⟩
  have e1 := place_at mp (x := x) hx
  simp only at e1
  rw [at_lt, e1] at hk
  have l1 := eslot_lt hC mp
  rcases ends_at hC mp with h | h
  · exact ⟨_, l1, hk, by rw [h]⟩
  · obtain ⟨p, p1, p2⟩ := prev_ex hC hO l1
    obtain ⟨-, q2⟩ := nx_spec hC hO p1
    rw [p2, h] at q2
    refine ⟨p, p1, ?_, (congrArg Prod.fst q2).symm⟩
    rw [← p2] at hk
    exact (nx_mem hN hA p1).mp hk

theorem one_side (hN : Neat pd) {A : Comp} (hA : A ∈ pd.comp) {c d : Nat} {lab : Nat → Prop} (h : Apart pd.cross pd.edge c d lab) :
    (∀ e ∈ A.edge, lab e) ∨ ∀ e ∈ A.edge, ¬ lab e := by
  have hC := hN.tidy.plane.consistent
  obtain ⟨-, -, k3, -⟩ := goodComps_of_retag hN.tidy.goodComps
  obtain ⟨a, ha⟩ := List.exists_mem_of_ne_nil _ (k3 A hA)
  have it : ∀ n, (nx pd.cross pd.edge)^[n] a ∈ A.edge ∧ (lab ((nx pd.cross pd.edge)^[n] a) ↔ lab a) := by
    intro n
    induction n with
    | zero => exact ⟨ha, Iff.rfl⟩
    | succ n ih =>
      have hl := comp_lt hN hA ih.1
      rw [Function.iterate_succ_apply']
      refine ⟨(nx_mem hN hA hl).mpr ih.1, ?_⟩
      rw [← h.along _ _ ((follows_iff hC _ _).mpr ⟨hl, rfl⟩)]
      exact ih.2
  by_cases hl : lab a
  · refine .inl fun e he => ?_
    obtain ⟨n, hn⟩ := comp_reach hN hA ha he
    rw [← hn]
    exact (it n).2.mpr hl
  · refine .inr fun e he q => ?_
    obtain ⟨n, hn⟩ := comp_reach hN hA ha he
    rw [← hn] at q
    exact hl ((it n).2.mp q)

end Plc.LinkKept
