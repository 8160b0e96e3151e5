import Verif.Proofs.CycleCount
import Verif.Spec.Loop

/-! A loop can be added to or removed from a plane diagram. -/

namespace Plc.Planar

open Plc.Core Plc.Cmp Plc.Places Plc.Orbit Plc.Faces

variable {cross cross' : List Cross} {edge edge' : List Edge} {c e0 e1 e2 : Nat} {τ σ ρ : Nat → Nat}

theorem getBang {e : Nat} {r : Edge} (h : edge[e]? = some r) : edge[e]! = r ∧ e < edge.length := by
  obtain ⟨h1, h2⟩ := List.getElem?_eq_some_iff.mp h
  exact ⟨by simp [h1, h2], h1⟩

/-- The place in the first diagram. -/
def place (σ ρ : Nat → Nat) (p : Nat × Nat) : Nat × Nat := (σ p.1, (p.2 + ρ p.1) % 4)

theorem place_turn (k : Nat) (p : Nat × Nat) : place σ ρ (turn k p) = turn k (place σ ρ p) := by
  unfold place turn
  simp only [Prod.mk.injEq, true_and]
  omega

/-- The ends of an edge of the second diagram. -/
theorem loop_ends (h : LoopRemoved cross edge c e0 e1 e2 cross' edge' τ σ ρ) {f : Nat} (hf : f < edge'.length) :
    place σ ρ (tl edge'[f]!) = tl edge[τ f]! ∧ place σ ρ (hd edge'[f]!) = hd edge[if τ f = e0 then e2 else τ f]! := by
  obtain ⟨-, -, -, -, r, k, h1, h2, h3, h4, h5, h6⟩ := h.edge f edge'[f]! (by simp [hf])
  rw [(getBang h1).1, (getBang h2).1]
  unfold place tl hd
  simp only [Prod.mk.injEq]
  exact ⟨⟨h3, h4⟩, h5, h6⟩

theorem loop_edge_onto (h : LoopRemoved cross edge c e0 e1 e2 cross' edge' τ σ ρ) {e : Nat} (he : e < edge.length) (h1 : e ≠ e1)
    (h2 : e ≠ e2) : ∃ f, f < edge'.length ∧ τ f = e := by
  obtain ⟨r0, r1, r2, q0, q1, q2, -⟩ := h.loop
  have hcard : (((Finset.range edge.length).erase e1).erase e2).card = edge'.length := by
    rw [Finset.card_erase_of_mem (by simpa using ⟨h.ne12.symm, (getBang q2).2⟩), Finset.card_erase_of_mem (by simpa using (getBang q1).2),
      Finset.card_range, h.elen]
    rfl
  have := Finset.surjOn_of_injOn_of_card_le (s := Finset.range edge'.length) (t := ((Finset.range edge.length).erase e1).erase e2) τ
    (fun f hf => by
      have := h.tlt f (by simpa using hf)
      simp only [Finset.coe_erase, Finset.coe_range, Set.mem_sdiff, Set.mem_Iio, Set.mem_singleton_iff]
      exact ⟨⟨this.1, this.2.1⟩, this.2.2⟩)
    (fun f hf f' hf' hff => h.tinj f f' (by simpa using hf) (by simpa using hf') hff)
    (by rw [hcard, Finset.card_range])
  obtain ⟨f, hf, rfl⟩ := this (by
    simp only [Finset.coe_erase, Finset.coe_range, Set.mem_sdiff, Set.mem_Iio, Set.mem_singleton_iff]
    exact ⟨⟨he, h1⟩, h2⟩ : e ∈ _)
  exact ⟨f, by simpa using hf, rfl⟩

theorem loop_cross_onto (h : LoopRemoved cross edge c e0 e1 e2 cross' edge' τ σ ρ) (hc : c < cross.length) {d : Nat}
    (hd : d < cross.length) (hdc : d ≠ c) : ∃ d', d' < cross'.length ∧ σ d' = d := by
  have := Finset.surjOn_of_injOn_of_card_le (s := Finset.range cross'.length) (t := (Finset.range cross.length).erase c) σ
    (fun f hf => by
      have := h.slt f (by simpa using hf)
      simp only [Finset.coe_erase, Finset.coe_range, Set.mem_sdiff, Set.mem_Iio, Set.mem_singleton_iff]
      exact this)
    (fun f hf f' hf' hff => h.sinj f f' (by simpa using hf) (by simpa using hf') hff)
    (by rw [Finset.card_erase_of_mem (by simpa using hc), Finset.card_range, Finset.card_range, h.len]; rfl)
  obtain ⟨d', hd', rfl⟩ := this (by
    simp only [Finset.coe_erase, Finset.coe_range, Set.mem_sdiff, Set.mem_Iio, Set.mem_singleton_iff]
    exact ⟨hd, hdc⟩ : d ∈ _)
  exact ⟨d', by simpa using hd', rfl⟩

theorem place_inj (h : LoopRemoved cross edge c e0 e1 e2 cross' edge' τ σ ρ) {p q : Nat × Nat} (hp : p ∈ P cross') (hq : q ∈ P cross')
    (he : place σ ρ p = place σ ρ q) : p = q := by
  rw [mem_P] at hp hq
  unfold place at he
  simp only [Prod.mk.injEq] at he
  have := h.sinj _ _ hp.1 hq.1 he.1
  obtain ⟨a, b⟩ := p
  obtain ⟨a', b'⟩ := q
  simp only at *
  subst this
  rw [Prod.mk.injEq]
  exact ⟨rfl, by omega⟩

theorem place_mem (h : LoopRemoved cross edge c e0 e1 e2 cross' edge' τ σ ρ) {p : Nat × Nat} (hp : p ∈ P cross') :
    place σ ρ p ∈ P cross ∧ (place σ ρ p).1 ≠ c := by
  rw [mem_P] at hp
  obtain ⟨a, b⟩ := h.slt _ hp.1
  exact ⟨mem_P.mpr ⟨a, Nat.mod_lt _ (by decide)⟩, b⟩

/-- The other end, in the first diagram, of the image of a place of the second. -/
theorem loop_oth (h : LoopRemoved cross edge c e0 e1 e2 cross' edge' τ σ ρ) (hC : Consistent cross edge) (hC' : Consistent cross' edge')
    {p : Nat × Nat} (hp : p ∈ P cross') :
    (oth cross edge (place σ ρ p) = place σ ρ (oth cross' edge' p)) ∨
    (place σ ρ p = tl edge[e0]! ∧ place σ ρ (oth cross' edge' p) = hd edge[e2]!) ∨
    (place σ ρ p = hd edge[e2]! ∧ place σ ρ (oth cross' edge' p) = tl edge[e0]!) := by
  have hf := eslot_lt hC' hp
  obtain ⟨a1, a2⟩ := loop_ends h hf
  have htf := (h.tlt _ hf).1
  rcases ends_at hC' hp with he | he
  · have o := oth_hd hC' hf
    rw [he] at o a2
    by_cases h0 : τ (eslot cross' p) = e0
    · rw [if_pos h0] at a2
      rw [h0] at a1
      exact .inr (.inr ⟨a2, by rw [o]; exact a1⟩)
    · rw [if_neg h0] at a2
      left
      rw [o, a1, a2, oth_hd hC htf]
  · have o := oth_tl hC' hf
    rw [he] at o a1
    by_cases h0 : τ (eslot cross' p) = e0
    · rw [if_pos h0] at a2
      rw [h0] at a1
      exact .inr (.inl ⟨a1, by rw [o]; exact a2⟩)
    · rw [if_neg h0] at a2
      left
      rw [o, a1, a2, oth_tl hC htf]

/-- Faces through the loop. -/
theorem loop_return (h : LoopRemoved cross edge c e0 e1 e2 cross' edge' τ σ ρ) (hC : Consistent cross edge)
    (hC' : Consistent cross' edge') :
    Return (fnext cross' edge') (P cross') (fnext cross edge) (P cross) (place σ ρ) ∧
    ∃ x ∈ P cross, x.1 = c ∧ fnext cross edge x = x ∧ ∀ y ∈ P cross, y.1 = c → y ≠ x →
      ∃ s ∈ P cross', y ∈ cyc (fnext cross edge) (place σ ρ s) := by
  obtain ⟨r0, r1, r2, q0, q1, q2, s1, s2, s3, s4, s5, s6, s7⟩ := h.loop
  have hc1 := hC.head e1 r1 q1
  have hc2 := hC.tail e1 r1 q1
  have t4 := (slot_lt hc2).2
  have u4 := (slot_lt hc1).2
  have hc : c < cross.length := by rw [← s1]; exact (slot_lt hc1).1
  have H0 : hd edge[e0]! = (c, (r1.tailpos + 2) % 4) := by rw [(getBang q0).1, hd, s4, s5]
  have H1 : hd edge[e1]! = (c, r1.headpos) := by rw [(getBang q1).1, hd, s1]
  have T1 : tl edge[e1]! = (c, r1.tailpos) := by rw [(getBang q1).1, tl, s2]
  have T2 : tl edge[e2]! = (c, (r1.headpos + 2) % 4) := by rw [(getBang q2).1, tl, s6, s7]
  have O0 := oth_hd hC (getBang q0).2
  have O0' := oth_tl hC (getBang q0).2
  have O1 := oth_hd hC (getBang q1).2
  have O1' := oth_tl hC (getBang q1).2
  have O2 := oth_hd hC (getBang q2).2
  have O2' := oth_tl hC (getBang q2).2
  rw [H0] at O0 O0'
  rw [H1, T1] at O1 O1'
  rw [T2] at O2 O2'
  generalize r1.tailpos = t at *
  generalize r1.headpos = u at *
  -- the tail of `e0` and the head of `e2` are kept
  obtain ⟨f0, hf0, hτ⟩ := loop_edge_onto h (getBang q0).2 h.ne01 h.ne02
  obtain ⟨k1, k2⟩ := loop_ends h hf0
  rw [if_pos hτ] at k2
  rw [hτ] at k1
  have m1 := (tl_mem hC' hf0).1
  have m2 := (hd_mem hC' hf0).1
  have tu : ∀ a, turn 3 ((c, a) : Nat × Nat) = (c, (a + 3) % 4) := fun _ => rfl
  have hI := injOn_fnext hC
  -- passing the loop
  have pass : ∃ k1 k2, (fnext cross edge)^[k1 + 1] (tl edge[e0]!) = turn 3 (hd edge[e2]!) ∧
      (∀ i, 0 < i → i ≤ k1 → ((fnext cross edge)^[i] (tl edge[e0]!)).1 = c) ∧
      (fnext cross edge)^[k2 + 1] (hd edge[e2]!) = turn 3 (tl edge[e0]!) ∧
      (∀ i, 0 < i → i ≤ k2 → ((fnext cross edge)^[i] (hd edge[e2]!)).1 = c) ∧
      ∃ x, x < 4 ∧ fnext cross edge (c, x) = (c, x) ∧ ∀ y, y < 4 → y ≠ x →
        (∃ i, (fnext cross edge)^[i] (tl edge[e0]!) = (c, y)) ∨ ∃ i, (fnext cross edge)^[i] (hd edge[e2]!) = (c, y) := by
    rcases s3 with hu | ht
    · have b1 : fnext cross edge (tl edge[e0]!) = (c, u) := by
        rw [fnext, O0', tu, Prod.mk.injEq]; exact ⟨rfl, by omega⟩
      have b2 : fnext cross edge (c, u) = (c, (u + 2) % 4) := by
        rw [fnext, O1, tu, Prod.mk.injEq]; exact ⟨rfl, by omega⟩
      have b3 : fnext cross edge (c, (u + 2) % 4) = turn 3 (hd edge[e2]!) := by rw [fnext, O2']
      have b4 : fnext cross edge (hd edge[e2]!) = (c, (t + 2) % 4) := by
        rw [fnext, O2, tu, Prod.mk.injEq]; exact ⟨rfl, by omega⟩
      have b5 : fnext cross edge (c, (t + 2) % 4) = turn 3 (tl edge[e0]!) := by rw [fnext, O0]
      refine ⟨2, 1, ?_, ?_, ?_, ?_, t, t4, ?_, ?_⟩
      · simp only [Function.iterate_succ_apply, Function.iterate_zero, id, b1, b2, b3]
      · intro i i1 i2
        have : i = 1 ∨ i = 2 := by omega
        rcases this with rfl | rfl <;> simp only [Function.iterate_succ_apply, Function.iterate_zero, id, b1, b2]
      · simp only [Function.iterate_succ_apply, Function.iterate_zero, id, b4, b5]
      · intro i i1 i2
        have : i = 1 := by omega
        subst this
        simp only [Function.iterate_succ_apply, Function.iterate_zero, id, b4]
      · rw [fnext, O1', tu, Prod.mk.injEq]; exact ⟨rfl, by omega⟩
      · intro y y1 y2
        have : y = u ∨ y = (u + 2) % 4 ∨ y = (t + 2) % 4 := by omega
        rcases this with rfl | rfl | rfl
        · exact .inl ⟨1, by simp only [Function.iterate_succ_apply, Function.iterate_zero, id, b1]⟩
        · exact .inl ⟨2, by simp only [Function.iterate_succ_apply, Function.iterate_zero, id, b1, b2]⟩
        · exact .inr ⟨1, by simp only [Function.iterate_succ_apply, Function.iterate_zero, id, b4]⟩
    · have b1 : fnext cross edge (tl edge[e0]!) = (c, (u + 2) % 4) := by
        rw [fnext, O0', tu, Prod.mk.injEq]; exact ⟨rfl, by omega⟩
      have b3 : fnext cross edge (c, (u + 2) % 4) = turn 3 (hd edge[e2]!) := by rw [fnext, O2']
      have b4 : fnext cross edge (hd edge[e2]!) = (c, t) := by
        rw [fnext, O2, tu, Prod.mk.injEq]; exact ⟨rfl, by omega⟩
      have b2 : fnext cross edge (c, t) = (c, (t + 2) % 4) := by
        rw [fnext, O1', tu, Prod.mk.injEq]; exact ⟨rfl, by omega⟩
      have b5 : fnext cross edge (c, (t + 2) % 4) = turn 3 (tl edge[e0]!) := by rw [fnext, O0]
      refine ⟨1, 2, ?_, ?_, ?_, ?_, u, u4, ?_, ?_⟩
      · simp only [Function.iterate_succ_apply, Function.iterate_zero, id, b1, b3]
      · intro i i1 i2
        have : i = 1 := by omega
        subst this
        simp only [Function.iterate_succ_apply, Function.iterate_zero, id, b1]
      · simp only [Function.iterate_succ_apply, Function.iterate_zero, id, b4, b2, b5]
      · intro i i1 i2
        have : i = 1 ∨ i = 2 := by omega
        rcases this with rfl | rfl <;> simp only [Function.iterate_succ_apply, Function.iterate_zero, id, b4, b2]
      · rw [fnext, O1, tu, Prod.mk.injEq]; exact ⟨rfl, by omega⟩
      · intro y y1 y2
        have : y = (u + 2) % 4 ∨ y = t ∨ y = (t + 2) % 4 := by omega
        rcases this with rfl | rfl | rfl
        · exact .inl ⟨1, by simp only [Function.iterate_succ_apply, Function.iterate_zero, id, b1]⟩
        · exact .inr ⟨1, by simp only [Function.iterate_succ_apply, Function.iterate_zero, id, b4]⟩
        · exact .inr ⟨2, by simp only [Function.iterate_succ_apply, Function.iterate_zero, id, b4, b2]⟩
  obtain ⟨n1, n2, p1, p2, p3, p4, x, x4, p5, p6⟩ := pass
  refine ⟨⟨fun s hs => (place_mem h hs).1, fun s hs s' hs' he => place_inj h hs hs' he, ?_⟩, (c, x), mem_P.mpr ⟨hc, x4⟩, rfl, p5, ?_⟩
  · intro s hs
    rcases loop_oth h hC hC' hs with he | ⟨he, he'⟩ | ⟨he, he'⟩
    · refine ⟨0, ?_, by omega⟩
      rw [Function.iterate_succ_apply, Function.iterate_zero, id, fnext, he, fnext, place_turn]
    · refine ⟨n1, ?_, ?_⟩
      · rw [he, p1, fnext, place_turn, he']
      · intro i i1 i2 s' hs' hss
        rw [he] at hss
        have := p2 i i1 i2
        rw [hss] at this
        exact (place_mem h hs').2 this
    · refine ⟨n2, ?_, ?_⟩
      · rw [he, p3, fnext, place_turn, he']
      · intro i i1 i2 s' hs' hss
        rw [he] at hss
        have := p4 i i1 i2
        rw [hss] at this
        exact (place_mem h hs').2 this
  · rintro ⟨c', y⟩ hy rfl hyx
    have hy4 := (mem_P.mp hy).2
    rcases p6 y hy4 (fun e => hyx (by rw [e])) with hi | hi
    · exact ⟨_, m1, (hI.mem_cyc (place_mem h m1).1).mpr (by rw [k1]; exact hi)⟩
    · exact ⟨_, m2, (hI.mem_cyc (place_mem h m2).1).mpr (by rw [k2]; exact hi)⟩

theorem loop_faces (h : LoopRemoved cross edge c e0 e1 e2 cross' edge' τ σ ρ) (hC : Consistent cross edge)
    (hC' : Consistent cross' edge') : PlaneFaces cross edge ↔ PlaneFaces cross' edge' := by
  obtain ⟨hR, x, x1, x2, x3, x4⟩ := loop_return h hC hC'
  obtain ⟨R, hRR⟩ := exists_reps (injOn_fnext hC')
  have hI := injOn_fnext hC
  have hfix : ∀ k, (fnext cross edge)^[k] x = x := fun k => Function.iterate_fixed x3 k
  have hc : c < cross.length := by rw [← x2]; exact (mem_P.mp x1).1
  have := hR.reps (injOn_fnext hC') hI hRR (X := [x]) (by simpa using x1) (by simp) (by
    intro y hy s hs hys
    rw [List.mem_singleton] at hy
    subst hy
    obtain ⟨k, hk⟩ := hI.reach_symm (place_mem h hs).1 ((hI.mem_cyc (place_mem h hs).1).mp hys)
    rw [hfix] at hk
    rw [hk] at x2
    exact (place_mem h hs).2 x2) (by
    intro y hy
    by_cases hyc : y.1 = c
    · by_cases hyx : y = x
      · exact .inr ⟨x, by simp, by rw [hyx]; exact hI.self_mem_cyc x1⟩
      · exact .inl (x4 y hy hyc hyx)
    · obtain ⟨d, hd, hσ⟩ := loop_cross_onto h hc (mem_P.mp hy).1 hyc
      have hy4 := (mem_P.mp hy).2
      refine .inl ⟨(d, (y.2 + 3 * ρ d) % 4), mem_P.mpr ⟨hd, Nat.mod_lt _ (by decide)⟩, ?_⟩
      have : place σ ρ (d, (y.2 + 3 * ρ d) % 4) = y := by
        unfold place
        simp only
        rw [hσ]
        exact Prod.ext rfl (by simp only; omega)
      rw [this]
      exact hI.self_mem_cyc hy)
  rw [planeFaces_iff_all hC this, planeFaces_iff_all hC' hRR]
  simp only [List.length_append, List.length_map, List.length_singleton, h.len]
  omega

theorem loop_connected (h : LoopRemoved cross edge c e0 e1 e2 cross' edge' τ σ ρ) (hC : Consistent cross edge)
    (hC' : Consistent cross' edge') : Connected cross edge ↔ Connected cross' edge' := by
  obtain ⟨r0, r1, r2, q0, q1, q2, s1, s2, s3, s4, s5, s6, s7⟩ := h.loop
  have hc : c < cross.length := by rw [← s1]; exact (slot_lt (hC.head e1 r1 q1)).1
  obtain ⟨f0, hf0, hτ⟩ := loop_edge_onto h (getBang q0).2 h.ne01 h.ne02
  have fr := List.getElem?_eq_getElem hf0
  generalize edge'[f0] = r' at fr
  obtain ⟨v1, v2, v3, v4, g0, g2, w1, w2, w3, w4, w5, w6⟩ := h.edge f0 r' fr
  rw [hτ] at w1
  rw [if_pos hτ] at w2
  rw [q0] at w1
  cases w1
  rw [q2] at w2
  cases w2
  have symm : ∀ (E : List Edge) a b, Joined E a b → Joined E b a := by
    rintro E a b ⟨r, hr, h⟩
    exact ⟨r, hr, h.symm⟩
  have rsymm : ∀ (E : List Edge) a b, Relation.ReflTransGen (Joined E) a b → Relation.ReflTransGen (Joined E) b a := by
    intro E a b hab
    induction hab with
    | refl => exact .refl
    | tail _ hj ih => exact .head (symm E _ _ hj) ih
  constructor
  · intro hcon d d' hd hd'
    have key : ∀ x y, Relation.ReflTransGen (Joined edge) x y → ∀ a, a < cross'.length → (x = σ a ∨ (x = c ∧ a = r'.tail)) →
        ∃ b, b < cross'.length ∧ (y = σ b ∨ (y = c ∧ b = r'.tail)) ∧ Relation.ReflTransGen (Joined edge') a b := by
      intro x y hxy
      induction hxy with
      | refl => exact fun a ha hxa => ⟨a, ha, hxa, .refl⟩
      | tail _ hj ih =>
        intro a ha hxa
        obtain ⟨b, hb, hyb, hab⟩ := ih a ha hxa
        rename_i y z _
        -- one edge
        have step : ∀ r ∈ edge, ∃ u w, u < cross'.length ∧ w < cross'.length ∧ (r.tail = σ u ∨ (r.tail = c ∧ u = r'.tail)) ∧
            (r.head = σ w ∨ (r.head = c ∧ w = r'.tail)) ∧ Relation.ReflTransGen (Joined edge') u w := by
          intro r hr
          obtain ⟨e, he⟩ := List.mem_iff_getElem?.mp hr
          by_cases h1 : e = e1
          · subst h1
            rw [q1] at he
            cases he
            exact ⟨r'.tail, r'.tail, v3, v3, .inr ⟨s2, rfl⟩, .inr ⟨s1, rfl⟩, .refl⟩
          · by_cases h2 : e = e2
            · subst h2
              rw [q2] at he
              cases he
              exact ⟨r'.tail, r'.head, v3, v1, .inr ⟨s6, rfl⟩, .inl w5.symm,
                .single ⟨r', List.mem_of_getElem? fr, .inr ⟨rfl, rfl⟩⟩⟩
            · obtain ⟨f, hf, rfl⟩ := loop_edge_onto h (getBang he).2 h1 h2
              have fr' := List.getElem?_eq_getElem hf
              generalize edge'[f] = k at fr'
              obtain ⟨x1, x2, x3, x4, g, g', y1, y2, y3, y4, y5, y6⟩ := h.edge f k fr'
              rw [he] at y1
              cases y1
              by_cases h0 : τ f = e0
              · rw [h0, q0] at he
                cases he
                exact ⟨k.tail, r'.tail, x3, v3, .inl y3.symm, .inr ⟨s4, rfl⟩, by
                  have : f = f0 := h.tinj _ _ hf hf0 (by rw [h0, hτ])
                  subst this
                  rw [fr] at fr'
                  cases fr'
                  exact .refl⟩
              · rw [if_neg h0, he] at y2
                cases y2
                exact ⟨k.tail, k.head, x3, x1, .inl y3.symm, .inl y5.symm, .single ⟨k, List.mem_of_getElem? fr', .inr ⟨rfl, rfl⟩⟩⟩
        have uniq : ∀ y a b, a < cross'.length → b < cross'.length → (y = σ a ∨ (y = c ∧ a = r'.tail)) →
            (y = σ b ∨ (y = c ∧ b = r'.tail)) → a = b := by
          rintro y a b ha hb (h1 | ⟨h1, h1'⟩) (h2 | ⟨h2, h2'⟩)
          · exact h.sinj _ _ ha hb (h1.symm.trans h2)
          · exact absurd (h1.symm.trans h2) (h.slt a ha).2
          · exact absurd (h2.symm.trans h1) (h.slt b hb).2
          · rw [h1', h2']
        obtain ⟨r, hr, hyz⟩ := hj
        obtain ⟨u, w, hu, hw, hru, hrw, huw⟩ := step r hr
        rcases hyz with ⟨rfl, rfl⟩ | ⟨rfl, rfl⟩
        · have := uniq _ _ _ hb hw hyb hrw
          subst this
          exact ⟨u, hu, hru, hab.trans (rsymm _ _ _ huw)⟩
        · have := uniq _ _ _ hb hu hyb hru
          subst this
          exact ⟨w, hw, hrw, hab.trans huw⟩
    obtain ⟨b, hb, hyb, hab⟩ := key _ _ (hcon (σ d) (σ d') (h.slt d hd).1 (h.slt d' hd').1) d hd (.inl rfl)
    rcases hyb with hyb | ⟨hyb, -⟩
    · rw [h.sinj _ _ hd' hb hyb]
      exact hab
    · exact absurd hyb (h.slt d' hd').2
  · intro hcon
    have lift : ∀ a b, Relation.ReflTransGen (Joined edge') a b → Relation.ReflTransGen (Joined edge) (σ a) (σ b) := by
      intro a b hab
      induction hab with
      | refl => exact .refl
      | tail _ hj ih =>
        refine ih.trans ?_
        rename_i y z _ 
        have step : ∀ k ∈ edge', Relation.ReflTransGen (Joined edge) (σ k.tail) (σ k.head) := by
          intro k hk
          obtain ⟨f, hf⟩ := List.mem_iff_getElem?.mp hk
          obtain ⟨x1, x2, x3, x4, g, g', y1, y2, y3, y4, y5, y6⟩ := h.edge f k hf
          rw [y3, y5]
          by_cases h0 : τ f = e0
          · rw [if_pos h0, q2] at y2
            cases y2
            rw [h0, q0] at y1
            cases y1
            exact .trans (.single ⟨r0, List.mem_of_getElem? q0, .inr ⟨s4, rfl⟩⟩) (.single ⟨r2, List.mem_of_getElem? q2, .inr ⟨rfl, s6⟩⟩)
          · rw [if_neg h0, y1] at y2
            cases y2
            exact .single ⟨g, List.mem_of_getElem? y1, .inr ⟨rfl, rfl⟩⟩
        obtain ⟨k, hk, ⟨rfl, rfl⟩ | ⟨rfl, rfl⟩⟩ := hj
        · exact rsymm _ _ _ (step k hk)
        · exact step k hk
    have toBase : ∀ d, d < cross.length → Relation.ReflTransGen (Joined edge) d (σ r'.tail) := by
      intro d hd
      by_cases hdc : d = c
      · rw [w3]
        exact .single ⟨r0, List.mem_of_getElem? q0, .inl ⟨by rw [s4, hdc], rfl⟩⟩
      · obtain ⟨d', hd', rfl⟩ := loop_cross_onto h hc hd hdc
        exact lift _ _ (hcon _ _ hd' v3)
    intro a b ha hb
    exact (toBase a ha).trans (rsymm _ _ _ (toBase b hb))

/-- A diagram is plane with the loop exactly if it is plane without it. -/
theorem loop_plane (h : LoopRemoved cross edge c e0 e1 e2 cross' edge' τ σ ρ) (hC : Consistent cross edge)
    (hC' : Consistent cross' edge') (hO : Oriented cross edge) (hO' : Oriented cross' edge') :
    PlaneDiagram cross edge ↔ PlaneDiagram cross' edge' := by
  have hne : cross ≠ [] := by
    intro e
    have := h.len
    rw [e] at this
    simp at this
  have hne' : cross' ≠ [] := by
    intro e
    obtain ⟨r0, r1, r2, q0, q1, q2, -⟩ := h.loop
    obtain ⟨f0, hf0, -⟩ := loop_edge_onto h (getBang q0).2 h.ne01 h.ne02
    have := hC'.count
    rw [e] at this
    simp only [List.length_nil] at this
    omega
  constructor
  · intro hP
    exact ⟨hC', hO', hne', (loop_connected h hC hC').mp hP.connected, (loop_faces h hC hC').mp hP.plane⟩
  · intro hP
    exact ⟨hC, hO, hne, (loop_connected h hC hC').mpr hP.connected, (loop_faces h hC hC').mpr hP.plane⟩

end Plc.Planar
