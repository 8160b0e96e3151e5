import Verif.Proofs.StrutTree

/-! # The struts of a curve: candidates are struts -/

namespace Plc.Struts

open Plc.Core Plc.FindCrossings Plc.RandomPolygon Plc.Equilateral Plc.Motions Plc.Measure Plc.Poca

/-! ## Points nearest to a point -/

theorem sq_move (a b y : V3) (s t : ℝ) : distSq y (along a b t) =
    distSq y (along a b s) - 2 * (t - s) * (b.sub a).dot (y.sub (along a b s)) + (t - s) ^ 2 * (b.sub a).dot (b.sub a) := by
  unfold distSq along V3.sub V3.dot; simp only; ring

theorem nearestOn_iff {a b y : V3} {s : ℝ} (hab : a ≠ b) (s0 : 0 ≤ s) (s1 : s ≤ 1) : NearestOn a b y (along a b s) ↔
    (s ≠ 1 → (b.sub a).dot (y.sub (along a b s)) ≤ 0) ∧ (s ≠ 0 → 0 ≤ (b.sub a).dot (y.sub (along a b s))) := by
  have hD := sub_dot_pos hab
  obtain ⟨D, eD⟩ : ∃ D, D = (b.sub a).dot (b.sub a) := ⟨_, rfl⟩
  obtain ⟨g, eg⟩ : ∃ g, g = (b.sub a).dot (y.sub (along a b s)) := ⟨_, rfl⟩
  have key : NearestOn a b y (along a b s) ↔ ∀ t, 0 ≤ t → t ≤ 1 → 0 ≤ -2 * (t - s) * g + (t - s) ^ 2 * D := by
    unfold NearestOn
    refine forall_congr' fun t => forall_congr' fun _ => forall_congr' fun _ => ?_
    rw [Nearest.apart_le_iff, sq_move a b y s t, ← eD, ← eg]
    constructor <;> intro h <;> linarith
  rw [key, ← eg]
  rw [← eD] at hD
  constructor
  · intro h
    constructor
    · intro hs
      by_contra hc
      have hg := not_le.mp hc
      have hs1 : 0 < 1 - s := by rcases s1.lt_or_eq with x | x; linarith; exact absurd x hs
      have hgd : 0 < g / D := div_pos hg hD
      rcases le_total (1 - s) (g / D) with hle | hle
      · have := h 1 (by norm_num) (le_refl _)
        have h2 : (1 - s) * D ≤ g := (le_div_iff₀ hD).mp hle
        nlinarith
      · have := h (s + g / D) (by linarith) (by linarith)
        have e : s + g / D - s = g / D := by ring
        rw [e] at this
        have e2 : (g / D) ^ 2 * D = g / D * g := by field_simp
        rw [e2] at this
        nlinarith [mul_pos hgd hg]
    · intro hs
      by_contra hc
      have hg := not_le.mp hc
      have hs1 : 0 < s := lt_of_le_of_ne s0 (Ne.symm hs)
      have hgd : 0 < -g / D := div_pos (by linarith) hD
      rcases le_total s (-g / D) with hle | hle
      · have := h 0 (le_refl _) (by norm_num)
        have h2 : s * D ≤ -g := (le_div_iff₀ hD).mp hle
        nlinarith
      · have := h (s - -g / D) (by linarith) (by linarith)
        have e : s - -g / D - s = -(-g / D) := by ring
        rw [e] at this
        have e2 : (-(-g / D)) ^ 2 * D = -g / D * (-g) := by field_simp
        rw [e2] at this
        nlinarith [mul_pos hgd (neg_pos.mpr hg)]
  · rintro ⟨h1, h2⟩ t t0 t1
    have : 0 ≤ (t - s) ^ 2 * D := by positivity
    have h3 : (t - s) * g ≤ 0 := by
      rcases le_total t s with hle | hle
      · by_cases hs : s = 0
        · have : t = s := by linarith
          rw [this]; simp
        · have := h2 hs; nlinarith
      · by_cases hs : s = 1
        · have : t = s := by linarith
          rw [this]; simp
        · have := h1 hs; nlinarith
    linarith

theorem along_zero (a b : V3) : along a b 0 = a := by unfold along; simp

theorem along_one (a b : V3) : along a b 1 = b := by unfold along; simp

theorem quot_le {n w : V3} (h : 0 < n.dot n) : n.dot w / norm3 n ≤ 0 ↔ n.dot w ≤ 0 := by
  have hn : 0 < norm3 n := by
    rcases (norm3_nonneg n).lt_or_eq with x | x
    · exact x
    · have := norm3_sq n; rw [← x] at this; linarith
  rw [div_le_iff₀ hn, zero_mul]

/-- The conditions of `find_poca` say that each point is nearest to the other on its edge. -/
theorem kkt_iff {A0 A1 B0 B1 : V3} {s t : ℝ} (hA : A0 ≠ A1) (hB : B0 ≠ B1) (s0 : 0 ≤ s) (s1 : s ≤ 1) (t0 : 0 ≤ t) (t1 : t ≤ 1) :
    Kkt ((A1.sub A0).dot (A1.sub A0)) ((B1.sub B0).dot (B1.sub B0)) ((A1.sub A0).dot (B1.sub B0)) ((A1.sub A0).dot (B0.sub A0))
        ((B1.sub B0).dot (B0.sub A0)) s t ↔ NearestOn A0 A1 (along B0 B1 t) (along A0 A1 s) ∧ NearestOn B0 B1 (along A0 A1 s) (along B0 B1 t) := by
  rw [nearestOn_iff hA s0 s1, nearestOn_iff hB t0 t1]
  have ea : (A1.sub A0).dot ((along B0 B1 t).sub (along A0 A1 s)) = -((A1.sub A0).dot (A1.sub A0) * s - (A1.sub A0).dot (B1.sub B0) * t - (A1.sub A0).dot (B0.sub A0)) := by
    unfold along V3.sub V3.dot; simp only; ring
  have eb : (B1.sub B0).dot ((along A0 A1 s).sub (along B0 B1 t)) = -((B1.sub B0).dot (B1.sub B0) * t - (A1.sub A0).dot (B1.sub B0) * s + (B1.sub B0).dot (B0.sub A0)) := by
    unfold along V3.sub V3.dot; simp only; ring
  rw [ea, eb]
  constructor
  · intro h
    exact ⟨⟨fun x => by have := h.thi x; linarith, fun x => by have := h.tlo x; linarith⟩,
      ⟨fun x => by have := h.uhi x; linarith, fun x => by have := h.ulo x; linarith⟩⟩
  · rintro ⟨⟨a, b⟩, c, d⟩
    exact ⟨s0, s1, t0, t1, fun x => by have := b x; linarith, fun x => by have := a x; linarith, fun x => by have := d x; linarith,
      fun x => by have := c x; linarith⟩

theorem kkt_unique {d1 d2 d12 : V3} {s t s' t' : ℝ} (hd : 0 < d1.dot d1 * d2.dot d2 - d1.dot d2 * d1.dot d2)
    (h : Kkt (d1.dot d1) (d2.dot d2) (d1.dot d2) (d1.dot d12) (d2.dot d12) s t)
    (h' : Kkt (d1.dot d1) (d2.dot d2) (d1.dot d2) (d1.dot d12) (d2.dot d12) s' t') : s = s' ∧ t = t' := by
  have a := slope h'.t0 h'.t1 h.t0 h.t1 h.tlo h.thi
  have b := slope h'.u0 h'.u1 h.u0 h.u1 h.ulo h.uhi
  have c := slope h.t0 h.t1 h'.t0 h'.t1 h'.tlo h'.thi
  have d := slope h.u0 h.u1 h'.u0 h'.u1 h'.ulo h'.uhi
  obtain ⟨D1, e1⟩ : ∃ x, x = d1.dot d1 := ⟨_, rfl⟩
  obtain ⟨D2, e2⟩ : ∃ x, x = d2.dot d2 := ⟨_, rfl⟩
  obtain ⟨R, eR⟩ : ∃ x, x = d1.dot d2 := ⟨_, rfl⟩
  have p1 : 0 ≤ D1 := e1 ▸ dot_self_nonneg d1
  have p2 : 0 ≤ D2 := e2 ▸ dot_self_nonneg d2
  simp only [← e1, ← e2, ← eR] at hd a b c d
  have q : D1 * (s - s') ^ 2 - 2 * R * (s - s') * (t - t') + D2 * (t - t') ^ 2 ≤ 0 := by nlinarith
  have p1' : 0 < D1 := by
    rcases p1.lt_or_eq with x | x
    · exact x
    · rw [← x] at hd; nlinarith [mul_self_nonneg R]
  have p2' : 0 < D2 := by
    rcases p2.lt_or_eq with x | x
    · exact x
    · rw [← x] at hd; nlinarith [mul_self_nonneg R]
  have r1 : (D1 * D2 - R * R) * (t - t') ^ 2 ≤ 0 := by
    have : D1 * (D1 * (s - s') ^ 2 - 2 * R * (s - s') * (t - t') + D2 * (t - t') ^ 2) ≤ 0 := mul_nonpos_of_nonneg_of_nonpos p1 q
    nlinarith [sq_nonneg (D1 * (s - s') - R * (t - t'))]
  have r2 : (D1 * D2 - R * R) * (s - s') ^ 2 ≤ 0 := by
    have : D2 * (D1 * (s - s') ^ 2 - 2 * R * (s - s') * (t - t') + D2 * (t - t') ^ 2) ≤ 0 := mul_nonpos_of_nonneg_of_nonpos p2 q
    nlinarith [sq_nonneg (D2 * (t - t') - R * (s - s'))]
  have z : ∀ x : ℝ, (D1 * D2 - R * R) * x ^ 2 ≤ 0 → x = 0 := by
    intro x hx
    by_contra hne
    have : 0 < x ^ 2 := by positivity
    have := mul_pos hd this
    linarith
  have z1 := z _ r1
  have z2 := z _ r2
  exact ⟨by linarith, by linarith⟩

/-! ## Edges -/

theorem _root_.Plc.EdgeAt.lt {c : Comp} {v : Nat} {a b : V3} (h : EdgeAt c v a b) : v < c.vt.length := (List.getElem?_eq_some_iff.mp h.1).1

theorem _root_.Plc.EdgeAt.openLt {c : Comp} {v : Nat} {a b : V3} (h : EdgeAt c v a b) (ho : c.isOpen = true) : v + 1 < c.vt.length := by
  have := h.2
  rw [if_pos ho] at this
  exact (List.getElem?_eq_some_iff.mp this).1

theorem _root_.Plc.EdgeAt.same {c : Comp} {v : Nat} {a b a' b' : V3} (h : EdgeAt c v a b) (h' : EdgeAt c v a' b') : a = a' ∧ b = b' := by
  have x := h.1.symm.trans h'.1
  have y := h.2.symm.trans h'.2
  simp only [Option.some.injEq] at x y
  exact ⟨x, y⟩

theorem vtAt_nat {c : Comp} {v : Nat} {a : V3} (h : c.vt[v]? = some a) : vtAt c (v : Int) = .ok a := by
  have hv := (List.getElem?_eq_some_iff.mp h).1
  unfold vtAt
  rw [if_neg (by omega), if_neg (by omega), if_neg (by omega)]
  exact rd_ok (by simpa using h)

theorem vtAt_next {c : Comp} {v : Nat} {a b : V3} (h : EdgeAt c v a b) : vtAt c ((v : Int) + 1) = .ok b := by
  have hv := h.lt
  by_cases ho : c.isOpen = true
  · have := h.openLt ho
    have h2 := h.2
    rw [if_pos ho] at h2
    have := vtAt_nat h2
    push_cast at this
    exact this
  · have ho' : c.isOpen = false := by simpa using ho
    have h2 := h.2
    rw [if_neg ho] at h2
    by_cases hl : v + 1 = c.vt.length
    · rw [hl, Nat.mod_self] at h2
      unfold vtAt
      rw [if_neg (by omega), if_neg (by omega), if_pos (by omega), ho', if_neg (by simp)]
      exact rd_ok h2
    · rw [Nat.mod_eq_of_lt (by omega)] at h2
      have := vtAt_nat h2
      push_cast at this
      exact this

theorem vtAt_prev {c : Comp} {v : Nat} {a b : V3} (h : EdgeAt c v a b) (hl : 2 ≤ c.vt.length) : ∃ p, vtAt c ((v : Int) - 1) = .ok p ∧
    (∀ (u : Nat) (p' q' : V3), EdgeAt c u p' q' → (u + 1) % c.vt.length = v → p' = p ∧ q' = a) ∧
    ((∃ u, EdgeAt c u p a ∧ (u + 1) % c.vt.length = v) ∨ (p = b ∧ c.isOpen = true ∧ v = 0)) := by
  have hv := h.lt
  by_cases h0 : v = 0
  · subst h0
    by_cases ho : c.isOpen = true
    · have h2 := h.2
      rw [if_pos ho] at h2
      refine ⟨b, ?_, ?_, .inr ⟨rfl, ho, rfl⟩⟩
      · unfold vtAt
        rw [if_neg (by omega), if_pos (by omega), if_pos ho]
        exact rd_ok h2
      · intro u p' q' hu hm
        have := hu.openLt ho
        rw [Nat.mod_eq_of_lt this] at hm
        omega
    · have ho' : c.isOpen = false := by simpa using ho
      have hlast : c.vt.length - 1 < c.vt.length := by omega
      have e : c.vt.length - 1 + 1 = c.vt.length := by omega
      have hedge : EdgeAt c (c.vt.length - 1) c.vt[c.vt.length - 1] a := by
        refine ⟨List.getElem?_eq_getElem hlast, ?_⟩
        rw [if_neg ho, e, Nat.mod_self]
        exact h.1
      refine ⟨c.vt[c.vt.length - 1], ?_, ?_, .inl ⟨c.vt.length - 1, hedge, by rw [e, Nat.mod_self]⟩⟩
      · unfold vtAt
        rw [if_neg (by omega), if_pos (by omega), if_neg ho]
        exact rd_lt hlast
      · intro u p' q' hu hm
        have hu1 := hu.lt
        have : u = c.vt.length - 1 := by
          by_contra hne
          rw [Nat.mod_eq_of_lt (by omega)] at hm
          omega
        subst this
        exact hu.same hedge
  · have hp : v - 1 < c.vt.length := by omega
    have hedge : EdgeAt c (v - 1) c.vt[v - 1] a := by
      refine ⟨List.getElem?_eq_getElem hp, ?_⟩
      rw [show v - 1 + 1 = v by omega, Nat.mod_eq_of_lt hv, ite_self]
      exact h.1
    refine ⟨c.vt[v - 1], ?_, ?_, .inl ⟨v - 1, hedge, by rw [show v - 1 + 1 = v by omega, Nat.mod_eq_of_lt hv]⟩⟩
    · have := vtAt_nat (List.getElem?_eq_getElem hp)
      rw [show (v : Int) - 1 = ((v - 1 : Nat) : Int) by omega]
      exact this
    · intro u p' q' hu hm
      have hu1 := hu.lt
      have : u = v - 1 := by
        rcases Nat.lt_or_ge (u + 1) c.vt.length with hx | hx
        · rw [Nat.mod_eq_of_lt hx] at hm; omega
        · have : u + 1 = c.vt.length := by omega
          rw [this, Nat.mod_self] at hm; omega
      subst this
      exact hu.same hedge

/-- An edge of the list with all that is known of it. -/
structure Full (cp : List Comp) (e : Varr) (c : Comp) (e0 e1 e2 : V3) : Prop where
  known : Known cp e c e0 e1 e2
  edge : EdgeAt c e.vert e1 e2
  prev : ∀ (u : Nat) (p q : V3), EdgeAt c u p q → (u + 1) % c.vt.length = e.vert → p = e0 ∧ q = e1
  first : (∃ u, EdgeAt c u e0 e1 ∧ (u + 1) % c.vt.length = e.vert) ∨ e0 = e2
  prevNe : e0 ≠ e1

theorem full {cp : List Comp} {es : List Varr} (hE : Edged cp) (hes : EdgesOf cp es) {e : Varr} (he : e ∈ es) : ∃ c e0 e1 e2, Full cp e c e0 e1 e2 := by
  obtain ⟨c, a, b, h1, h2, h3, h4⟩ := hes.real e he
  obtain ⟨hl, _, hne⟩ := hE c (List.mem_of_getElem? h1)
  obtain ⟨p, p1, p2, p3⟩ := vtAt_prev h2 hl
  have hab := hne _ _ _ h2
  refine ⟨c, p, a, b, ⟨h1, p1, vtAt_nat h2.1, vtAt_next h2, h3, h4, hab⟩, h2, p2, ?_, ?_⟩
  · rcases p3 with h | h
    · exact .inl h
    · exact .inr h.1
  · rcases p3 with ⟨u, h, _⟩ | h
    · exact hne _ _ _ h
    · rw [h.1]; exact hab.symm

theorem allKnown {cp : List Comp} {es : List Varr} (hE : Edged cp) (hes : EdgesOf cp es) : AllKnown cp es := by
  intro e he
  obtain ⟨c, e0, e1, e2, h⟩ := full hE hes he
  exact ⟨c, e0, e1, e2, h.known⟩

theorem finalPv_iff {c : Comp} {v : Nat} : finalPv c (v + 1) = true ↔ c.isOpen = true ∧ v + 2 = c.vt.length := by
  unfold finalPv
  rw [Bool.and_eq_true, decide_eq_true_eq]
  constructor
  · rintro ⟨a, b⟩; exact ⟨a, by omega⟩
  · rintro ⟨a, b⟩; exact ⟨a, by omega⟩

/-- At the start of an edge. -/
theorem there_zero {cp : List Comp} {e : Varr} {c : Comp} {e0 e1 e2 y : V3} (h : Full cp e c e0 e1 e2) :
    NearestThere c e.vert e1 e2 0 y ↔ (e2.sub e1).dot (y.sub e1) ≤ 0 ∧ (e0.sub e1).dot (y.sub e1) ≤ 0 := by
  unfold NearestThere
  rw [nearestOn_iff h.known.ne (le_refl _) (by norm_num), along_zero]
  have hr : NearestOn e0 e1 y e1 ↔ (e0.sub e1).dot (y.sub e1) ≤ 0 := by
    have := nearestOn_iff (y := y) h.prevNe (s := 1) (by norm_num) (le_refl _)
    rw [along_one] at this
    rw [this]
    have e : (e1.sub e0).dot (y.sub e1) = -(e0.sub e1).dot (y.sub e1) := by unfold V3.sub V3.dot; ring
    rw [e]
    constructor
    · rintro ⟨_, h⟩; have := h (by norm_num); linarith
    · intro h; exact ⟨fun x => absurd rfl x, fun _ => by linarith⟩
  constructor
  · rintro ⟨⟨a, _⟩, b⟩
    refine ⟨a (by norm_num), ?_⟩
    rcases h.first with ⟨u, h1, h2⟩ | h1
    · exact hr.mp (b rfl u e0 e1 h1 h2)
    · rw [h1]; exact a (by norm_num)
  · rintro ⟨a, b⟩
    refine ⟨⟨fun _ => a, fun x => absurd rfl x⟩, fun _ u p q hu hm => ?_⟩
    obtain ⟨rfl, rfl⟩ := h.prev u p q hu hm
    exact hr.mpr b

theorem wedge_iff {cp : List Comp} {e : Varr} {c : Comp} {e0 e1 e2 f1 f2 : V3} {t : ℝ} (h : Full cp e c e0 e1 e2) :
    wedgeCheck e0 e1 e2 f1 f2 t = true ↔ NearestThere c e.vert e1 e2 0 (along f1 f2 t) := by
  rw [wedgeCheck_iff, there_zero h, quot_le (sub_dot_pos h.known.ne), quot_le (sub_dot_pos h.prevNe.symm)]

theorem there_of_pos {c : Comp} {v : Nat} {a b y : V3} {s : ℝ} (hs : s ≠ 0) : NearestThere c v a b s y ↔ NearestOn a b y (along a b s) := by
  unfold NearestThere
  exact ⟨fun h => h.1, fun h => ⟨h, fun x => absurd x hs⟩⟩

/-- A candidate is a strut. -/
theorem cand_sound {cp : List Comp} {es : List Varr} {pi : Int} {me e : Varr} {x : Strut} (hE : Edged cp) (hes : EdgesOf cp es) (hc : ClearCut cp)
    (hme : me ∈ es) (he : e ∈ es) (h : IsCand cp pi me e x) : StrutOf cp x ∧ FarAlong cp pi x := by
  obtain ⟨k, w0, w1, w2, k', f0, f1, f2, s, t, d, b1, b2, b3, b4, ⟨p1, p2, p3, p4⟩, rfl⟩ := h
  obtain ⟨c, v0, v1, v2, F⟩ := full hE hes hme
  obtain ⟨c', e0, e1, e2, F'⟩ := full hE hes he
  obtain ⟨rfl, rfl, rfl, rfl⟩ := F.known.same b1
  obtain ⟨rfl, rfl, rfl, rfl⟩ := F'.known.same b2
  obtain ⟨t', u', f, kk⟩ := findPoca_kkt F.known.ne F'.known.ne (hc _ _ _ _ _ _ _ _ _ _ F.known.comp F'.known.comp F.edge F'.edge)
  rw [b4] at f
  simp only [Option.some.injEq, Prod.mk.injEq] at f
  obtain ⟨rfl, rfl, rfl⟩ := f
  obtain ⟨n1, n2⟩ := (kkt_iff F.known.ne F'.known.ne kk.t0 kk.t1 kk.u0 kk.u1).mp kk
  constructor
  · refine ⟨c, c', v1, v2, e1, e2, F.known.comp, F'.known.comp, F.edge, F'.edge, ⟨kk.t0, ?_⟩, ⟨kk.u0, ?_⟩, gap_eq _ _ _ _ _ _, ?_, ?_⟩
    · by_cases hlt : s < 1
      · exact .inl hlt
      · exact .inr ⟨le_antisymm kk.t1 (not_lt.mp hlt), finalPv_iff.mp (p1.resolve_left hlt)⟩
    · by_cases hlt : t < 1
      · exact .inl hlt
      · exact .inr ⟨le_antisymm kk.u1 (not_lt.mp hlt), finalPv_iff.mp (p2.resolve_left hlt)⟩
    · by_cases hs : s = 0
      · simp only [hs]
        rw [hs] at p3
        exact (wedge_iff F).mp (p3.resolve_left (lt_irrefl _))
      · exact (there_of_pos hs).mpr n1
    · by_cases ht : t = 0
      · simp only [ht]
        rw [ht] at p4
        exact (wedge_iff F').mp (p4.resolve_left (lt_irrefl _))
      · exact (there_of_pos ht).mpr n2
  · intro hcc
    simp only at hcc
    refine ⟨c, F.known.comp, ?_⟩
    have : c' = c := by
      have := F'.known.comp
      rw [← hcc, F.known.comp] at this
      simpa using this.symm
    subst this
    unfold apartEnough at b3
    rw [decide_eq_true_eq] at b3
    rcases b3 with h | ⟨h1, h2⟩
    · exact absurd hcc.symm h
    · rw [abs_sub_comm] at h1 h2
      refine ⟨h1, fun ho => ?_⟩
      rcases h2 with h | h
      · rw [ho] at h; simp at h
      · simp only; omega

/-- A strut of edges which are not parallel is a candidate. -/
theorem cand_complete {cp : List Comp} {es : List Varr} {pi : Int} {me e : Varr} {x : Strut} (hE : Edged cp) (hes : EdgesOf cp es)
    (hme : me ∈ es) (he : e ∈ es) (h0 : me.comp = x.comp0) (h1 : me.vert = x.vert0) (h2 : e.comp = x.comp1) (h3 : e.vert = x.vert1)
    (hx : StrutOf cp x) (hf : FarAlong cp pi x) (ht : Transversal cp x) : IsCand cp pi me e x := by
  obtain ⟨c, v0, v1, v2, F⟩ := full hE hes hme
  obtain ⟨c', e0, e1, e2, F'⟩ := full hE hes he
  obtain ⟨k, k', a, b, a', b', g1, g2, g3, g4, ⟨s0, s1⟩, ⟨t0, t1⟩, g5, g6, g7⟩ := hx
  rw [← h0, F.known.comp] at g1
  rw [← h2, F'.known.comp] at g2
  simp only [Option.some.injEq] at g1 g2
  subst g1 g2
  rw [← h1] at g3 g6 s1
  rw [← h3] at g4 g7 t1
  obtain ⟨rfl, rfl⟩ := F.edge.same g3
  obtain ⟨rfl, rfl⟩ := F'.edge.same g4
  have ha : 1e-25 ≤ area v1 v2 e1 e2 ^ 2 := by
    obtain ⟨m, m', p, q, p', q', i1, i2, i3, i4, i5⟩ := ht
    rw [← h0, F.known.comp] at i1
    rw [← h2, F'.known.comp] at i2
    simp only [Option.some.injEq] at i1 i2
    subst i1 i2
    rw [← h1] at i3
    rw [← h3] at i4
    obtain ⟨rfl, rfl⟩ := F.edge.same i3
    obtain ⟨rfl, rfl⟩ := F'.edge.same i4
    exact i5
  obtain ⟨s, t, f, kk⟩ := findPoca_kkt F.known.ne F'.known.ne (.inr ha)
  have s1' : x.pos0 ≤ 1 := by
    rcases s1 with h | h
    · exact h.le
    · exact h.1.le
  have t1' : x.pos1 ≤ 1 := by
    rcases t1 with h | h
    · exact h.le
    · exact h.1.le
  have kx := (kkt_iff F.known.ne F'.known.ne s0 s1' t0 t1').mpr ⟨g6.1, g7.1⟩
  have hden : 0 < (v2.sub v1).dot (v2.sub v1) * (e2.sub e1).dot (e2.sub e1) - (v2.sub v1).dot (e2.sub e1) * (v2.sub v1).dot (e2.sub e1) := by
    rw [denom_eq]; exact lt_of_lt_of_le (by norm_num) ha
  obtain ⟨rfl, rfl⟩ := kkt_unique hden kk kx
  refine ⟨c, v0, v1, v2, c', e0, e1, e2, x.pos0, x.pos1, _, F.known, F'.known, ?_, f, ⟨?_, ?_, ?_, ?_⟩, ?_⟩
  · unfold apartEnough
    rw [decide_eq_true_eq]
    by_cases hcc : e.comp = me.comp
    · right
      obtain ⟨m, i1, i2, i3⟩ := hf (by rw [← h0, ← h2, hcc])
      rw [← h0, F.known.comp] at i1
      simp only [Option.some.injEq] at i1
      subst i1
      have : c' = c := by
        have := F'.known.comp
        rw [hcc, F.known.comp] at this
        simpa using this.symm
      subst this
      rw [← h1, ← h3, abs_sub_comm] at i2 i3
      refine ⟨i2, ?_⟩
      by_cases ho : c'.isOpen = true
      · exact .inl ho
      · right
        have := i3 (by simpa using ho)
        omega
    · exact .inl hcc
  · rcases s1 with h | h
    · exact .inl h
    · exact .inr (finalPv_iff.mpr h.2)
  · rcases t1 with h | h
    · exact .inl h
    · exact .inr (finalPv_iff.mpr h.2)
  · by_cases hs : x.pos0 = 0
    · right
      rw [hs] at g6
      exact (wedge_iff F).mpr g6
    · exact .inl (lt_of_le_of_ne s0 (Ne.symm hs))
  · by_cases hs : x.pos1 = 0
    · right
      rw [hs] at g7
      exact (wedge_iff F').mpr g7
    · exact .inl (lt_of_le_of_ne t0 (Ne.symm hs))
  · rw [h0, h1, h2, h3, gap_eq, ← g5]

theorem _root_.Plc.StrutOf.flip {cp : List Comp} {x : Strut} (h : StrutOf cp x) : StrutOf cp (Plc.flip x) := by
  obtain ⟨c, c', a, b, a', b', g1, g2, g3, g4, g5, g6, g7, g8, g9⟩ := h
  exact ⟨c', c, a', b', a, b, g2, g1, g4, g3, g6, g5, by rw [apart_comm]; exact g7, g9, g8⟩

theorem _root_.Plc.FarAlong.flip {cp : List Comp} {k : Int} {x : Strut} (h : FarAlong cp k x) : FarAlong cp k (Plc.flip x) := by
  intro hc
  obtain ⟨c, h1, h2, h3⟩ := h hc.symm
  refine ⟨c, ?_, ?_, ?_⟩
  · rw [hc]; exact h1
  · rw [abs_sub_comm]; exact h2
  · intro ho; rw [abs_sub_comm]; exact h3 ho

theorem area_comm (a b a' b' : V3) : area a b a' b' = area a' b' a b := by
  unfold area apart
  congr 1
  unfold distSq crossOf V3.sub
  ring

theorem _root_.Plc.Transversal.flip {cp : List Comp} {x : Strut} (h : Transversal cp x) : Transversal cp (Plc.flip x) := by
  obtain ⟨c, c', a, b, a', b', g1, g2, g3, g4, g5⟩ := h
  exact ⟨c', c, a', b', a, b, g2, g1, g4, g3, by rw [area_comm]; exact g5⟩

/-! ## No pair twice -/

theorem key_inj {es : List Varr} (h : (es.map fun e => (e.comp, e.vert)).Nodup) {i j : Nat} {e e' : Varr} (hi : es[i]? = some e) (hj : es[j]? = some e')
    (he : (e.comp, e.vert) = (e'.comp, e'.vert)) : i = j := by
  obtain ⟨li, ei⟩ := List.getElem?_eq_some_iff.mp hi
  obtain ⟨lj, ej⟩ := List.getElem?_eq_some_iff.mp hj
  have := (List.Nodup.getElem_inj_iff h (i := i) (j := j) (hi := by simpa using li) (hj := by simpa using lj)).mp (by
    simp only [List.getElem_map, ei, ej]; exact he)
  exact this

theorem IsCand.keys {cp : List Comp} {pi : Int} {me e : Varr} {x : Strut} (h : IsCand cp pi me e x) :
    (x.comp0, x.vert0) = (me.comp, me.vert) ∧ (x.comp1, x.vert1) = (e.comp, e.vert) := by
  obtain ⟨_, _, _, _, _, _, _, _, _, _, _, _, _, _, _, _, rfl⟩ := h
  exact ⟨rfl, rfl⟩

theorem candsIn_pairwise {cp : List Comp} {es : List Varr} {pi : Int} {i : Nat} {me : Varr} (hn : (es.map fun e => (e.comp, e.vert)).Nodup)
    (hme : es[i]? = some me) : ∀ (k j : Nat), (candsIn cp es pi i me k j).Pairwise (fun x y => ¬ SameEdges x y)
  | 0, _ => List.Pairwise.nil
  | k + 1, j => by
    unfold candsIn
    rw [List.pairwise_append]
    refine ⟨?_, candsIn_pairwise hn hme k (j + 1), ?_⟩
    · split
      · split
        · rcases cand cp pi me _ with _ | x
          · exact List.Pairwise.nil
          · exact List.pairwise_singleton _ _
        · exact List.Pairwise.nil
      · exact List.Pairwise.nil
    · intro x hx y hy hs
      obtain ⟨m, e', h1, h2, h3, h4, h5⟩ := (mem_candsIn _ _).mp hy
      split at hx
      · split at hx
        · rename_i hj _ e he
          have hc := cand_iff.mp (Option.mem_toList.mp hx)
          obtain ⟨k1, k2⟩ := hc.keys
          obtain ⟨k3, k4⟩ := h5.keys
          rcases hs with ⟨_, s2⟩ | ⟨s1, _⟩
          · have := key_inj hn he h4 (by rw [← k2, ← k4]; exact s2)
            omega
          · have := key_inj hn hme h4 (by rw [← k1, ← k4]; exact s1)
            omega
        · simp at hx
      · simp at hx

theorem allCands_pairwise {cp : List Comp} {es : List Varr} {pi : Int} (hn : (es.map fun e => (e.comp, e.vert)).Nodup) :
    ∀ (i : Nat), (allCands cp es pi i).Pairwise (fun x y => ¬ SameEdges x y)
  | 0 => List.Pairwise.nil
  | i + 1 => by
    unfold allCands
    rw [List.pairwise_append]
    refine ⟨?_, allCands_pairwise hn i, ?_⟩
    · split
      · rename_i me hme
        exact candsIn_pairwise hn hme _ _
      · exact List.Pairwise.nil
    · intro x hx y hy hs
      split at hx
      · rename_i me hme
        obtain ⟨m, e', h1, h2, h3, h4, h5⟩ := (mem_candsIn _ _).mp hx
        obtain ⟨k, l, me', e'', j1, j2, j3, j4, j5⟩ := (mem_allCands _).mp hy
        obtain ⟨k1, k2⟩ := h5.keys
        obtain ⟨k3, k4⟩ := j5.keys
        rcases hs with ⟨s1, _⟩ | ⟨s1, _⟩
        · have := key_inj hn hme j3 (by rw [← k1, ← k3]; exact s1)
          omega
        · have := key_inj hn hme j4 (by rw [← k1, ← k4]; exact s1)
          omega
      · simp at hx

theorem candsIn_length {cp : List Comp} {es : List Varr} {pi : Int} {i : Nat} {me : Varr} : ∀ (k j : Nat),
    (candsIn cp es pi i me k j).length ≤ i - j
  | 0, _ => by simp [candsIn]
  | k + 1, j => by
    unfold candsIn
    rw [List.length_append]
    have := candsIn_length (cp := cp) (es := es) (pi := pi) (i := i) (me := me) k (j + 1)
    split
    · split
      · rename_i e _
        have : (cand cp pi me e).toList.length ≤ 1 := by rcases cand cp pi me e with _ | x <;> simp
        omega
      · simp only [List.length_nil]; omega
    · simp only [List.length_nil]; omega

theorem allCands_length {cp : List Comp} {es : List Varr} {pi : Int} : ∀ (i : Nat), 2 * (allCands cp es pi i).length ≤ i * (i + 1)
  | 0 => by simp [allCands]
  | i + 1 => by
    unfold allCands
    rw [List.length_append]
    have h1 := allCands_length (cp := cp) (es := es) (pi := pi) i
    split
    · rename_i me _
      have := candsIn_length (cp := cp) (es := es) (pi := pi) (i := i + 1) (me := me) es.length 0
      rw [Nat.sub_zero] at this
      nlinarith
    · simp only [List.length_nil]; nlinarith

end Plc.Struts
