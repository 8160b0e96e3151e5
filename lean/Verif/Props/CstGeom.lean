import Verif.Proofs.CstGeom

/-! # C81: checking and repairing constraints -/

namespace Plc.Motions

open Plc.Core Plc.FindCrossings Plc.RandomPolygon Plc.Equilateral Plc.Cst

/-- The constraint concerns vertex `j` of component `i`. -/
def Concerns (c : Cst (V3 × V3)) (i j : Nat) : Prop := c.cmp = i ∧ c.vert ≤ (j : Int) ∧ (j : Int) < c.vert + c.num

theorem mem_vertsOf (c : Cst (V3 × V3)) (h0 : 0 ≤ c.vert) (h1 : c.kind = .fixed → c.num = 1) (v : Int) :
    v ∈ vertsOf c ↔ ∃ j : Nat, v = (j : Int) ∧ c.vert ≤ (j : Int) ∧ (j : Int) < c.vert + c.num := by
  unfold vertsOf
  split
  · rename_i hk
    rw [h1 hk, List.mem_singleton]
    constructor
    · intro h; exact ⟨v.toNat, by omega, by omega, by omega⟩
    · rintro ⟨j, rfl, h2, h3⟩; omega
  · rw [List.mem_map]
    constructor
    · rintro ⟨k, hk, rfl⟩
      rw [List.mem_range] at hk
      exact ⟨(c.vert + (k : Int)).toNat, by omega, by omega, by omega⟩
    · rintro ⟨j, rfl, h2, h3⟩
      exact ⟨((j : Int) - c.vert).toNat, by rw [List.mem_range]; omega, by omega⟩

theorem nodup_vertsOf (c : Cst (V3 × V3)) : (vertsOf c).Nodup := by
  unfold vertsOf
  split
  · exact List.nodup_singleton _
  · refine List.Nodup.map (fun a b h => ?_) List.nodup_range
    omega

theorem vertex_exists (L : Curve) (h : InRange L) (c : Cst (V3 × V3)) (hc : c ∈ L.cst) (j : Nat) (h1 : c.vert ≤ (j : Int))
    (h2 : (j : Int) < c.vert + c.num) : ∃ p, vertexOf L c.cmp j = some p := by
  obtain ⟨-, -, ⟨s, hs, hl⟩, -⟩ := h c hc
  unfold vertexOf
  rw [hs]
  exact ⟨_, List.getElem?_eq_getElem (show j < s.vt.length by omega)⟩

theorem sub_dot (p q : V3) : (p.sub q).dot (p.sub q) = distSq p q := by
  simp only [V3.dot, V3.sub, distSq]; ring

theorem distSq_nonneg (p q : V3) : 0 ≤ distSq p q := by unfold distSq; positivity

theorem apart_sq (p q : V3) : apart p q ^ 2 = distSq p q := Real.sq_sqrt (distSq_nonneg p q)

/-- The loop over the vertices of a constraint. -/
theorem checkOne_ok (L : Curve) (c : Cst (V3 × V3)) (hk : c.kind ≠ .unconstrained)
    (hd : c.kind = .line ∨ c.kind = .plane → dotOf c.vect.1 c.vect.1 > 1 / 2 ^ 52) :
    ∀ (vs : List Int) (m : ℝ), (∀ v ∈ vs, ∃ (j : Nat) (p : V3), v = (j : Int) ∧ vertexOf L c.cmp j = some p) →
      ∃ m', checkOne L.cp c vs m = .ok m' ∧ m ≤ m' ∧
        (∀ (j : Nat) (p : V3), (j : Int) ∈ vs → vertexOf L c.cmp j = some p → ∃ q, Allowed c q ∧ distSq p q ≤ m') ∧
        (m' = m ∨ ∃ (j : Nat) (p : V3), (j : Int) ∈ vs ∧ vertexOf L c.cmp j = some p ∧ ∀ q, Allowed c q → m' ≤ distSq p q)
  | [], m, _ => ⟨m, rfl, le_rfl, fun j p h => by simp at h, Or.inl rfl⟩
  | v :: vs, m, h => by
    obtain ⟨j, p, rfl, hp⟩ := h v (List.mem_cons_self ..)
    obtain ⟨r, hr, har, hmin⟩ := closest_ok c p hk hd
    obtain ⟨m', he, hle, hall, hex⟩ := checkOne_ok L c hk hd vs (max m (distSq p r)) (fun w hw => h w (List.mem_cons_of_mem _ hw))
    have hmin2 : ∀ q, Allowed c q → distSq p r ≤ distSq p q := by
      intro q hq
      rw [← apart_sq, ← apart_sq]
      exact pow_le_pow_left₀ (apart_nonneg _ _) (hmin q hq) 2
    refine ⟨m', ?_, (le_max_left _ _).trans hle, ?_, ?_⟩
    · rw [checkOne, getVert_ok L c.cmp j p hp, ok_bind, hr, ok_bind, sub_dot]
      exact he
    · intro j' p' hj' hp'
      rcases List.mem_cons.mp hj' with e | hj'
      · have : j' = j := by omega
        subst this
        rw [hp, Option.some.injEq] at hp'
        subst hp'
        exact ⟨r, har, (le_max_right _ _).trans hle⟩
      · exact hall j' p' hj' hp'
    · rcases hex with hex | ⟨j', p', hj', hp', hq⟩
      · rcases le_total (distSq p r) m with hm | hm
        · rw [max_eq_left hm] at hex; exact Or.inl hex
        · rw [max_eq_right hm] at hex
          exact Or.inr ⟨j, p, List.mem_cons_self .., hp, fun q hq => by rw [hex]; exact hmin2 q hq⟩
      · exact Or.inr ⟨j', p', List.mem_cons_of_mem _ hj', hp', hq⟩

/-- The loop over the constraints. -/
theorem checkAll_ok (L : Curve) : ∀ (cs : List (Cst (V3 × V3))) (m : ℝ),
    (∀ c ∈ cs, c.kind ≠ .unconstrained ∧ (c.kind = .line ∨ c.kind = .plane → dotOf c.vect.1 c.vect.1 > 1 / 2 ^ 52) ∧ 0 ≤ c.vert ∧
      (c.kind = .fixed → c.num = 1) ∧ ∀ j : Nat, c.vert ≤ (j : Int) → (j : Int) < c.vert + c.num → ∃ p, vertexOf L c.cmp j = some p) →
    ∃ m', checkAll L.cp cs m = .ok m' ∧ m ≤ m' ∧
      (∀ c ∈ cs, ∀ (j : Nat) (p : V3), Concerns c c.cmp j → vertexOf L c.cmp j = some p → ∃ q, Allowed c q ∧ distSq p q ≤ m') ∧
      (m' = m ∨ ∃ c ∈ cs, ∃ (j : Nat) (p : V3), Concerns c c.cmp j ∧ vertexOf L c.cmp j = some p ∧ ∀ q, Allowed c q → m' ≤ distSq p q)
  | [], m, _ => ⟨m, rfl, le_rfl, fun c hc => by simp at hc, Or.inl rfl⟩
  | c :: cs, m, h => by
    obtain ⟨hk, hd, h0, hf, hv⟩ := h c (List.mem_cons_self ..)
    have hm := mem_vertsOf c h0 hf
    obtain ⟨m1, he1, hle1, hall1, hex1⟩ := checkOne_ok L c hk hd (vertsOf c) m (fun v hv' => by
      obtain ⟨j, e, h1, h2⟩ := (hm v).mp hv'
      obtain ⟨p, hp⟩ := hv j h1 h2
      exact ⟨j, p, e, hp⟩)
    obtain ⟨m2, he2, hle2, hall2, hex2⟩ := checkAll_ok L cs m1 (fun c' hc' => h c' (List.mem_cons_of_mem _ hc'))
    refine ⟨m2, ?_, hle1.trans hle2, ?_, ?_⟩
    · rw [checkAll, assertC_ok (decide_eq_true hk), ok_bind, he1, ok_bind]
      exact he2
    · intro c' hc' j p hcon hp
      rcases List.mem_cons.mp hc' with rfl | hc'
      · obtain ⟨q, hq, hle⟩ := hall1 j p ((hm _).mpr ⟨j, rfl, hcon.2.1, hcon.2.2⟩) hp
        exact ⟨q, hq, hle.trans hle2⟩
      · exact hall2 c' hc' j p hcon hp
    · rcases hex2 with rfl | ⟨c', hc', hh⟩
      · rcases hex1 with rfl | ⟨j, p, hj, hp, hq⟩
        · exact Or.inl rfl
        · obtain ⟨j', e, h1, h2⟩ := (hm _).mp hj
          have : j' = j := by omega
          subst this
          exact Or.inr ⟨c, List.mem_cons_self .., j', p, ⟨rfl, h1, h2⟩, hp, hq⟩
      · exact Or.inr ⟨c', List.mem_cons_of_mem _ hc', hh⟩

/-- **C81.** `plc_check_cst` returns the largest distance of a constrained vertex from the nearest point where it may be. -/
theorem C81_check (L : Curve) (hr : InRange L) (hd : Definite L) :
    ∃ r, checkCst L = .ok r ∧ 0 ≤ r ∧
      (∀ c ∈ L.cst, ∀ (j : Nat) (p : V3), Concerns c c.cmp j → vertexOf L c.cmp j = some p → ∃ q, Allowed c q ∧ apart p q ≤ r) ∧
      (r = 0 ∨ ∃ c ∈ L.cst, ∃ (j : Nat) (p : V3), Concerns c c.cmp j ∧ vertexOf L c.cmp j = some p ∧ ∀ q, Allowed c q → r ≤ apart p q) := by
  obtain ⟨m, he, hle, hall, hex⟩ := checkAll_ok L L.cst 0 (fun c hc =>
    ⟨(hd c hc).1, (hd c hc).2, (hr c hc).1, (hr c hc).2.2.2, fun j h1 h2 => vertex_exists L hr c hc j h1 h2⟩)
  refine ⟨Real.sqrt m, by unfold checkCst; rw [he, ok_bind], Real.sqrt_nonneg _, ?_, ?_⟩
  · intro c hc j p hcon hp
    obtain ⟨q, hq, h⟩ := hall c hc j p hcon hp
    exact ⟨q, hq, Real.sqrt_le_sqrt h⟩
  · rcases hex with rfl | ⟨c, hc, j, p, hcon, hp, hq⟩
    · exact Or.inl Real.sqrt_zero
    · exact Or.inr ⟨c, hc, j, p, hcon, hp, fun q h => Real.sqrt_le_sqrt (hq q h)⟩

/-- **C81.** It returns 0 exactly for curves which obey their constraints. -/
theorem C81_check_zero (L : Curve) (hr : InRange L) (hd : Definite L) : checkCst L = .ok 0 ↔ Obeys L := by
  obtain ⟨r, he, h0, hall, hex⟩ := C81_check L hr hd
  rw [he, Except.ok.injEq]
  constructor
  · rintro rfl c hc j p h1 h2 hp
    obtain ⟨q, hq, hle⟩ := hall c hc j p ⟨rfl, h1, h2⟩ hp
    rw [apart_zero (le_antisymm hle (apart_nonneg _ _))]
    exact hq
  · intro ho
    rcases hex with h | ⟨c, hc, j, p, hcon, hp, hq⟩
    · exact h
    · have := hq p (ho c hc j p hcon.2.1 hcon.2.2 hp)
      rw [apart_self] at this
      exact le_antisymm this h0

/-- The vertex in a list of components. -/
def vget (cp : List Comp) (i j : Nat) : Option V3 := vertexOf ⟨cp, []⟩ i j

theorem setVert_ok (cp : List Comp) (i j : Nat) (p q : V3) (h : vget cp i j = some p) :
    ∃ cp', setVert cp i (j : Int) q = .ok cp' ∧ (∀ i' j', vget cp' i' j' = if i' = i ∧ j' = j then some q else vget cp i' j') ∧
      cp'.length = cp.length ∧ ∀ (k : Nat) (c : Comp), cp[k]? = some c → ∃ c', cp'[k]? = some c' ∧ c'.isOpen = c.isOpen ∧ c'.vt.length = c.vt.length := by
  unfold vget vertexOf at h
  split at h
  · rename_i c hc
    have hc' : cp[i]? = some c := hc
    have hj : j < c.vt.length := (List.getElem?_eq_some_iff.mp h).1
    have hi : i < cp.length := (List.getElem?_eq_some_iff.mp hc').1
    refine ⟨cp.set i { c with vt := c.vt.set j q }, ?_, ?_, by simp, ?_⟩
    · unfold setVert
      rw [rd_ok hc', ok_bind, if_neg (by omega), Int.toNat_natCast, wr_lt hj, ok_bind, wr_lt hi]
    · intro i' j'
      unfold vget vertexOf
      by_cases hii : i' = i
      · subst hii
        simp only [List.getElem?_set, hi, if_true, hc', true_and]
        by_cases hjj : j' = j
        · subst hjj; simp [hj]
        · rw [if_neg hjj, if_neg (fun e => hjj e.symm)]
      · rw [if_neg (fun hh => hii hh.1)]
        simp only [List.getElem?_set, if_neg (fun e : i = i' => hii e.symm)]
    · intro k d hd
      by_cases hk : i = k
      · subst hk
        rw [hc', Option.some.injEq] at hd
        subst hd
        exact ⟨{ c with vt := c.vt.set j q }, by rw [List.getElem?_set_self hi], rfl, by simp⟩
      · exact ⟨d, by rw [List.getElem?_set_ne hk]; exact hd, rfl, rfl⟩
  · simp at h

/-- What stays when vertices are moved. -/
def SameShape (cp cp' : List Comp) : Prop :=
  cp'.length = cp.length ∧ ∀ (k : Nat) (c : Comp), cp[k]? = some c → ∃ c', cp'[k]? = some c' ∧ c'.isOpen = c.isOpen ∧ c'.vt.length = c.vt.length

theorem SameShape.trans {a b c : List Comp} (h1 : SameShape a b) (h2 : SameShape b c) : SameShape a c := by
  refine ⟨h2.1.trans h1.1, fun k s hs => ?_⟩
  obtain ⟨s1, e1, o1, l1⟩ := h1.2 k s hs
  obtain ⟨s2, e2, o2, l2⟩ := h2.2 k s1 e1
  exact ⟨s2, e2, o2.trans o1, l2.trans l1⟩

theorem SameShape.refl (a : List Comp) : SameShape a a := ⟨rfl, fun _ c h => ⟨c, h, rfl, rfl⟩⟩

/-- The loop over the vertices of a constraint. -/
theorem fixOne_ok (c : Cst (V3 × V3)) (hk : c.kind ≠ .unconstrained)
    (hd : c.kind = .line ∨ c.kind = .plane → dotOf c.vect.1 c.vect.1 > 1 / 2 ^ 52) :
    ∀ (vs : List Int) (cp : List Comp), vs.Nodup → (∀ v ∈ vs, ∃ (j : Nat) (p : V3), v = (j : Int) ∧ vget cp c.cmp j = some p) →
      ∃ cp', fixOne c vs cp = .ok cp' ∧ SameShape cp cp' ∧
        (∀ i j : Nat, ¬ (i = c.cmp ∧ (j : Int) ∈ vs) → vget cp' i j = vget cp i j) ∧
        ∀ (j : Nat) (p : V3), (j : Int) ∈ vs → vget cp c.cmp j = some p → ∃ r, closest c p = .ok r ∧ vget cp' c.cmp j = some r
  | [], cp, _, _ => ⟨cp, rfl, SameShape.refl cp, fun _ _ _ => rfl, fun j p h => by simp at h⟩
  | v :: vs, cp, hn, h => by
    obtain ⟨j, p, rfl, hp⟩ := h v (List.mem_cons_self ..)
    obtain ⟨r, hr, -, -⟩ := closest_ok c p hk hd
    obtain ⟨cp1, he1, hg1, hs1⟩ := setVert_ok cp c.cmp j p r hp
    have hnv : (j : Int) ∉ vs := (List.nodup_cons.mp hn).1
    have hnj : ∀ j' : Nat, (j' : Int) ∈ vs → j' ≠ j := fun j' hj' e => hnv (by rw [← e]; exact hj')
    obtain ⟨cp2, he2, hs2, hsame, hset⟩ := fixOne_ok c hk hd vs cp1 (List.nodup_cons.mp hn).2 (fun w hw => by
      obtain ⟨j', p', e, hp'⟩ := h w (List.mem_cons_of_mem _ hw)
      subst e
      exact ⟨j', p', rfl, by rw [hg1, if_neg (fun q => hnj j' hw q.2)]; exact hp'⟩)
    refine ⟨cp2, ?_, SameShape.trans hs1 hs2, ?_, ?_⟩
    · rw [fixOne, getVert_ok ⟨cp, []⟩ c.cmp j p hp, ok_bind, hr, ok_bind, he1, ok_bind]
      exact he2
    · intro i j' hnot
      rw [hsame i j' (fun q => hnot ⟨q.1, List.mem_cons_of_mem _ q.2⟩), hg1, if_neg]
      rintro ⟨rfl, rfl⟩
      exact hnot ⟨rfl, List.mem_cons_self ..⟩
    · intro j' p' hj' hp'
      rcases List.mem_cons.mp hj' with e | hj'
      · have e' : j' = j := by omega
        subst e'
        rw [hp, Option.some.injEq] at hp'
        subst hp'
        refine ⟨r, hr, ?_⟩
        rw [hsame _ _ (fun q => hnv q.2), hg1, if_pos ⟨rfl, rfl⟩]
      · exact hset j' p' hj' (by rw [hg1, if_neg (fun q => hnj j' hj' q.2)]; exact hp')

/-- The loop over the constraints. -/
theorem fixAll_ok : ∀ (cs : List (Cst (V3 × V3))) (cp : List Comp),
    cs.Pairwise (fun a b => ∀ i j, Concerns a i j → ¬ Concerns b i j) →
    (∀ c ∈ cs, c.kind ≠ .unconstrained ∧ (c.kind = .line ∨ c.kind = .plane → dotOf c.vect.1 c.vect.1 > 1 / 2 ^ 52) ∧ 0 ≤ c.vert ∧
      (c.kind = .fixed → c.num = 1) ∧ ∀ j : Nat, c.vert ≤ (j : Int) → (j : Int) < c.vert + c.num → ∃ p, vget cp c.cmp j = some p) →
    ∃ cp', fixAll cs cp = .ok cp' ∧ SameShape cp cp' ∧
      (∀ i j, (∀ c ∈ cs, ¬ Concerns c i j) → vget cp' i j = vget cp i j) ∧
      ∀ c ∈ cs, ∀ (i j : Nat) (p : V3), Concerns c i j → vget cp i j = some p → ∃ r, closest c p = .ok r ∧ vget cp' i j = some r
  | [], cp, _, _ => ⟨cp, rfl, SameShape.refl cp, fun _ _ _ => rfl, fun c hc => by simp at hc⟩
  | c :: cs, cp, hpw, h => by
    obtain ⟨hk, hd, h0, hf, hv⟩ := h c (List.mem_cons_self ..)
    obtain ⟨hpw1, hpw2⟩ := List.pairwise_cons.mp hpw
    have hm := mem_vertsOf c h0 hf
    have hm' : ∀ i j : Nat, (i = c.cmp ∧ (j : Int) ∈ vertsOf c) ↔ Concerns c i j := by
      intro i j
      rw [hm]
      constructor
      · rintro ⟨rfl, j', e, h1, h2⟩
        have : j' = j := by omega
        subst this
        exact ⟨rfl, h1, h2⟩
      · rintro ⟨rfl, h1, h2⟩
        exact ⟨rfl, j, rfl, h1, h2⟩
    obtain ⟨cp1, he1, hs1, hsame1, hset1⟩ := fixOne_ok c hk hd (vertsOf c) cp (nodup_vertsOf c) (fun v hv' => by
      obtain ⟨j, e, h1, h2⟩ := (hm v).mp hv'
      obtain ⟨p, hp⟩ := hv j h1 h2
      exact ⟨j, p, e, hp⟩)
    have hkeep : ∀ c' ∈ cs, ∀ i j, Concerns c' i j → vget cp1 i j = vget cp i j := by
      intro c' hc' i j hcon
      exact hsame1 i j (fun q => hpw1 c' hc' i j ((hm' i j).mp q) hcon)
    obtain ⟨cp2, he2, hs2, hsame2, hset2⟩ := fixAll_ok cs cp1 hpw2 (fun c' hc' => by
      obtain ⟨a1, a2, a3, a4, a5⟩ := h c' (List.mem_cons_of_mem _ hc')
      refine ⟨a1, a2, a3, a4, fun j h1 h2 => ?_⟩
      rw [hkeep c' hc' c'.cmp j ⟨rfl, h1, h2⟩]
      exact a5 j h1 h2)
    refine ⟨cp2, ?_, SameShape.trans hs1 hs2, ?_, ?_⟩
    · rw [fixAll, assertC_ok (decide_eq_true hk), ok_bind, he1, ok_bind]
      exact he2
    · intro i j hno
      rw [hsame2 i j (fun c' hc' => hno c' (List.mem_cons_of_mem _ hc')),
        hsame1 i j (fun q => hno c (List.mem_cons_self ..) ((hm' i j).mp q))]
    · intro c' hc' i j p hcon hp
      rcases List.mem_cons.mp hc' with rfl | hc'
      · obtain ⟨e, hmem⟩ := (hm' i j).mpr hcon
        subst e
        obtain ⟨r, hr, hg⟩ := hset1 j p hmem hp
        refine ⟨r, hr, ?_⟩
        rw [hsame2 _ _ (fun d hd' hcd => hpw1 d hd' _ j hcon hcd)]
        exact hg
      · exact hset2 c' hc' i j p hcon (by rw [hkeep c' hc' i j hcon]; exact hp)

theorem vertexOf_vget (L : Curve) (i j : Nat) : vertexOf L i j = vget L.cp i j := rfl

theorem vget_fixWrap (cp : List Comp) (i j : Nat) : vget (cp.map fixWrap) i j = vget cp i j := by
  unfold vget vertexOf
  simp only [List.getElem?_map]
  cases cp[i]? with
  | none => rfl
  | some c => rfl

theorem Tidy.apart {l : List (Cst (V3 × V3))} (h : Tidy l) : l.Pairwise (fun a b => ∀ i j, Concerns a i j → ¬ Concerns b i j) := by
  refine h.1.imp (fun {a b} hab i j h1 h2 => ?_)
  obtain ⟨e1, e2, e3⟩ := h1
  obtain ⟨f1, f2, f3⟩ := h2
  rcases hab with hab | ⟨hab, hle⟩ <;> omega

/-- **C81.** `plc_fix_cst`, with a list of constraints as the library keeps it: afterwards the curve obeys the constraints, `plc_check_cst`
returns 0, constrained vertices have moved no farther than necessary, the others not at all. -/
theorem C81_fix (L : Curve) (hr : InRange L) (hd : Definite L) (ht : Tidy L.cst) :
    ∃ L', fixCst L = .ok L' ∧ L'.cst = L.cst ∧ Obeys L' ∧ checkCst L' = .ok 0 ∧
      (∀ i j p, vertexOf L i j = some p → (∀ c ∈ L.cst, ¬ Concerns c i j) → vertexOf L' i j = some p) ∧
      ∀ c ∈ L.cst, ∀ i j p, vertexOf L i j = some p → Concerns c i j →
        ∃ p', vertexOf L' i j = some p' ∧ Allowed c p' ∧ ∀ q, Allowed c q → apart p p' ≤ apart p q := by
  obtain ⟨cp, he, hs, hsame, hset⟩ := fixAll_ok L.cst L.cp (Tidy.apart ht) (fun c hc =>
    ⟨(hd c hc).1, (hd c hc).2, (hr c hc).1, (hr c hc).2.2.2, fun j h1 h2 => vertex_exists L hr c hc j h1 h2⟩)
  obtain ⟨L', hL'⟩ : ∃ L' : Curve, L' = { L with cp := cp.map fixWrap } := ⟨_, rfl⟩
  have hv : ∀ i j, vertexOf L' i j = vget cp i j := by
    intro i j
    rw [vertexOf_vget, hL']
    exact vget_fixWrap cp i j
  have hnear : ∀ c ∈ L.cst, ∀ i j p, vertexOf L i j = some p → Concerns c i j →
      ∃ p', vertexOf L' i j = some p' ∧ Allowed c p' ∧ ∀ q, Allowed c q → apart p p' ≤ apart p q := by
    intro c hc i j p hp hcon
    obtain ⟨r, hcr, hg⟩ := hset c hc i j p hcon hp
    obtain ⟨r', hr', h1, h2⟩ := closest_ok c p (hd c hc).1 (hd c hc).2
    rw [hcr, Except.ok.injEq] at hr'
    subst hr'
    exact ⟨r, by rw [hv]; exact hg, h1, h2⟩
  have hcst : L'.cst = L.cst := by rw [hL']
  have hob : Obeys L' := by
    intro c hc j p h1 h2 hp
    rw [hcst] at hc
    obtain ⟨p0, hp0⟩ := vertex_exists L hr c hc j h1 h2
    obtain ⟨p', hp', ha, -⟩ := hnear c hc c.cmp j p0 hp0 ⟨rfl, h1, h2⟩
    rw [hp, Option.some.injEq] at hp'
    subst hp'
    exact ha
  have hr' : InRange L' := by
    intro c hc
    rw [hcst] at hc
    obtain ⟨h1, h2, ⟨s, hs', hl⟩, h4⟩ := hr c hc
    obtain ⟨s', e, -, hl'⟩ := hs.2 c.cmp s hs'
    refine ⟨h1, h2, ⟨fixWrap s', ?_, ?_⟩, h4⟩
    · rw [hL']; simp only [List.getElem?_map, e, Option.map_some]
    · show c.vert + c.num ≤ (s'.vt.length : Int)
      rw [hl']; exact hl
  have hd' : Definite L' := by
    intro c hc
    rw [hcst] at hc
    exact hd c hc
  refine ⟨L', ?_, hcst, hob, (C81_check_zero L' hr' hd').mpr hob, ?_, hnear⟩
  · unfold fixCst
    rw [he, ok_bind, hL']
  · intro i j p hp hno
    rw [hv, hsame i j hno]
    exact hp

/-- A concrete curve: a triangle with its first vertex fixed and the other two on a plane. -/
noncomputable def triangle : Curve :=
  ⟨[⟨false, [⟨1, 2, 3⟩, ⟨1, 0, 0⟩, ⟨0, 1, 5⟩]⟩],
    [⟨.fixed, (⟨0, 0, 0⟩, ⟨0, 0, 0⟩), 0, 0, 1⟩, ⟨.plane, (⟨0, 1, 0⟩, ⟨1, 0, 0⟩), 0, 1, 2⟩]⟩

theorem triangle_ok : InRange triangle ∧ Definite triangle ∧ Tidy triangle.cst ∧ ¬ Obeys triangle := by
  refine ⟨?_, ?_, ?_, ?_⟩
  · intro c hc
    simp only [triangle, List.mem_cons, List.not_mem_nil, or_false] at hc
    rcases hc with rfl | rfl
    · exact ⟨by simp, by simp, ⟨_, rfl, by simp⟩, by simp⟩
    · exact ⟨by simp, by simp, ⟨_, rfl, by simp⟩, by simp⟩
  · intro c hc
    simp only [triangle, List.mem_cons, List.not_mem_nil, or_false] at hc
    rcases hc with rfl | rfl
    · exact ⟨by simp, by simp⟩
    · refine ⟨by simp, fun _ => by norm_num [dotOf]⟩
  · refine ⟨?_, ?_⟩
    · simp [triangle]
    · intro c hc
      simp only [triangle, List.mem_cons, List.not_mem_nil, or_false] at hc
      rcases hc with rfl | rfl <;> simp
  · intro h
    have := h _ (List.mem_cons_self ..) 0 ⟨1, 2, 3⟩ (by simp) (by simp) rfl
    have hx := congrArg V3.x (show (⟨1, 2, 3⟩ : V3) = ⟨0, 0, 0⟩ from this)
    norm_num at hx

end Plc.Motions
