import Verif.Proofs.Isotopy

/-! # Tags, and the whole search -/

namespace Plc.Isotopy

open Plc.Cmp Plc.PermM Plc.Emap Plc.Isos Plc.Ok Plc.Places Plc.Multidx Plc.IsoSearch Plc.Iters List

/-! ### Tags -/

theorem findTag_some {tag : Nat} : ∀ {l : List Comp} {j t : Nat}, findTag tag l j = some t →
    ∃ i b, t = j + i ∧ l[i]? = some b ∧ b.tag = tag
  | [], j, t, h => by simp [findTag] at h
  | b :: l, j, t, h => by
    rw [findTag] at h
    split at h
    · next hb =>
      cases h
      exact ⟨0, b, rfl, rfl, hb⟩
    · obtain ⟨i, b', h1, h2, h3⟩ := findTag_some h
      exact ⟨i + 1, b', by omega, h2, h3⟩

theorem findTag_none {tag : Nat} : ∀ {l : List Comp} {j : Nat}, findTag tag l j = none ↔ ∀ b ∈ l, b.tag ≠ tag
  | [], j => by simp [findTag]
  | b :: l, j => by
    rw [findTag]
    by_cases hb : b.tag = tag
    · simp [hb]
    · rw [if_neg hb, findTag_none]
      simp [hb]

theorem tagPerm_spec {B : List Comp} : ∀ {A : List Comp}, (∀ k ∈ A, ∃ b ∈ B, b.tag = k.tag) →
    ∃ m, tagPerm B A = .ok m ∧ m.length = A.length ∧
      ∀ (c : Nat) k, A[c]? = some k → ∃ t b, m[c]? = some t ∧ B[t]? = some b ∧ b.tag = k.tag
  | [], _ => ⟨[], rfl, rfl, by simp⟩
  | a :: A, h => by
    obtain ⟨m, m1, m2, m3⟩ := tagPerm_spec (A := A) (fun k hk => h k (by simp [hk]))
    cases hf : findTag a.tag B 0 with
    | none =>
      obtain ⟨b, hb, hbt⟩ := h a (by simp)
      exact absurd hbt (findTag_none.mp hf b hb)
    | some j =>
      obtain ⟨i, b, h1, h2, h3⟩ := findTag_some hf
      refine ⟨j :: m, by rw [tagPerm, hf, m1]; rfl, by simp [m2], ?_⟩
      intro c k hk
      cases c with
      | zero =>
        cases hk
        exact ⟨j, b, rfl, by rw [h1, Nat.zero_add]; exact h2, h3⟩
      | succ c => exact m3 c k hk

theorem tagPerm_missing {B : List Comp} : ∀ {A : List Comp}, (∃ k ∈ A, ∀ b ∈ B, b.tag ≠ k.tag) → tagPerm B A = .error .die
  | [], h => by simp at h
  | a :: A, h => by
    rw [tagPerm]
    cases hf : findTag a.tag B 0 with
    | none => rfl
    | some j =>
      have : ∃ k ∈ A, ∀ b ∈ B, b.tag ≠ k.tag := by
        obtain ⟨k, hk, hkb⟩ := h
        rcases List.mem_cons.mp hk with rfl | hk
        · rw [findTag_none.mpr hkb] at hf
          cases hf
        · exact ⟨k, hk, hkb⟩
      dsimp only
      rw [tagPerm_missing this]
      rfl

/-- Which permutations pass with the index of the first one. -/
theorem permOk_zero {m : List Nat} (h1 : 1 ≤ m.length) :
    ∃ b, permOk ⟨m, 0⟩ = .ok b ∧ (b = true ↔ m ~ List.range m.length ∧ (m.length ≤ 6 → m = List.range m.length)) := by
  obtain ⟨b, b1, b2⟩ := C07_perm_ok_exact ⟨m, 0⟩ h1 (fun _ => (Nat.factorial_pos _).ne)
  refine ⟨b, b1, ?_⟩
  rw [b2]
  refine and_congr_right ?_
  intro hm
  replace hm : m ~ List.range m.length := hm
  refine imp_congr_right ?_
  intro h6
  change (filter (fun q => decide (q < m)) (List.range m.length).permutations).length = 0 ↔ _
  obtain ⟨visit, v1, v2, v3, v4⟩ := C05_perm_iterator m.length h1
  have v0 : (visit 0).map = List.range m.length := by
    have := v1 0
    rw [iterRes] at this
    rw [← Except.ok.inj this]
    rfl
  rw [List.length_eq_zero_iff, List.filter_eq_nil_iff]
  constructor
  · intro h
    obtain ⟨i, i1, i2⟩ := (v3 m).mp hm
    rcases Nat.eq_zero_or_pos i with rfl | hi
    · rw [← i2, v0]
      simp
    · have h3 := v2 0 i hi i1
      rw [i2, v0] at h3
      exact absurd (decide_eq_true h3) (h _ (List.mem_permutations.mpr (List.Perm.refl _)))
  · intro h q hq hlt
    have hq' := List.mem_permutations.mp hq
    obtain ⟨i, i1, i2⟩ := (v3 q).mp hq'
    have hlt' : q < List.range m.length := by
      rw [← h]
      exact of_decide_eq_true hlt
    rcases Nat.eq_zero_or_pos i with rfl | hi
    · rw [← i2, v0] at hlt'
      exact lt_irrefl _ hlt'
    · have h3 := v2 0 i hi i1
      rw [i2, v0] at h3
      exact lt_irrefl _ (lt_trans h3 hlt')

theorem tags_perm {A B : List Comp} {m : List Nat} (hl : m.length = A.length) (hAB : A.length = B.length)
    (hnd : (A.map (·.tag)).Nodup)
    (h : ∀ (c : Nat) k, A[c]? = some k → ∃ t b, m[c]? = some t ∧ B[t]? = some b ∧ b.tag = k.tag) :
    m ~ List.range A.length := by
  refine perm_range_of hl ?_ ?_
  · intro x hx
    obtain ⟨c, hc⟩ := List.mem_iff_getElem?.mp hx
    have hcl : c < A.length := by rw [← hl]; exact (List.getElem?_eq_some_iff.mp hc).1
    obtain ⟨t, b, t1, t2, -⟩ := h c _ (List.getElem?_eq_getElem hcl)
    rw [hc] at t1
    cases t1
    rw [hAB]
    exact (List.getElem?_eq_some_iff.mp t2).1
  · rw [List.nodup_iff_injective_getElem]
    rintro ⟨c, hc⟩ ⟨d, hd⟩ hcd
    simp only at hcd
    obtain ⟨t, b, t1, t2, t3⟩ := h c _ (List.getElem?_eq_getElem (by omega))
    obtain ⟨u, b', u1, u2, u3⟩ := h d _ (List.getElem?_eq_getElem (by omega))
    rw [List.getElem?_eq_getElem hc, Option.some.injEq] at t1
    rw [List.getElem?_eq_getElem hd, Option.some.injEq] at u1
    rw [← t1, hcd, u1, u2] at t2
    cases t2
    rw [t3] at u3
    have := (List.Nodup.getElem_inj_iff hnd (i := c) (j := d) (hi := by simpa using (by omega)) (hj := by simpa using (by omega))).mp
      (by rw [List.getElem_map, List.getElem_map]; exact u3)
    simpa using this

/-- Equal lists of tags give the permutation that moves nothing, and no other lists do. -/
theorem tags_same {A B : List Comp} {m : List Nat} (hl : m.length = A.length) (hAB : A.length = B.length)
    (hnd : (B.map (·.tag)).Nodup)
    (h : ∀ (c : Nat) k, A[c]? = some k → ∃ t b, m[c]? = some t ∧ B[t]? = some b ∧ b.tag = k.tag) :
    m = List.range m.length ↔ A.map (·.tag) = B.map (·.tag) := by
  constructor
  · intro hm
    apply List.ext_getElem (by simpa using hAB)
    intro c h1 h2
    have hc : c < A.length := by simpa using h1
    obtain ⟨t, b, t1, t2, t3⟩ := h c _ (List.getElem?_eq_getElem hc)
    rw [hm, List.getElem?_range (by omega), Option.some.injEq] at t1
    subst t1
    obtain ⟨h3, h4⟩ := List.getElem?_eq_some_iff.mp t2
    rw [List.getElem_map, List.getElem_map, h4, t3]
  · intro hAB'
    apply List.ext_getElem (by simp)
    intro c h1 h2
    have hc : c < A.length := by omega
    obtain ⟨t, b, t1, t2, t3⟩ := h c _ (List.getElem?_eq_getElem hc)
    rw [List.getElem?_eq_getElem h1, Option.some.injEq] at t1
    rw [t1, List.getElem_range]
    obtain ⟨h3, h4⟩ := List.getElem?_eq_some_iff.mp t2
    refine (List.Nodup.getElem_inj_iff hnd (i := t) (j := c) (hi := by simpa using h3) (hj := by simpa using (by omega))).mp ?_
    have : (A.map (·.tag))[c]'(by simpa using hc) = (B.map (·.tag))[c]'(by simpa using (by omega)) := by
      simp only [hAB']
    rw [← this, List.getElem_map, List.getElem_map, h4, t3]

/-! ### Signs -/

theorem writhe_eq {A B : List Cross} {σ : List Nat} (hAB : B.length = A.length) (hσ : σ ~ List.range A.length)
    (h : ∀ (c : Nat) x, A[c]? = some x → ∃ i z, σ[c]? = some i ∧ B[i]? = some z ∧ z.sign = x.sign) : writhe A = writhe B := by
  have hl : σ.length = A.length := by simpa using hσ.length_eq
  unfold writhe
  set g : Cross → Int := fun x => if x.sign = .pos then 1 else -1 with hg
  have e1 : A.map g = σ.map (fun i => g B[i]!) := by
    apply List.ext_getElem (by simp [hl])
    intro c h1 h2
    have hc : c < A.length := by simpa using h1
    obtain ⟨i, z, i1, i2, i3⟩ := h c _ (List.getElem?_eq_getElem hc)
    rw [List.getElem?_eq_getElem (by omega), Option.some.injEq] at i1
    rw [List.getElem_map, List.getElem_map, i1, getElem!_def, i2]
    simp only [hg]
    rw [i3]
  have e2 : B.map g = (List.range A.length).map (fun i => g B[i]!) := by
    apply List.ext_getElem (by simp [hAB])
    intro c h1 h2
    have hc : c < B.length := by simpa using h1
    rw [List.getElem_map, List.getElem_map, List.getElem_range, getElem!_pos B c hc]
  rw [e1, e2]
  exact (hσ.map _).sum_eq

/-! ### The whole search -/

section

variable {A B : Io.Pd}

theorem comps_pos (h : Tidy A.cross A.edge (retag A.comp) A.face) : 1 ≤ A.comp.length := by
  rcases Nat.eq_zero_or_pos A.comp.length with h0 | h0
  · have := flat_tidy h
    rw [List.length_eq_zero_iff.mp h0] at this
    have h1 : A.edge.length = 0 := by simpa using (congrArg List.length this).symm
    rw [h.plane.consistent.count] at h1
    exact absurd (List.length_eq_zero_iff.mp (by omega)) h.plane.nonempty
  · exact h0

theorem agree (qA qB : QSort) (hA : Tidy A.cross A.edge (retag A.comp) A.face) (hB : Tidy B.cross B.edge (retag B.comp) B.face)
    (hhA : HashGen.regenHash qA A.cross.length A.edge.length A.face A.comp = .ok A.hash)
    (hhB : HashGen.regenHash qB B.cross.length B.edge.length B.face B.comp = .ok B.hash)
    {κ τ : List Nat} {os : List Or} {σ : List Nat} {o : Or} {φ : List Nat} {of : Or}
    (h : IsoMaps A B κ τ os σ o φ of) : A.hash = B.hash ∧ A.cross.length = B.cross.length ∧
      A.edge.length = B.edge.length ∧ A.comp.length = B.comp.length ∧ A.face.length = B.face.length ∧
      compSizes A.comp = compSizes B.comp ∧
      A.face.map (fun f => f.edge.length) = B.face.map (fun f => f.edge.length) := by
  have := (maps_retag.mpr h).agree (A := retagged A) (B := retagged B) qA qB hA hB ((hash_retag ..).trans hhA)
    ((hash_retag ..).trans hhB)
  obtain ⟨h1, h2, h3, h4, h5, h6, h7⟩ := this
  refine ⟨h1, h2, h3, by simpa [retagged, retag_length] using h4, h5, ?_, h7⟩
  have e : ∀ X : Io.Pd, compSizes (retagged X).comp = compSizes X.comp := fun X => retag_sizes X.comp
  rw [e, e] at h6
  exact h6

theorem diagramIsotopies_ok (qs qA qB : QSort) (bs : BSearch)
    (hA : Tidy A.cross A.edge (retag A.comp) A.face) (hB : Tidy B.cross B.edge (retag B.comp) B.face)
    (hhA : HashGen.regenHash qA A.cross.length A.edge.length A.face A.comp = .ok A.hash)
    (hhB : HashGen.regenHash qB B.cross.length B.edge.length B.face B.comp = .ok B.hash)
    (hprod : (A.comp.map (fun k => k.edge.length)).prod < 2 ^ 32)
    (hnA : (A.comp.map (·.tag)).Nodup) (hnB : (B.comp.map (·.tag)).Nodup)
    (htags : A.comp.length = B.comp.length → A.comp.map (·.tag) = B.comp.map (·.tag) ∨
      (6 < A.comp.length ∧ ∀ k ∈ A.comp, ∃ b ∈ B.comp, b.tag = k.tag)) :
    ∃ L, diagramIsotopies qs bs A B = .ok L ∧ (L.map isoData).Nodup ∧ (∀ i ∈ L, i.cmap ≠ none ∧ isoOk i = .ok true) ∧
      ∀ κ τ os oc σ of φ, (κ, (τ, os), (oc, σ), (of, φ)) ∈ L.map isoData ↔
        oc = of ∧ oc ≠ .unset ∧ IsotopyMaps A B κ τ os σ oc φ := by
  by_cases hall : A.hash = B.hash ∧ A.cross.length = B.cross.length ∧
      A.edge.length = B.edge.length ∧ A.comp.length = B.comp.length ∧ A.face.length = B.face.length ∧
      compSizes A.comp = compSizes B.comp ∧ A.face.map (fun f => f.edge.length) = B.face.map (fun f => f.edge.length) ∧
      writhe A.cross = writhe B.cross
  · obtain ⟨a1, a2, a3, a4, a5, a6, a7, a8⟩ := hall
    have hR : Ready A B := ⟨hA, hB, a2.symm, a6, hprod⟩
    have hex : ∀ k ∈ A.comp, ∃ b ∈ B.comp, b.tag = k.tag := by
      rcases htags a4 with h | h
      · intro k hk
        have : k.tag ∈ A.comp.map (·.tag) := List.mem_map_of_mem hk
        rw [h] at this
        obtain ⟨b, b1, b2⟩ := List.mem_map.mp this
        exact ⟨b, b1, b2⟩
      · exact h.2
    obtain ⟨m, m1, m2, m3⟩ := tagPerm_spec hex
    have hperm := tags_perm m2 a4 hnA m3
    obtain ⟨b, b1, b2⟩ := permOk_zero (m := m) (by rw [m2]; exact comps_pos hA)
    have hb : b = true := by
      rw [b2]
      refine ⟨by rw [m2]; exact hperm, ?_⟩
      intro h6
      rcases htags a4 with h | h
      · exact (tags_same m2 a4 hnB m3).mpr h
      · omega
    rw [hb] at b1
    obtain ⟨s, s1, s2⟩ := sizesAgree_ok (B := B.comp) (cp := m) A.comp 0 (by
      intro i hi
      obtain ⟨t, b, t1, t2, -⟩ := m3 i _ (List.getElem?_eq_getElem hi)
      exact ⟨t, b, by rw [Nat.zero_add]; exact t1, t2⟩)
    simp only [Nat.zero_add] at s2
    unfold diagramIsotopies
    rw [if_neg (not_not.mpr a1), if_neg (not_not.mpr a2), if_neg (not_not.mpr a3), if_neg (not_not.mpr a4),
      if_neg (not_not.mpr a5), if_neg (not_not.mpr a6), if_neg (not_not.mpr a7), if_neg (not_not.mpr a8), m1, ok_bind]
    dsimp only
    rw [b1, ok_bind, if_pos rfl, s1, ok_bind]
    cases s with
    | false =>
      refine ⟨[], rfl, by simp, by simp, ?_⟩
      intro κ τ os oc σ of φ
      simp only [List.map_nil, List.not_mem_nil, false_iff]
      rintro ⟨-, -, h⟩
      have : (false = true) := by
        rw [s2]
        intro c k hk
        obtain ⟨t, b, dir, t1, t2, -, t4, -⟩ := h.maps.along c k hk
        obtain ⟨t', b', u1, u2, u3⟩ := h.tags c k hk
        rw [t1] at u1
        cases u1
        rw [t2] at u2
        cases u2
        obtain ⟨v, b'', v1, v2, v3⟩ := m3 c k hk
        obtain ⟨x1, x2⟩ := List.getElem?_eq_some_iff.mp t2
        obtain ⟨y1, y2⟩ := List.getElem?_eq_some_iff.mp v2
        have htv : t = v := by
          refine (List.Nodup.getElem_inj_iff hnB (hi := by simpa using x1) (hj := by simpa using y1)).mp ?_
          rw [List.getElem_map, List.getElem_map, x2, y2, u3, v3]
        exact ⟨t, b, by rw [htv]; exact v1, t2, listCarried_length t4⟩
      cases this
    | true =>
      have hp : TagPerm A B ⟨m, 0⟩ := ⟨b1, hperm, m3, s2.mp rfl⟩
      obtain ⟨e1, e2, e3, e4, -⟩ := sems_ok bs hR hp
      have hs := hA.small
      have hnd := isotopies_nodup bs hR hp
      have hsh := isotopies_shape bs hR hp
      have hcol := collect_ok (stop := false) (body := isotopyBody bs A B ⟨m, 0⟩) (g := isotopiesOf bs A B ⟨m, 0⟩)
        (sems bs A B ⟨m, 0⟩) [] (by simp) (fun e he acc _ => by
          rw [isotopyBody_ok bs hR hp he acc]
          rfl)
      rw [List.nil_append] at hcol
      refine ⟨((sems bs A B ⟨m, 0⟩).flatMap (isotopiesOf bs A B ⟨m, 0⟩)).reverse, ?_, ?_, ?_, ?_⟩
      · rw [if_pos rfl, e1, ok_bind, edgemapsOk_true qs (n := A.edge.length) (by omega) e2 e3 e4, ok_bind, assertC_ok rfl, ok_bind,
          hcol, ok_bind]
        exact handOver_ok qs _ _ _ _ hsh hnd
      · rw [List.map_reverse, List.nodup_reverse]
        exact hnd
      · intro i hi
        obtain ⟨e, he, hi⟩ := List.mem_flatMap.mp (List.mem_reverse.mp hi)
        obtain ⟨cm, o, c1, c2, c3, c4, c5, c6, c7, c8⟩ := isotopy_members bs hR hp he hi
        exact ⟨by rw [c1]; simp, c7⟩
      · intro κ τ os oc σ of φ
        rw [List.map_reverse, List.mem_reverse]
        exact isotopies_spec bs hR hp hnB κ τ os oc σ of φ
  · refine ⟨[], ?_, by simp, by simp, ?_⟩
    · unfold diagramIsotopies
      by_cases b1 : A.hash = B.hash
      swap
      · exact if_pos b1
      rw [if_neg (not_not.mpr b1)]
      by_cases b2 : A.cross.length = B.cross.length
      swap
      · exact if_pos b2
      rw [if_neg (not_not.mpr b2)]
      by_cases b3 : A.edge.length = B.edge.length
      swap
      · exact if_pos b3
      rw [if_neg (not_not.mpr b3)]
      by_cases b4 : A.comp.length = B.comp.length
      swap
      · exact if_pos b4
      rw [if_neg (not_not.mpr b4)]
      by_cases b5 : A.face.length = B.face.length
      swap
      · exact if_pos b5
      rw [if_neg (not_not.mpr b5)]
      by_cases b6 : compSizes A.comp = compSizes B.comp
      swap
      · exact if_pos b6
      rw [if_neg (not_not.mpr b6)]
      by_cases b7 : A.face.map (fun f => f.edge.length) = B.face.map (fun f => f.edge.length)
      swap
      · exact if_pos b7
      rw [if_neg (not_not.mpr b7)]
      by_cases b8 : writhe A.cross = writhe B.cross
      swap
      · exact if_pos b8
      rw [if_neg (not_not.mpr b8)]
      exact absurd ⟨b1, b2, b3, b4, b5, b6, b7, b8⟩ hall
    · intro κ τ os oc σ of φ
      simp only [List.map_nil, List.not_mem_nil, false_iff]
      rintro ⟨-, -, h⟩
      obtain ⟨h1, h2, h3, h4, h5, h6, h7⟩ := agree qA qB hA hB hhA hhB h.maps
      exact hall ⟨h1, h2, h3, h4, h5, h6, h7, writhe_eq h2.symm h.maps.crosses h.signs⟩

/-- Tags in another order, or other tags, end the program when there are few components. -/
theorem diagramIsotopies_die (qs qA qB : QSort) (bs : BSearch)
    (hA : Tidy A.cross A.edge (retag A.comp) A.face) (hB : Tidy B.cross B.edge (retag B.comp) B.face)
    (hhA : HashGen.regenHash qA A.cross.length A.edge.length A.face A.comp = .ok A.hash)
    (hhB : HashGen.regenHash qB B.cross.length B.edge.length B.face B.comp = .ok B.hash)
    (hnB : (B.comp.map (·.tag)).Nodup)
    {κ τ : List Nat} {os : List Or} {σ : List Nat} {o : Or} {φ : List Nat} {of : Or}
    (h : IsoMaps A B κ τ os σ o φ of) (hw : writhe A.cross = writhe B.cross)
    (htags : (A.comp.length ≤ 6 ∧ A.comp.map (·.tag) ≠ B.comp.map (·.tag)) ∨ ∃ k ∈ A.comp, ∀ b ∈ B.comp, b.tag ≠ k.tag) :
    diagramIsotopies qs bs A B = .error .die := by
  obtain ⟨a1, a2, a3, a4, a5, a6, a7⟩ := agree qA qB hA hB hhA hhB h
  unfold diagramIsotopies
  rw [if_neg (not_not.mpr a1), if_neg (not_not.mpr a2), if_neg (not_not.mpr a3), if_neg (not_not.mpr a4),
    if_neg (not_not.mpr a5), if_neg (not_not.mpr a6), if_neg (not_not.mpr a7), if_neg (not_not.mpr hw)]
  by_cases hex : ∀ k ∈ A.comp, ∃ b ∈ B.comp, b.tag = k.tag
  · obtain ⟨m, m1, m2, m3⟩ := tagPerm_spec hex
    obtain ⟨b, b1, b2⟩ := permOk_zero (m := m) (by rw [m2]; exact comps_pos hA)
    have h6 : A.comp.length ≤ 6 ∧ A.comp.map (·.tag) ≠ B.comp.map (·.tag) := by
      rcases htags with h | ⟨k, hk, hkb⟩
      · exact h
      · obtain ⟨b, hb, hbt⟩ := hex k hk
        exact absurd hbt (hkb b hb)
    have hb : b = false := by
      rw [Bool.eq_false_iff]
      intro hb
      exact h6.2 ((tags_same m2 a4 hnB m3).mp ((b2.mp hb).2 (by omega)))
    rw [hb] at b1
    rw [m1, ok_bind]
    dsimp only
    rw [b1, ok_bind, if_neg (by simp)]
  · rw [tagPerm_missing (by
      push Not at hex
      exact hex)]
    rfl

end

end Plc.Isotopy
