import Verif.Proofs.IsoFull

/-! # Directions of edges in isomorphisms; diagrams with isomorphisms agree in everything counted -/

namespace Plc.IsoSearch

open Plc.Cmp Plc.PermM Plc.Emap Plc.Isos Plc.Ok Plc.Places Plc.HashGen List

theorem not_own_reverse {l : List Nat} (hn : l.Nodup) (h3 : 3 ≤ l.length) : ¬ l.reverse ~r l := by
  rintro ⟨k, hk⟩
  have at_ : ∀ j, j < l.length → l.length - 1 - (j + k) % l.length = j := by
    intro j hj
    have h1 : (l.reverse.rotate k)[j]'(by simpa using hj) = l[j] := by simp only [hk]
    rw [List.getElem_rotate, List.getElem_reverse] at h1
    have := (List.Nodup.getElem_inj_iff hn).mp h1
    simpa using this
  have a0 := at_ 0 (by omega)
  have a1 := at_ 1 (by omega)
  have e : (1 + k) % l.length = (1 + k % l.length) % l.length := by simp
  have hk' : k % l.length = l.length - 1 := by
    have := Nat.mod_lt k (show 0 < l.length by omega)
    simp only [Nat.zero_add] at a0
    omega
  rw [e, hk', show 1 + (l.length - 1) = l.length by omega, Nat.mod_self] at a1
  omega

theorem carried_dir {τ : Nat → Nat} {l b : List Nat} {d d' : Or} (hn : (l.map τ).Nodup) (h3 : 3 ≤ l.length) (hd : d ≠ .unset)
    (hd' : d' ≠ .unset) (h : ListCarried τ d l b) (h' : ListCarried τ d' l b) : d = d' := by
  unfold ListCarried at h h'
  have := h.symm.trans h'
  have hnr := not_own_reverse hn (by simpa using h3)
  cases d <;> cases d' <;> simp at hd hd' this ⊢
  · exact hnr (by exact this.symm)
  · exact hnr (by exact this)

section

variable {A B : Io.Pd} {κ τ : List Nat} {os : List Or} {σ : List Nat} {o : Or} {φ : List Nat} {of : Or}

theorem _root_.Plc.IsoMaps.direction (hA : Tidy A.cross A.edge A.comp A.face) (hB : Tidy B.cross B.edge B.comp B.face)
    (h : IsoMaps A B κ τ os σ o φ of) {k : Comp} (hk : k ∈ A.comp) (h3 : 3 ≤ k.edge.length) {e : Nat} (he : e ∈ k.edge) :
    ∃ t r s d, τ[e]? = some t ∧ A.edge[e]? = some r ∧ B.edge[t]? = some s ∧ os[e]? = some d ∧
      ((d = .pos ∧ σ[r.tail]? = some s.tail ∧ σ[r.head]? = some s.head) ∨
        (d = .neg ∧ σ[r.tail]? = some s.head ∧ σ[r.head]? = some s.tail)) := by
  have hCA := hA.plane.consistent
  have hCB := hB.plane.consistent
  have hsh := h.shadow
  obtain ⟨π, hπ⟩ := Shape.place_of_shadow hsh
  obtain ⟨σ', hσ', hloc⟩ := Shape.shadow_at_place hsh.len hsh.tlt hsh.tinj hπ
  obtain ⟨hl, κ', dir, k1, k2, k3, k4⟩ := Shape.comps_of_place hCA hCB hA.plane.oriented hB.plane.oriented hA.goodComps
    hB.goodComps hsh.len hsh.tinj hπ
  have helt : e < A.edge.length := Shape.comp_lt hA.goodComps hk he
  have hτl : τ.length = A.edge.length := by simpa using h.edges.length_eq
  have hel : A.edge.length = B.edge.length := by rw [hCA.count, hCB.count, h.sameCross]
  have htlt : τ[e]! < B.edge.length := by rw [← hel]; exact hsh.tlt e helt
  have hσl : σ.length = A.cross.length := by simpa using h.crosses.length_eq
  have hσeq : ∀ c, c < A.cross.length → σ[c]? = some (σ' c) := by
    intro c hc
    obtain ⟨i, z, a1, a2, a3⟩ := h.crossings c _ (List.getElem?_eq_getElem hc)
    obtain ⟨y, b1, b2⟩ := hσ'.carried c _ (List.getElem?_eq_getElem hc)
    rw [a1, C32_target_unique B.cross hB.canonical _ _ _ _ _ _ _ a2 b1 a3 b2]
  obtain ⟨c, hc⟩ := List.mem_iff_getElem?.mp hk
  obtain ⟨t, b, d, t1, t2, t3, t4, t5⟩ := h.along c k hc
  obtain ⟨b', u1, u2, u3⟩ := k4 c k hc
  have hBc : B.comp.flatMap (·.edge) ~ List.range B.edge.length := by rw [hB.goodComps.all]
  have htc : t = κ' c := comp_index_unique hBc t2 u1 ((mem_of_carried t4 _).mpr ⟨e, he, rfl⟩)
    ((mem_of_carried u2 _).mpr ⟨e, he, rfl⟩)
  have hbb : b = b' := by
    rw [htc, u1] at t2
    exact (Option.some.inj t2).symm
  subst hbb
  have hkn : k.edge.Nodup := by
    have : (A.comp.flatMap (·.edge)).Nodup := by rw [hA.goodComps.all]; exact List.nodup_range
    rw [List.flatMap, List.nodup_flatten] at this
    exact this.1 _ (List.mem_map_of_mem hk)
  have hdir : d = dir c := carried_dir (List.Nodup.map_on
    (fun x hx y hy hxy => hsh.tinj x y (Shape.comp_lt hA.goodComps hk hx) (Shape.comp_lt hA.goodComps hk hy) hxy) hkn) h3 t3
    (by rcases k3 c with q | q <;> rw [q] <;> simp) t4 u2
  have hπt := u3 e he
  rw [← hdir] at hπt
  have hmt := tl_mem hCA helt
  have hmh := hd_mem hCA helt
  have hmt' := tl_mem hCB htlt
  have hmh' := hd_mem hCB htlt
  have hπh : π (hd A.edge[e]!) = if d = .neg then tl B.edge[τ[e]!]! else hd B.edge[τ[e]!]! := by
    rw [← oth_tl hCA helt, hπ.oth hCA hCB hmt.1, hπt]
    split
    · exact oth_hd hCB htlt
    · exact oth_tl hCB htlt
  have l1 := hloc _ hmt.1
  have l2 := hloc _ hmh.1
  rw [hπt] at l1
  rw [hπh] at l2
  have c1 := hσeq (tl A.edge[e]!).1 (mem_P.mp hmt.1).1
  have c2 := hσeq (hd A.edge[e]!).1 (mem_P.mp hmh.1).1
  rw [← l1] at c1
  rw [← l2] at c2
  rw [getElem!_pos A.edge e helt, getElem!_pos B.edge _ htlt] at c1 c2
  refine ⟨τ[e]!, A.edge[e], B.edge[τ[e]!], d, ?_, List.getElem?_eq_getElem helt, List.getElem?_eq_getElem htlt, t5 e he, ?_⟩
  · rw [getElem!_pos τ e (by omega)]
    exact List.getElem?_eq_getElem _
  · cases d with
    | pos => exact .inl ⟨rfl, c1, c2⟩
    | neg => exact .inr ⟨rfl, c1, c2⟩
    | unset => exact absurd rfl t3

theorem _root_.Plc.IsoMaps.compSizes (hA : GoodComps A.cross A.edge A.comp) (hB : GoodComps B.cross B.edge B.comp)
    (h : IsoMaps A B κ τ os σ o φ of) : IsoSearch.compSizes A.comp = IsoSearch.compSizes B.comp := by
  unfold IsoSearch.compSizes
  refine sorted_reindex (κ := fun c => κ[c]!) (by simp [h.sameComps]) (by simpa using (ap_of_perm h.comps).1)
    (by simpa using (ap_of_perm h.comps).2) ?_ (List.pairwise_map.mpr hA.longest) (List.pairwise_map.mpr hB.longest)
  intro i x hx
  rw [List.getElem?_map, Option.map_eq_some_iff] at hx
  obtain ⟨k, hk, rfl⟩ := hx
  obtain ⟨t, b, dir, t1, t2, -, t4, -⟩ := h.along i k hk
  rw [List.getElem?_map, getElem!_def, t1]
  simp only
  rw [t2, Option.map_some, listCarried_length t4]

theorem _root_.Plc.IsoMaps.faceSizes (hA : GoodFaces A.cross A.edge A.face) (hB : GoodFaces B.cross B.edge B.face)
    (h : IsoMaps A B κ τ os σ o φ of) :
    A.face.map (fun f => f.edge.length) = B.face.map (fun f => f.edge.length) := by
  refine sorted_reindex (κ := fun c => φ[c]!) (by simp [h.sameFaces]) (by simpa using (ap_of_perm h.faces).1)
    (by simpa using (ap_of_perm h.faces).2) ?_ (List.pairwise_map.mpr hA.longest) (List.pairwise_map.mpr hB.longest)
  intro i x hx
  rw [List.getElem?_map, Option.map_eq_some_iff] at hx
  obtain ⟨k, hk, rfl⟩ := hx
  obtain ⟨t, b, t1, t2, t4⟩ := h.around i k hk
  rw [List.getElem?_map, getElem!_def, t1]
  simp only
  rw [t2, Option.map_some, listCarried_length t4]

/-- Diagrams with an isomorphism agree in everything that is compared first. -/
theorem _root_.Plc.IsoMaps.agree (qA qB : QSort) (hA : Tidy A.cross A.edge A.comp A.face)
    (hB : Tidy B.cross B.edge B.comp B.face)
    (hhA : HashGen.regenHash qA A.cross.length A.edge.length A.face A.comp = .ok A.hash)
    (hhB : HashGen.regenHash qB B.cross.length B.edge.length B.face B.comp = .ok B.hash)
    (h : IsoMaps A B κ τ os σ o φ of) : A.hash = B.hash ∧ A.cross.length = B.cross.length ∧
      A.edge.length = B.edge.length ∧ A.comp.length = B.comp.length ∧ A.face.length = B.face.length ∧
      IsoSearch.compSizes A.comp = IsoSearch.compSizes B.comp ∧
      A.face.map (fun f => f.edge.length) = B.face.map (fun f => f.edge.length) := by
  have hCA := hA.plane.consistent
  have hCB := hB.plane.consistent
  obtain ⟨s, s1, s2⟩ := C50_hash_invariant qA qB A.cross B.cross A.edge B.edge A.face B.face A.comp B.comp hCA hCB
    hA.plane.oriented hB.plane.oriented hA.goodFaces hB.goodFaces hA.goodComps hB.goodComps _ _ _ h.shadow
  rw [hhA] at s1
  rw [hhB] at s2
  exact ⟨(Except.ok.inj s1).trans (Except.ok.inj s2).symm, h.sameCross.symm, by rw [hCA.count, hCB.count, h.sameCross],
    h.sameComps.symm, h.sameFaces.symm, h.compSizes hA.goodComps hB.goodComps, h.faceSizes hA.goodFaces hB.goodFaces⟩

end

/-- The whole search, with both ways to stop. -/
theorem buildIsos_ok (qs qA qB : QSort) (bs : BSearch) (mvA mvB : Nat) {A B : Io.Pd}
    (hA : Tidy A.cross A.edge A.comp A.face) (hB : Tidy B.cross B.edge B.comp B.face)
    (hmA : A.cross.length ≤ mvA) (hmB : B.cross.length ≤ mvB)
    (hhA : HashGen.regenHash qA A.cross.length A.edge.length A.face A.comp = .ok A.hash)
    (hhB : HashGen.regenHash qB B.cross.length B.edge.length B.face B.comp = .ok B.hash)
    (h12 : A.comp.length ≤ 12) (hprod : (A.comp.map (fun k => 2 * k.edge.length)).prod < 2 ^ 32) :
    ∃ L, (∀ stop, buildIsos qs bs stop (Io.capsNew mvA) (Io.capsNew mvB) A B = .ok (cut stop L).reverse) ∧
      (L.map isoData).Nodup ∧ (∀ i ∈ L, i.cmap ≠ none ∧ isoOk i = .ok true) ∧
      ∀ κ τ os oc σ of φ, (κ, (τ, os), (oc, σ), (of, φ)) ∈ L.map isoData ↔
        oc = of ∧ oc ≠ .unset ∧ IsoMaps A B κ τ os σ oc φ of := by
  have hCA := hA.plane.consistent
  have hCB := hB.plane.consistent
  have agree : ∀ {κ τ os oc σ of φ}, IsoMaps A B κ τ os σ oc φ of → A.hash = B.hash ∧ A.cross.length = B.cross.length ∧
      A.edge.length = B.edge.length ∧ A.comp.length = B.comp.length ∧ A.face.length = B.face.length ∧
      compSizes A.comp = compSizes B.comp ∧ A.face.map (fun f => f.edge.length) = B.face.map (fun f => f.edge.length) :=
    fun h => h.agree qA qB hA hB hhA hhB
  by_cases hall : A.hash = B.hash ∧ A.cross.length = B.cross.length ∧
      A.edge.length = B.edge.length ∧ A.comp.length = B.comp.length ∧ A.face.length = B.face.length ∧
      compSizes A.comp = compSizes B.comp ∧ A.face.map (fun f => f.edge.length) = B.face.map (fun f => f.edge.length)
  · obtain ⟨a1, a2, a3, a4, a5, a6, a7⟩ := hall
    have hR : Ready2 A B mvA mvB := ⟨hA, hB, hmA, hmB, a2.symm, a6, hprod⟩
    have hK0 : A.comp ≠ [] := by
      intro hk
      have := hA.goodComps.all
      rw [hk] at this
      have h0 : A.edge.length = 0 := by simpa using (congrArg List.length this).symm
      rw [hCA.count] at h0
      exact hA.plane.nonempty (List.length_eq_zero_iff.mp (by omega))
    obtain ⟨G, ps, ps', g1, g2, g3, g4, g5, g6⟩ := compperms_ok qs bs hK0 a6 hA.goodComps.longest h12
    have hp : ∀ p ∈ ps', CompPerm A B p := by
      intro p hpm
      exact ⟨(g5 p hpm).1, (g5 p hpm).2, ((g6 p.map).mp (List.mem_map.mpr ⟨p, hpm, rfl⟩)).2⟩
    have hnd := full_nodup bs hR hp g4
    have hsh := full_shape bs hR hp
    refine ⟨fullList bs A B ps', ?_, hnd, ?_, ?_⟩
    · intro stop
      unfold buildIsos
      rw [if_neg (not_not.mpr a1), if_neg (not_not.mpr a2), if_neg (not_not.mpr a3), if_neg (not_not.mpr a4),
        if_neg (not_not.mpr a5), if_neg (not_not.mpr a6), if_neg (not_not.mpr a7), g1, ok_bind]
      dsimp only
      rw [g2, ok_bind, g3, ok_bind]
      dsimp only
      rw [assertC_ok rfl, ok_bind, collect_all qs bs stop hR hp, ok_bind]
      cases stop with
      | false => exact handOver_ok qs _ _ _ _ hsh hnd
      | true =>
        refine handOver_ok qs _ _ _ _ (fun i hi => hsh i (List.mem_of_mem_take hi)) ?_
        rw [cut, if_pos rfl, List.map_take]
        exact hnd.sublist (List.take_sublist _ _)
    · intro i hi
      obtain ⟨p, hpm, e, he, hi⟩ := (mem_full bs).mp hi
      obtain ⟨cm, o, c1, c2, c3, c4, c5, c6, c7, c8⟩ := iso_members bs hR (hp p hpm) he hi
      exact ⟨by rw [c1]; simp, c7⟩
    · intro κ τ os oc σ of φ
      refine full_spec bs hR hp ?_ κ τ os oc σ of φ
      intro q h1 h2
      obtain ⟨p, hpm, hpq⟩ := List.mem_map.mp ((g6 q).mpr ⟨h1, h2⟩)
      exact ⟨p, hpm, hpq⟩
  · refine ⟨[], ?_, by simp, by simp, ?_⟩
    · intro stop
      have : (cut stop ([] : List Iso)).reverse = [] := by cases stop <;> rfl
      rw [this]
      unfold buildIsos
      split_ifs with b1 b2 b3 b4 b5 b6 b7 <;> try rfl
      exact absurd ⟨not_not.mp b1, not_not.mp b2, not_not.mp b3, not_not.mp b4, not_not.mp b5, not_not.mp b6, not_not.mp b7⟩ hall
    · intro κ τ os oc σ of φ
      simp only [List.map_nil, List.not_mem_nil, false_iff]
      rintro ⟨-, -, h⟩
      exact hall (agree h)

end Plc.IsoSearch
