import Verif.Proofs.Isotopy2
import Verif.Proofs.ShapeEq

/-! # What the search finds, as maps of edges and crossings -/

namespace Plc.Isotopy

open Plc.Cmp Plc.PermM Plc.Emap Plc.Isos Plc.Ok Plc.Places Plc.Multidx Plc.IsoSearch Plc.Iters List

theorem comp_at {A : List Comp} {k : Comp} (hk : k ∈ A) : ∃ c : Nat, A[c]? = some k ∧ (retag A)[c]? = some ⟨k.edge, 65 + c⟩ := by
  obtain ⟨c, hc⟩ := List.mem_iff_getElem?.mp hk
  exact ⟨c, hc, by rw [retag_get, hc]; rfl⟩

section

variable {A B C : Io.Pd} {τ σ : Nat → Nat} {o : Or}

theorem flat_perm {A : Io.Pd} (h : Tidy A.cross A.edge (retag A.comp) A.face) :
    A.comp.flatMap (·.edge) ~ List.range A.edge.length := by rw [flat_tidy h]

theorem edge_lt {A : Io.Pd} (h : Tidy A.cross A.edge (retag A.comp) A.face) {k : Comp} (hk : k ∈ A.comp) {e : Nat} (he : e ∈ k.edge) :
    e < A.edge.length :=
  List.mem_range.mp ((flat_perm h).mem_iff.mp (List.mem_flatMap.mpr ⟨k, hk, he⟩))

theorem same_comp {A : Io.Pd} (h : Tidy A.cross A.edge (retag A.comp) A.face) {k k' : Comp} (hk : k ∈ A.comp) (hk' : k' ∈ A.comp)
    {e : Nat} (he : e ∈ k.edge) (he' : e ∈ k'.edge) : k = k' := by
  obtain ⟨c, hc⟩ := List.mem_iff_getElem?.mp hk
  obtain ⟨d, hd⟩ := List.mem_iff_getElem?.mp hk'
  rw [comp_index_unique (flat_perm h) hc hd he he', hd] at hc
  exact (Option.some.inj hc).symm

theorem loose_of_maps {κ τ : List Nat} {os : List Or} {σ φ : List Nat}
    (hA : Tidy A.cross A.edge (retag A.comp) A.face) (h : IsotopyMaps A B κ τ os σ o φ) :
    LooseIsotopy A B (fun e => τ[e]!) (fun c => σ[c]!) o where
  shadow := h.maps.shadow
  signs := by
    intro c x hx
    obtain ⟨i, z, h1, h2, h3⟩ := h.signs c x hx
    exact ⟨z, by rw [getElem!_def, h1]; exact h2, h3⟩
  comps := by
    intro k hk
    obtain ⟨c, hc, -⟩ := comp_at hk
    obtain ⟨t, b, dir, t1, t2, -, t4, t5⟩ := h.maps.along c k hc
    obtain ⟨u, b', u1, u2, u3⟩ := h.tags c k hc
    rw [t1] at u1
    cases u1
    rw [t2] at u2
    cases u2
    obtain ⟨e, he⟩ := List.exists_mem_of_ne_nil _ (ne_tidy hA k hk)
    have := h.kept _ (List.mem_of_getElem? (t5 e he))
    subst this
    exact ⟨b, List.mem_of_getElem? t2, u3, t4⟩

theorem maps_of_loose (hA : Tidy A.cross A.edge (retag A.comp) A.face) (hB : Tidy B.cross B.edge (retag B.comp) B.face)
    (hnA : (A.comp.map (·.tag)).Nodup) (hnB : (B.comp.map (·.tag)).Nodup) (h : LooseIsotopy A B τ σ o) :
    ∃ κ os φ, IsotopyMaps A B κ ((List.range A.edge.length).map τ) os ((List.range A.cross.length).map σ) o φ := by
  obtain ⟨κ0, os0, φ, hm⟩ := maps_of_shadow (A := retagged A) (B := retagged B) hA hB h.shadow
  rw [maps_retag] at hm
  obtain ⟨m, m1, m2, m3⟩ := tagPerm_spec (A := A.comp) (B := B.comp) (fun k hk => by
    obtain ⟨b, b1, b2, -⟩ := h.comps k hk
    exact ⟨b, b1, b2⟩)
  have hperm := tags_perm m2 hm.sameComps.symm hnA m3
  refine ⟨m, List.replicate A.edge.length .pos, φ, ⟨⟨hm.sameComps, hm.sameCross, hm.sameFaces, hperm, hm.edges, by simp, hm.crosses,
    hm.faces, ?_, hm.crossings, hm.around⟩, ?_, ?_, m3⟩⟩
  · intro c k hc
    have hk := List.mem_of_getElem? hc
    obtain ⟨t, b, t1, t2, t3⟩ := m3 c k hc
    obtain ⟨b', b1, b2, b3⟩ := h.comps k hk
    obtain ⟨d, hd⟩ := List.mem_iff_getElem?.mp b1
    have htd : t = d := by
      obtain ⟨x1, x2⟩ := List.getElem?_eq_some_iff.mp t2
      obtain ⟨y1, y2⟩ := List.getElem?_eq_some_iff.mp hd
      refine (List.Nodup.getElem_inj_iff hnB (hi := by simpa using x1) (hj := by simpa using y1)).mp ?_
      rw [List.getElem_map, List.getElem_map, x2, y2, t3, b2]
    refine ⟨t, b', .pos, t1, by rw [htd]; exact hd, by simp, b3.congr ?_, ?_⟩
    · intro e he
      have := edge_lt hA hk he
      rw [getElem!_pos _ e (by simpa [retagged] using this)]
      simp
    · intro e he
      have := edge_lt hA hk he
      rw [List.getElem?_replicate, if_pos this]
  · intro d hd
    exact (List.mem_replicate.mp hd).2
  · intro c x hx
    obtain ⟨z, z1, z2⟩ := h.signs c x hx
    exact ⟨σ c, z, by rw [List.getElem?_map, List.getElem?_range (List.getElem?_eq_some_iff.mp hx).1]; rfl, z1, z2⟩

/-! ### An equivalence relation -/

theorem loose_refl (A : Io.Pd) : LooseIsotopy A A id id .pos where
  shadow := SameShadow.refl _ _
  signs := fun _ x hx => ⟨x, hx, rfl⟩
  comps := fun k hk => ⟨k, hk, rfl, by unfold ListCarried; simp only [reduceCtorEq, if_false, List.map_id]; exact List.IsRotated.refl _⟩

theorem loose_trans {τ' σ' : Nat → Nat} {o' : Or} (hel : A.edge.length = B.edge.length) (h : LooseIsotopy A B τ σ o)
    (h' : LooseIsotopy B C τ' σ' o') : LooseIsotopy A C (fun e => τ' (τ e)) (fun c => σ' (σ c)) (orTimes o o') where
  shadow := h.shadow.trans (by rw [hel]; exact h'.shadow)
  signs := by
    intro c x hx
    obtain ⟨z, z1, z2⟩ := h.signs c x hx
    obtain ⟨y, y1, y2⟩ := h'.signs _ z z1
    exact ⟨y, y1, y2.trans z2⟩
  comps := by
    intro k hk
    obtain ⟨b, b1, b2, b3⟩ := h.comps k hk
    obtain ⟨d, d1, d2, d3⟩ := h'.comps b b1
    exact ⟨d, d1, d2.trans b2, b3.trans d3⟩

theorem loose_symm (hA : Tidy A.cross A.edge (retag A.comp) A.face) (hB : Tidy B.cross B.edge (retag B.comp) B.face)
    (h : LooseIsotopy A B τ σ o) : ∃ τ' σ', LooseIsotopy B A τ' σ' o := by
  have hel : A.edge.length = B.edge.length := by
    rw [hA.plane.consistent.count, hB.plane.consistent.count, h.shadow.len]
  obtain ⟨τ', σ', h', i1, i2⟩ := h.shadow.symm (slots_lt hA.plane.consistent)
  refine ⟨τ', σ', ⟨by rw [← hel]; exact h', ?_, ?_⟩⟩
  · intro c x hx
    have hc := (List.getElem?_eq_some_iff.mp hx).1
    have hlt : σ' c < A.cross.length := by
      rw [← h.shadow.len]
      exact h'.slt c hc
    obtain ⟨z, z1, z2⟩ := h.signs _ _ (List.getElem?_eq_getElem hlt)
    have : σ (σ' c) = c := h'.sinj _ _ (by rw [h.shadow.len]; exact h.shadow.slt _ hlt) hc (i2 _ hlt)
    rw [this, hx] at z1
    cases z1
    exact ⟨_, List.getElem?_eq_getElem hlt, z2.symm⟩
  · intro b hb
    obtain ⟨e, he⟩ := List.exists_mem_of_ne_nil _ (ne_tidy hB b hb)
    have helt := edge_lt hB hb he
    have hlt : τ' e < A.edge.length := h'.tlt e (by rw [hel]; exact helt)
    obtain ⟨k, hk, hke⟩ := List.mem_flatMap.mp ((flat_perm hA).mem_iff.mpr (List.mem_range.mpr hlt))
    obtain ⟨b', b1, b2, b3⟩ := h.comps k hk
    have hτ : τ (τ' e) = e := h'.tinj _ _ (h.shadow.tlt _ hlt) (by rw [hel]; exact helt) (i1 _ hlt)
    have : b' = b := same_comp hB b1 hb ((mem_of_carried b3 _).mpr ⟨_, hke, hτ⟩) he
    subst this
    exact ⟨k, hk, b2.symm, b3.symm (fun x hx => i1 x (edge_lt hA hk hx))⟩

/-! ### Slots -/

theorem slotTo_lt {o : Or} {t k : Nat} : slotTo o t k < 4 := by
  unfold slotTo
  split <;> exact Nat.mod_lt _ (by decide)

theorem eslot_at {cross : List Cross} {c k : Nat} {x : Cross} (h : cross[c]? = some x) (hk : k < 4) :
    eslot cross (c, k) = x.at k :=
  eslot_of_slot (slot_eq_some.mpr ⟨hk, x, h, rfl⟩)

theorem place_of_diagram {turn : Nat → Nat} (h : SameDiagram A B τ σ o turn) :
    Shape.PMap A.cross B.cross τ (decide (o = .neg)) (fun p => (σ p.1, slotTo o (turn p.1) p.2)) where
  maps := by
    intro p hp
    rw [mem_P] at hp ⊢
    exact ⟨by rw [h.len]; exact h.slt _ hp.1, slotTo_lt⟩
  inj := by
    rintro ⟨c, k⟩ hp ⟨d, l⟩ hq he
    rw [mem_P] at hp hq
    simp only [Prod.mk.injEq] at he
    have hcd := h.sinj c d hp.1 hq.1 he.1
    subst hcd
    have h1 := hp.2
    have h2 := hq.2
    have h3 := he.2
    simp only at h1 h2
    unfold slotTo at h3
    simp only [Prod.mk.injEq, true_and]
    split at h3 <;> omega
  label := by
    rintro ⟨c, k⟩ hp
    rw [mem_P] at hp
    obtain ⟨z, z1, -, z3⟩ := h.slots c _ (List.getElem?_eq_getElem hp.1)
    beta_reduce
    rw [eslot_at z1 slotTo_lt, z3 k hp.2, eslot_at (List.getElem?_eq_getElem hp.1) hp.2]
  turn := by
    rintro ⟨c, k⟩ hp
    rw [mem_P] at hp
    have h1 := hp.2
    simp only at h1
    simp only [Places.turn, slotTo, Prod.mk.injEq, true_and]
    by_cases ho : o = .neg
    · simp only [ho, if_true, decide_true]
      omega
    · simp only [ho, if_false, decide_false, Bool.false_eq_true]
      omega

theorem loose_of_diagram {turn : Nat → Nat} (hA : Tidy A.cross A.edge (retag A.comp) A.face)
    (hB : Tidy B.cross B.edge (retag B.comp) B.face) (h : SameDiagram A B τ σ o turn) : LooseIsotopy A B τ σ o := by
  have hCA := hA.plane.consistent
  have hCB := hB.plane.consistent
  have hπ := place_of_diagram h
  obtain ⟨σ', hσ', hloc⟩ := Shape.shadow_at_place h.len h.tlt h.tinj hπ
  have hσ : ∀ c, c < A.cross.length → σ' c = σ c := fun c hc => (hloc (c, 0) (mem_P.mpr ⟨hc, Nat.succ_pos 3⟩)).symm
  refine ⟨⟨h.len, h.tlt, h.tinj, h.slt, h.sinj, ?_⟩, ?_, ?_⟩
  · intro c x hx
    have := hσ'.carried c x hx
    rwa [hσ c (List.getElem?_eq_some_iff.mp hx).1] at this
  · intro c x hx
    obtain ⟨z, z1, z2, -⟩ := h.slots c x hx
    exact ⟨z, z1, z2⟩
  · intro k hk
    obtain ⟨hl, κ, dir, k1, k2, k3, k4⟩ := Shape.comps_of_place hCA hCB hA.plane.oriented hB.plane.oriented hA.goodComps
      hB.goodComps h.len h.tinj hπ
    obtain ⟨c, -, hc⟩ := comp_at hk
    obtain ⟨k', u1, u2, u3⟩ := k4 c _ hc
    rw [retag_get, Option.map_eq_some_iff] at u1
    obtain ⟨b', v1, rfl⟩ := u1
    obtain ⟨e, he⟩ := List.exists_mem_of_ne_nil _ (ne_tidy hA k hk)
    have helt := edge_lt hA hk he
    have hel : A.edge.length = B.edge.length := by rw [hCA.count, hCB.count, h.len]
    have htlt : τ e < B.edge.length := by rw [← hel]; exact h.tlt e helt
    obtain ⟨s, s1, s2, s3, -⟩ := h.ends e _ (List.getElem?_eq_getElem helt)
    have hs : B.edge[τ e]! = s := by rw [getElem!_def, s1]
    have hr : A.edge[e]! = A.edge[e] := getElem!_pos A.edge e helt
    have hu := u3 e he
    rw [hs, hr] at hu
    have htl : (σ (tl A.edge[e]).1, slotTo o (turn (tl A.edge[e]).1) (tl A.edge[e]).2) = tl s := by
      simp only [tl, s2, s3]
    rw [htl] at hu
    have hdir : dir c = .pos := by
      rcases k3 c with hd | hd
      · exact hd
      · rw [hd, if_pos rfl, ← hs] at hu
        exact absurd hu.symm (hd_ne_tl hCB htlt)
    rw [hdir] at u2
    obtain ⟨b, b1, b2, b3⟩ := h.tags k hk
    have : b = b' := same_comp hB b1 (List.mem_of_getElem? v1) (b3 e he) ((mem_of_carried u2 _).mpr ⟨e, he, rfl⟩)
    subst this
    exact ⟨b, b1, b2, u2⟩

theorem diagram_of_loose (hA : Tidy A.cross A.edge (retag A.comp) A.face)
    (hB : Tidy B.cross B.edge (retag B.comp) B.face) (h3 : ∀ k ∈ A.comp, 3 ≤ k.edge.length) (h : LooseIsotopy A B τ σ o) :
    ∃ turn, SameDiagram A B τ σ o turn := by
  have hCA := hA.plane.consistent
  have hCB := hB.plane.consistent
  have hsh := h.shadow
  have hel : A.edge.length = B.edge.length := by rw [hCA.count, hCB.count, hsh.len]
  obtain ⟨π, hπ⟩ := Shape.place_of_shadow hsh
  obtain ⟨σ', hσ', hloc⟩ := Shape.shadow_at_place hsh.len hsh.tlt hsh.tinj hπ
  have hσ : ∀ c, c < A.cross.length → σ' c = σ c := by
    intro c hc
    obtain ⟨z, a2, a3⟩ := hsh.carried c _ (List.getElem?_eq_getElem hc)
    obtain ⟨y, b1, b2⟩ := hσ'.carried c _ (List.getElem?_eq_getElem hc)
    exact C32_target_unique B.cross hB.canonical _ _ _ _ _ _ _ b1 a2 b2 a3
  obtain ⟨hl, κ, dir, k1, k2, k3, k4⟩ := Shape.comps_of_place hCA hCB hA.plane.oriented hB.plane.oriented hA.goodComps
    hB.goodComps hsh.len hsh.tinj hπ
  have hform : ∀ c k, c < A.cross.length → k < 4 → π (c, k) = (σ c, slotTo o (π (c, 0)).2 k) := by
    intro c k hc hk
    have h0 : π (c, 0) = (σ c, (π (c, 0)).2) := by
      rw [← hσ c hc, ← hloc (c, 0) (mem_P.mpr ⟨hc, Nat.succ_pos 3⟩)]
    have hlt := (mem_P.mp (hπ.maps (c, 0) (mem_P.mpr ⟨hc, Nat.succ_pos 3⟩))).2
    have step : ∀ j, j < 3 → π (c, j + 1) = Places.turn (if decide (o = .neg) then 3 else 1) (π (c, j)) := by
      intro j hj
      have := hπ.turn (c, j) (mem_P.mpr ⟨hc, by simp only; omega⟩)
      rw [← this]
      congr 1
      simp only [Places.turn, Prod.mk.injEq, true_and]
      omega
    have s0 := step 0 (by omega)
    have s1 := step 1 (by omega)
    have s2 := step 2 (by omega)
    revert h0 hlt s0 s1 s2
    generalize (π (c, 0)).2 = t
    intro h0 hlt s0 s1 s2
    rw [h0] at s0
    rw [s0] at s1
    rw [s1] at s2
    unfold slotTo
    by_cases ho : o = .neg
    · simp only [ho, decide_true, if_true, Places.turn, Nat.zero_add] at s0 s1 s2 ⊢
      interval_cases k
      · rw [h0, Prod.mk.injEq]; refine ⟨rfl, ?_⟩; omega
      · rw [s0]
      · rw [s1, Prod.mk.injEq]; refine ⟨rfl, ?_⟩; omega
      · rw [s2, Prod.mk.injEq]; refine ⟨rfl, ?_⟩; omega
    · simp only [ho, decide_false, Bool.false_eq_true, if_false, Places.turn, Nat.zero_add] at s0 s1 s2 ⊢
      interval_cases k
      · rw [h0, Prod.mk.injEq]; refine ⟨rfl, ?_⟩; omega
      · rw [s0, Prod.mk.injEq]; try exact ⟨rfl, by omega⟩
      · rw [s1, Prod.mk.injEq]; refine ⟨rfl, ?_⟩; omega
      · rw [s2, Prod.mk.injEq]; refine ⟨rfl, ?_⟩; omega
  refine ⟨fun c => (π (c, 0)).2, ⟨hsh.len, hsh.tlt, hsh.tinj, hsh.slt, hsh.sinj, ?_, ?_, ?_⟩⟩
  · intro c x hx
    obtain ⟨z, z1, z2⟩ := h.signs c x hx
    refine ⟨z, z1, z2, ?_⟩
    intro k hk
    have hc := (List.getElem?_eq_some_iff.mp hx).1
    have := hπ.label (c, k) (mem_P.mpr ⟨hc, hk⟩)
    rw [hform c k hc hk, eslot_at z1 slotTo_lt, eslot_at hx hk] at this
    exact this
  · intro e r hr
    obtain ⟨helt, rfl⟩ := List.getElem?_eq_some_iff.mp hr
    have htlt : τ e < B.edge.length := by rw [← hel]; exact hsh.tlt e helt
    obtain ⟨k, hk, hke⟩ := List.mem_flatMap.mp ((flat_perm hA).mem_iff.mpr (List.mem_range.mpr helt))
    obtain ⟨c, -, hc⟩ := comp_at hk
    obtain ⟨k', u1, u2, u3⟩ := k4 c _ hc
    rw [retag_get, Option.map_eq_some_iff] at u1
    obtain ⟨b', v1, rfl⟩ := u1
    obtain ⟨b, b1, -, b3⟩ := h.comps k hk
    have hbb : b = b' := same_comp hB b1 (List.mem_of_getElem? v1) ((mem_of_carried b3 _).mpr ⟨e, hke, rfl⟩)
      ((mem_of_carried u2 _).mpr ⟨e, hke, rfl⟩)
    subst hbb
    have hkn : k.edge.Nodup := by
      have : (A.comp.flatMap (·.edge)).Nodup := by rw [flat_tidy hA]; exact List.nodup_range
      rw [List.flatMap, List.nodup_flatten] at this
      exact this.1 _ (List.mem_map_of_mem hk)
    have hdir : dir c = .pos := carried_dir (List.Nodup.map_on
      (fun x hx y hy hxy => hsh.tinj x y (edge_lt hA hk hx) (edge_lt hA hk hy) hxy) hkn) (h3 k hk)
      (by rcases k3 c with q | q <;> rw [q] <;> simp) (by simp) u2 b3
    have hπt := u3 e hke
    rw [hdir, if_neg (by simp)] at hπt
    have hmt := tl_mem hCA helt
    have hmh := hd_mem hCA helt
    have hπh : π (hd A.edge[e]!) = hd B.edge[τ e]! := by
      rw [← oth_tl hCA helt, hπ.oth hCA hCB hmt.1, hπt]
      exact oth_tl hCB htlt
    have f1 := hform _ _ (mem_P.mp hmt.1).1 (mem_P.mp hmt.1).2
    have f2 := hform _ _ (mem_P.mp hmh.1).1 (mem_P.mp hmh.1).2
    rw [Prod.mk.eta, hπt] at f1
    rw [Prod.mk.eta, hπh] at f2
    rw [getElem!_pos A.edge e helt, getElem!_pos B.edge _ htlt] at f1 f2
    simp only [tl, hd, Prod.mk.injEq] at f1 f2
    exact ⟨B.edge[τ e], List.getElem?_eq_getElem htlt, f1.1, f1.2, f2.1, f2.2⟩
  · intro k hk
    obtain ⟨b, b1, b2, b3⟩ := h.comps k hk
    exact ⟨b, b1, b2, fun e he => (mem_of_carried b3 _).mpr ⟨e, he, rfl⟩⟩

end

end Plc.Isotopy
