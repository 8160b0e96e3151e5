import Verif.Model.Isotopy
import Verif.Spec.Isotopy
import Verif.Proofs.IsoDir
import Verif.Props.Perm

/-! # The search for diagram isotopies -/

namespace Plc.Isotopy

open Plc.Cmp Plc.PermM Plc.Emap Plc.Isos Plc.Ok Plc.Places Plc.Multidx Plc.IsoSearch Plc.Iters List

/-! ### Tags do not matter for the shape -/

/-- The tags `pd_regenerate` gives. -/
def retag (l : List Comp) : List Comp := l.mapIdx (fun i k => ⟨k.edge, 65 + i⟩)

theorem retag_length (l : List Comp) : (retag l).length = l.length := by simp [retag]

theorem retag_edges (l : List Comp) : (retag l).map (·.edge) = l.map (·.edge) := by
  unfold retag
  apply List.ext_getElem (by simp)
  intro i h1 h2
  simp

theorem retag_get (l : List Comp) (c : Nat) : (retag l)[c]? = l[c]?.map (fun k => ⟨k.edge, 65 + c⟩) := by
  simp [retag]

theorem retag_sizes (l : List Comp) : (retag l).map (fun k => k.edge.length) = l.map (fun k => k.edge.length) := by
  have := congrArg (List.map List.length) (retag_edges l)
  simpa [Function.comp_def] using this

theorem retag_flat (l : List Comp) : (retag l).flatMap (·.edge) = l.flatMap (·.edge) := by
  rw [List.flatMap, List.flatMap, retag_edges]

theorem hash_retag (qs : QSort) (n m : Nat) (F : List Face) (K : List Comp) :
    HashGen.regenHash qs n m F (retag K) = HashGen.regenHash qs n m F K := by
  unfold HashGen.regenHash
  rw [retag_length, retag_sizes]

/-- The diagram with the tags `pd_regenerate` gives. -/
def retagged (A : Io.Pd) : Io.Pd := { A with comp := retag A.comp }

theorem maps_retag {A B : Io.Pd} {κ τ : List Nat} {os : List Or} {σ : List Nat} {o : Or} {φ : List Nat} {of : Or} :
    IsoMaps (retagged A) (retagged B) κ τ os σ o φ of ↔ IsoMaps A B κ τ os σ o φ of := by
  have key : (∀ (c : Nat) k, (retag A.comp)[c]? = some k → ∃ t b dir, κ[c]? = some t ∧ (retag B.comp)[t]? = some b ∧ dir ≠ .unset ∧
      ListCarried (fun e => τ[e]!) dir k.edge b.edge ∧ ∀ e ∈ k.edge, os[e]? = some dir) ↔
      (∀ (c : Nat) k, A.comp[c]? = some k → ∃ t b dir, κ[c]? = some t ∧ B.comp[t]? = some b ∧ dir ≠ .unset ∧
      ListCarried (fun e => τ[e]!) dir k.edge b.edge ∧ ∀ e ∈ k.edge, os[e]? = some dir) := by
    constructor
    · intro h c k hk
      obtain ⟨t, b, dir, t1, t2, t3⟩ := h c ⟨k.edge, 65 + c⟩ (by rw [retag_get, hk]; rfl)
      rw [retag_get, Option.map_eq_some_iff] at t2
      obtain ⟨b', b1, rfl⟩ := t2
      exact ⟨t, b', dir, t1, b1, t3⟩
    · intro h c k hk
      rw [retag_get, Option.map_eq_some_iff] at hk
      obtain ⟨k', h1, rfl⟩ := hk
      obtain ⟨t, b, dir, t1, t2, t3⟩ := h c k' h1
      exact ⟨t, ⟨b.edge, 65 + t⟩, dir, t1, by rw [retag_get, t2]; rfl, t3⟩
  constructor
  · intro h
    exact ⟨by simpa [retagged, retag_length] using h.sameComps, h.sameCross, h.sameFaces,
      by simpa [retagged, retag_length] using h.comps, h.edges, h.ors, h.crosses, h.faces, key.mp h.along, h.crossings, h.around⟩
  · intro h
    exact ⟨by simpa [retagged, retag_length] using h.sameComps, h.sameCross, h.sameFaces,
      by simpa [retagged, retag_length] using h.comps, h.edges, h.ors, h.crosses, h.faces, key.mpr h.along, h.crossings, h.around⟩

/-- Two diagrams as the search expects them. -/
structure Ready (A B : Io.Pd) : Prop where
  tidyA : Tidy A.cross A.edge (retag A.comp) A.face
  tidyB : Tidy B.cross B.edge (retag B.comp) B.face
  cross : B.cross.length = A.cross.length
  sizes : compSizes A.comp = compSizes B.comp
  prod : (A.comp.map (fun k => k.edge.length)).prod < 2 ^ 32

section

variable {A B : Io.Pd}

theorem Ready.comps (h : Ready A B) : A.comp.length = B.comp.length := by
  have := congrArg List.length h.sizes
  simpa [compSizes] using this

theorem Ready.edges (h : Ready A B) : A.edge.length = B.edge.length := by
  rw [h.tidyA.plane.consistent.count, h.tidyB.plane.consistent.count, h.cross]

theorem Ready.faces (h : Ready A B) : B.face.length = A.face.length := by
  rw [h.tidyA.goodFaces.count, h.tidyB.goodFaces.count, h.cross]

theorem flat_tidy {A : Io.Pd} (h : Tidy A.cross A.edge (retag A.comp) A.face) :
    A.comp.flatMap (·.edge) = List.range A.edge.length := by
  rw [← retag_flat, h.goodComps.all]

theorem ne_tidy {A : Io.Pd} (h : Tidy A.cross A.edge (retag A.comp) A.face) : ∀ k ∈ A.comp, k.edge ≠ [] := by
  intro k hk
  obtain ⟨c, hc⟩ := List.mem_iff_getElem?.mp hk
  exact h.goodComps.nonempty ⟨k.edge, 65 + c⟩ (List.mem_of_getElem? (i := c) (by rw [retag_get, hc]; rfl))

/-! ### Edge maps -/

theorem cyclic_cycles : ∃ V : Nat → Nat → List Nat, ∀ n : Nat, 1 ≤ n → n < 2 ^ 31 →
    Multidx.Cycles cyclicOps (newCyclic n) n (V n) ∧
      ∀ d : Dihedral, (IsDihedral n d ∧ d.orient = .pos) ↔ ∃ i : Nat, i < n ∧ (⟨V n i, .pos⟩ : Dihedral) = d := by
  have : ∀ n : Nat, ∃ v : Nat → List Nat, 1 ≤ n → n < 2 ^ 31 →
      Multidx.Cycles cyclicOps (newCyclic n) n v ∧
      ∀ d : Dihedral, (IsDihedral n d ∧ d.orient = .pos) ↔ ∃ i : Nat, i < n ∧ (⟨v i, .pos⟩ : Dihedral) = d := by
    intro n
    by_cases h1 : 1 ≤ n
    · obtain ⟨v, v1, v2, v3, v4, v5⟩ := Iters.C09_cyclic_iterator n h1
      refine ⟨v, fun _ h2 => ⟨⟨by omega, by omega, by simp [cyclicOps, v5], fun i _ => v1 i, v2, v4⟩, ?_⟩⟩
      intro d
      obtain ⟨m, o⟩ := d
      constructor
      · rintro ⟨h, ho⟩
        dsimp only at ho
        subst ho
        rcases h with h | h
        · obtain ⟨i, i1, i2⟩ := (v3 m).mp h.2
          exact ⟨i, i1, by rw [i2]⟩
        · cases h.1
      · rintro ⟨i, i1, i2⟩
        cases i2
        exact ⟨.inl ⟨rfl, (v3 _).mpr ⟨i, i1, rfl⟩⟩, rfl⟩
    · exact ⟨fun _ => newCyclic n, fun h => absurd h h1⟩
  choose V hV using this
  exact ⟨V, hV⟩

theorem orientedEdgemaps_ok (bs : BSearch) (h : Ready A B) {cp : List Nat} (hcp : cp ~ List.range A.comp.length)
    (hsz : ∀ (c : Nat) k, A.comp[c]? = some k → ∃ t b, cp[c]? = some t ∧ B.comp[t]? = some b ∧ b.edge.length = k.edge.length) :
    ∃ ems, orientedEdgemaps bs A B cp = .ok ems ∧ ems ≠ [] ∧ (ems.map (fun e => (e.perm.map, e.orient))).Nodup ∧
      (∀ e ∈ ems, emapOk e = .ok true ∧ e.perm.map ~ List.range A.edge.length ∧ e.orient.length = A.edge.length) ∧
      ∀ τ os, (τ, os) ∈ ems.map (fun e => (e.perm.map, e.orient)) ↔
        τ ~ List.range A.edge.length ∧ os.length = A.edge.length ∧ AlongComps A.comp B.comp cp τ os ∧ ∀ o ∈ os, o = .pos := by
  obtain ⟨V, hV⟩ := cyclic_cycles
  have hn : 1 ≤ A.edge.length := by
    rw [h.tidyA.plane.consistent.count]
    have : A.cross.length ≠ 0 := fun hh => h.tidyA.plane.nonempty (List.length_eq_zero_iff.mp hh)
    omega
  have hs := h.tidyA.small
  have hlen : ∀ k ∈ A.comp, k.edge.length < 2 ^ 31 := by
    intro k hk
    have h1 : (A.comp.flatMap (·.edge)).length = A.edge.length := by rw [flat_tidy h.tidyA, List.length_range]
    rw [List.length_flatMap] at h1
    have := List.le_sum_of_mem (List.mem_map_of_mem (f := fun k : Comp => k.edge.length) hk)
    omega
  obtain ⟨m0, ems, e1, e2, e3, e4, e5, e6⟩ := edgemaps_enum bs cyclicOps newCyclic (fun c => ⟨c, .pos⟩)
    (fun a b hab => by cases hab; rfl) (fun n => n) (fun o => o = .pos) V hV hn h.edges (by rw [flat_tidy h.tidyA])
    (fun k hk => List.length_pos_iff.mpr (ne_tidy h.tidyA k hk)) hlen (by rw [flat_tidy h.tidyB]) hcp hsz h.prod
  refine ⟨ems, ?_, e3, e4, e5, e6⟩
  unfold orientedEdgemaps
  rw [assertC_ok (by
    have hl : cp.length = A.comp.length := by simpa using hcp.length_eq
    simp [h.comps, hl]), ok_bind, assertC_ok (by simpa using h.edges), ok_bind, e1, ok_bind]
  exact e2

/-! ### Crossing and face maps -/

/-- The crossing map of one orientation that keeps signs, with the face map that goes with it. -/
def spairAt (bs : BSearch) (A B : Io.Pd) (m : List Nat) (o : Or) : List (OMap × OMap) :=
  match orientedCrossmap bs true A.cross B.cross m o, orientedFacemap bs A.face B.face m o with
  | .ok (some c), .ok (some f) => [(c, f)]
  | _, _ => []

theorem spairAt_ok (bs : BSearch) (h : Ready A B) {m : List Nat} (hm : m ~ List.range A.edge.length) {o : Or}
    (ho : o ≠ .unset) :
    ∃ f, orientedCrossmap bs true A.cross B.cross m o = .ok ((spairAt bs A B m o).head?.map Prod.fst) ∧
      orientedFacemap bs A.face B.face m o = .ok f ∧
      (spairAt bs A B m o = [] ∨ ∃ p, spairAt bs A B m o = [p] ∧ f = some p.2) ∧
      (spairAt bs A B m o ≠ [] ↔ ∀ x ∈ A.cross, ∃ z ∈ B.cross, CarriedTo (fun e => m[e]!) o x z ∧ x.sign = z.sign) ∧
      ∀ p ∈ spairAt bs A B m o, p.1.orient = o ∧ p.2.orient = o ∧ permOk p.1.perm = .ok true ∧ permOk p.2.perm = .ok true ∧
        p.1.perm.map ~ List.range A.cross.length ∧ p.2.perm.map ~ List.range A.face.length ∧
        (∀ (c : Nat) x, A.cross[c]? = some x → ∃ i z, p.1.perm.map[c]? = some i ∧ B.cross[i]? = some z ∧
          CarriedTo (fun e => m[e]!) o x z ∧ x.sign = z.sign) ∧
        (∀ (c : Nat) x, A.face[c]? = some x → ∃ i z, p.2.perm.map[c]? = some i ∧ B.face[i]? = some z ∧
          ListCarried (fun e => m[e]!) o x.edge z.edge) := by
  have hCA := h.tidyA.plane.consistent
  have hCB := h.tidyB.plane.consistent
  have hel := h.edges
  have hml : m.length = A.edge.length := by simpa using hm.length_eq
  have hs := h.tidyA.small
  obtain ⟨r, -, r2, r3, r4⟩ := pair_ok bs (A := retagged A) (B := retagged B) h.tidyA h.tidyB h.cross hm ho
  obtain ⟨q, q1, q2, q3⟩ := C32_oriented_crossmap bs true A.cross B.cross m o h.tidyA.canonical h.tidyB.canonical h.cross.symm
    h.tidyA.plane.nonempty (fun x hx k => by rw [hml]; exact cross_at_lt hCA hx k)
    (fun x hx k => by rw [hml, hel]; exact cross_at_lt hCB hx k) (by rw [hml]; exact hm) (by omega)
  simp only [true_imp_iff] at q2 q3
  cases q with
  | none =>
    have he : spairAt bs A B m o = [] := by rw [spairAt, q1]
    rw [he]
    exact ⟨_, q1, r2, .inl rfl, by rw [← q2]; simp, by simp⟩
  | some cm =>
    obtain ⟨a1, a2, a3, a4⟩ := q3 cm rfl
    have hr : r ≠ none := by
      rw [r3]
      exact ⟨_, shadow_of_maps (A := retagged A) (B := retagged B) h.cross hm a3 (fun c x hx => by
        obtain ⟨i, z, b1, b2, b3, -⟩ := a4 c x hx
        exact ⟨i, z, b1, b2, b3⟩)⟩
    obtain ⟨p, rfl⟩ := Option.ne_none_iff_exists'.mp hr
    obtain ⟨b1, b2, b3, b4, b5, b6, b7, b8⟩ := r4 p rfl
    have r2' : orientedFacemap bs A.face B.face m o = .ok (some p.2) := r2
    have he : spairAt bs A B m o = [(cm, p.2)] := by rw [spairAt, q1, r2']
    rw [he]
    refine ⟨_, q1, r2', .inr ⟨_, rfl, rfl⟩, by rw [← q2]; simp, ?_⟩
    intro p' hp'
    rw [List.mem_singleton.mp hp']
    exact ⟨a1, b2, a2, b4, a3, b6, a4, b8⟩

/-! ### One isotopy -/

theorem tagsAgree_true {A B : List Comp} {cp : List Nat} : ∀ (n i : Nat),
    (∀ j, j < n → ∃ k t b, A[i + j]? = some k ∧ cp[i + j]? = some t ∧ B[t]? = some b ∧ k.tag = b.tag) →
    tagsAgree A B cp n i = .ok true
  | 0, i, _ => rfl
  | n + 1, i, h => by
    obtain ⟨k, t, b, h1, h2, h3, h4⟩ := h 0 (by omega)
    rw [Nat.add_zero] at h1 h2
    rw [tagsAgree, rd_eq_ok.mpr h1, ok_bind, rd_eq_ok.mpr h2, ok_bind, rd_eq_ok.mpr h3, ok_bind, if_neg (not_not.mpr h4)]
    refine tagsAgree_true n (i + 1) ?_
    intro j hj
    have := h (j + 1) (by omega)
    rwa [show i + (j + 1) = i + 1 + j by omega] at this

theorem signsAgree_true {A B : List Cross} {cm : List Nat} : ∀ (n i : Nat),
    (∀ j, j < n → ∃ k t b, A[i + j]? = some k ∧ cm[i + j]? = some t ∧ B[t]? = some b ∧ k.sign = b.sign) →
    signsAgree A B cm n i = .ok true
  | 0, i, _ => rfl
  | n + 1, i, h => by
    obtain ⟨k, t, b, h1, h2, h3, h4⟩ := h 0 (by omega)
    rw [Nat.add_zero] at h1 h2
    rw [signsAgree, rd_eq_ok.mpr h1, ok_bind, rd_eq_ok.mpr h2, ok_bind, rd_eq_ok.mpr h3, ok_bind, if_neg (not_not.mpr h4)]
    refine signsAgree_true n (i + 1) ?_
    intro j hj
    have := h (j + 1) (by omega)
    rwa [show i + (j + 1) = i + 1 + j by omega] at this

/-- The component permutation found from the tags. -/
structure TagPerm (A B : Io.Pd) (p : Perm) : Prop where
  ok : permOk p = .ok true
  perm : p.map ~ List.range A.comp.length
  tags : ∀ (c : Nat) k, A.comp[c]? = some k → ∃ t b, p.map[c]? = some t ∧ B.comp[t]? = some b ∧ b.tag = k.tag
  sizes : ∀ (c : Nat) k, A.comp[c]? = some k → ∃ t b, p.map[c]? = some t ∧ B.comp[t]? = some b ∧ b.edge.length = k.edge.length

/-- The edge maps for this component permutation. -/
def sems (bs : BSearch) (A B : Io.Pd) (p : Perm) : List EMap :=
  match orientedEdgemaps bs A B p.map with
  | .ok ems => ems
  | .error _ => []

/-- The isotopies with this edge map. -/
def isotopiesOf (bs : BSearch) (A B : Io.Pd) (p : Perm) (e : EMap) : List Iso :=
  (spairAt bs A B e.perm.map .pos ++ spairAt bs A B e.perm.map .neg).map (fun cf => ⟨p, e, some cf.1, cf.2⟩)

theorem sems_ok (bs : BSearch) (h : Ready A B) {p : Perm} (hp : TagPerm A B p) :
    orientedEdgemaps bs A B p.map = .ok (sems bs A B p) ∧ sems bs A B p ≠ [] ∧
      ((sems bs A B p).map (fun e => (e.perm.map, e.orient))).Nodup ∧
      (∀ e ∈ sems bs A B p, emapOk e = .ok true ∧ e.perm.map ~ List.range A.edge.length ∧ e.orient.length = A.edge.length) ∧
      ∀ τ os, (τ, os) ∈ (sems bs A B p).map (fun e => (e.perm.map, e.orient)) ↔
        τ ~ List.range A.edge.length ∧ os.length = A.edge.length ∧ AlongComps A.comp B.comp p.map τ os ∧ ∀ o ∈ os, o = .pos := by
  obtain ⟨ems, e1, e2⟩ := orientedEdgemaps_ok bs h hp.perm hp.sizes
  have : sems bs A B p = ems := by rw [sems, e1]
  rw [this]
  exact ⟨e1, e2⟩

theorem isotopy_members (bs : BSearch) (h : Ready A B) {p : Perm} (hp : TagPerm A B p) {e : EMap}
    (he : e ∈ sems bs A B p) {i : Iso} (hi : i ∈ isotopiesOf bs A B p e) :
    ∃ cm o, i.cmap = some cm ∧ i.comp = p ∧ i.emap = e ∧ o ≠ .unset ∧ cm.orient = o ∧ i.fmap.orient = o ∧ isoOk i = .ok true ∧
      IsotopyMaps A B i.comp.map i.emap.perm.map i.emap.orient cm.perm.map o i.fmap.perm.map := by
  obtain ⟨-, -, -, e4, e5⟩ := sems_ok bs h hp
  obtain ⟨a1, a2, a3⟩ := e4 e he
  obtain ⟨-, -, hal, hpos⟩ := (e5 e.perm.map e.orient).mp (List.mem_map.mpr ⟨e, he, rfl⟩)
  unfold isotopiesOf at hi
  obtain ⟨cf, hcf, rfl⟩ := List.mem_map.mp hi
  have key : ∀ o, o ≠ .unset → cf ∈ spairAt bs A B e.perm.map o → ∃ cm o, some cf.1 = some cm ∧ p = p ∧ e = e ∧
      o ≠ .unset ∧ cm.orient = o ∧
      cf.2.orient = o ∧ isoOk ⟨p, e, some cf.1, cf.2⟩ = .ok true ∧
      IsotopyMaps A B p.map e.perm.map e.orient cm.perm.map o cf.2.perm.map := by
    intro o ho hm
    obtain ⟨-, -, -, -, -, q⟩ := spairAt_ok bs h a2 ho
    obtain ⟨q1, q2, q3, q4, q5, q6, q7, q8⟩ := q cf hm
    refine ⟨cf.1, o, rfl, rfl, rfl, ho, q1, q2, (isoOk_iff rfl).mpr ⟨hp.ok, a1, q3, q4⟩, ?_⟩
    refine ⟨⟨h.comps.symm, h.cross, h.faces, hp.perm, a2, a3, q5, q6, hal, ?_, q8⟩, hpos, ?_, hp.tags⟩
    · intro c x hx
      obtain ⟨i, z, b1, b2, b3, -⟩ := q7 c x hx
      exact ⟨i, z, b1, b2, b3⟩
    · intro c x hx
      obtain ⟨i, z, b1, b2, -, b3⟩ := q7 c x hx
      exact ⟨i, z, b1, b2, b3.symm⟩
  rcases List.mem_append.mp hcf with hm | hm
  · exact key .pos (by simp) hm
  · exact key .neg (by simp) hm

theorem addIsotopy_ok (bs : BSearch) (h : Ready A B) {p : Perm} (hp : TagPerm A B p) {e : EMap}
    (he : e ∈ sems bs A B p) {cf : OMap × OMap}
    (hi : cf ∈ spairAt bs A B e.perm.map .pos ++ spairAt bs A B e.perm.map .neg) (acc : List Iso) :
    addIsotopy A B p e (some cf.1, cf.2) acc = .ok (acc ++ [⟨p, e, some cf.1, cf.2⟩]) := by
  obtain ⟨cm, o, c1, c2, c3, c4, c5, c6, c7, c8⟩ := isotopy_members bs h hp he (i := ⟨p, e, some cf.1, cf.2⟩)
    (List.mem_map.mpr ⟨cf, hi, rfl⟩)
  have h0 : A.cross.length ≠ 0 := fun hh => h.tidyA.plane.nonempty (List.length_eq_zero_iff.mp hh)
  have hd : isDiagramIsotopy A B ⟨p, e, some cf.1, cf.2⟩ = .ok true := by
    unfold isDiagramIsotopy
    dsimp only
    rw [tagsAgree_true p.n 0 (by
      intro j hj
      have hjl : j < A.comp.length := by
        have : p.map.length = A.comp.length := by simpa using hp.perm.length_eq
        rw [← this]; exact hj
      obtain ⟨t, b, t1, t2, t3⟩ := hp.tags j _ (List.getElem?_eq_getElem hjl)
      rw [Nat.zero_add]
      exact ⟨_, t, b, List.getElem?_eq_getElem hjl, t1, t2, t3.symm⟩), ok_bind, if_pos rfl, if_neg (not_not.mpr h.cross.symm),
      if_pos (by omega), show some cf.1 = some cm from c1]
    simp only [theCmap, ok_bind]
    rw [assertC_ok (by simpa using c5.trans c6.symm), ok_bind, if_pos (by
      rw [List.all_eq_true]
      intro d hd
      simpa using c8.kept d hd)]
    refine signsAgree_true _ 0 ?_
    intro j hj
    have hjl : j < A.cross.length := by
      have : cm.perm.map.length = A.cross.length := by simpa using c8.maps.crosses.length_eq
      rw [← this]; exact hj
    obtain ⟨t, b, t1, t2, t3⟩ := c8.signs j _ (List.getElem?_eq_getElem hjl)
    rw [Nat.zero_add]
    exact ⟨_, t, b, List.getElem?_eq_getElem hjl, t1, t2, t3.symm⟩
  unfold addIsotopy diagramIsotopyOk
  dsimp only
  rw [c7, ok_bind, if_pos rfl, hd, ok_bind, assertC_ok rfl, ok_bind]

theorem isotopyBody_ok (bs : BSearch) (h : Ready A B) {p : Perm} (hp : TagPerm A B p) {e : EMap}
    (he : e ∈ sems bs A B p) (acc : List Iso) :
    isotopyBody bs A B p e acc = .ok (acc ++ isotopiesOf bs A B p e) := by
  obtain ⟨-, -, -, e4, -⟩ := sems_ok bs h hp
  obtain ⟨a1, a2, a3⟩ := e4 e he
  have h0 : A.cross.length ≠ 0 := fun hh => h.tidyA.plane.nonempty (List.length_eq_zero_iff.mp hh)
  obtain ⟨f, p1, p2, p3, -, p5⟩ := spairAt_ok bs h a2 (o := .pos) (by simp)
  obtain ⟨g, n1, n2, n3, -, n5⟩ := spairAt_ok bs h a2 (o := .neg) (by simp)
  have hadd := fun cf hcf acc => addIsotopy_ok bs h hp he (cf := cf) hcf acc
  unfold isotopyBody buildCrossmaps buildFacemaps isotopiesOf
  rw [if_neg (fun hh => h0 hh.1), if_neg (fun hh => h0 hh.1), p1, ok_bind, n1, ok_bind, p2, ok_bind, n2, ok_bind]
  clear p1 p2 n1 n2
  rcases p3 with p3 | ⟨P, p3, rfl⟩ <;> rcases n3 with n3 | ⟨N, n3, rfl⟩
  · rw [p3, n3]
    simp [ok_bind]
  · rw [p3, n3] at hadd ⊢
    have hN := (n5 N (by rw [n3]; simp)).1
    have := hadd N (by simp) acc
    cases f with
    | none => simp [ok_bind, collect, this]
    | some f => simp [ok_bind, chooseFace, assertC_ok, rd, theCmap, hN, this]
  · rw [p3, n3] at hadd ⊢
    have hP := (p5 P (by rw [p3]; simp)).1
    have := hadd P (by simp) acc
    cases g with
    | none => simp [ok_bind, collect, this]
    | some g => simp [ok_bind, chooseFace, assertC_ok, rd, theCmap, hP, this]
  · rw [p3, n3] at hadd ⊢
    have h1 := hadd P (by simp) acc
    have h2 := hadd N (by simp) (acc ++ [⟨p, e, some P.1, P.2⟩])
    simp [ok_bind, collect, h1, h2]

/-! ### All isotopies -/

theorem isotopies_nodup (bs : BSearch) (h : Ready A B) {p : Perm} (hp : TagPerm A B p) :
    (((sems bs A B p).flatMap (isotopiesOf bs A B p)).map isoData).Nodup := by
  obtain ⟨e1, e2, e3, e4, -⟩ := sems_ok bs h hp
  rw [List.Nodup, List.pairwise_map, List.pairwise_flatMap]
  constructor
  · intro e he
    have a2 := (e4 e he).2.1
    obtain ⟨f, -, -, p3, -, p5⟩ := spairAt_ok bs h a2 (o := .pos) (by simp)
    obtain ⟨g, -, -, n3, -, n5⟩ := spairAt_ok bs h a2 (o := .neg) (by simp)
    rw [isotopiesOf, List.pairwise_map, List.pairwise_append]
    have one : ∀ (l : List (OMap × OMap)) (f : Option OMap) (R : OMap × OMap → OMap × OMap → Prop),
        (l = [] ∨ ∃ p, l = [p] ∧ f = some p.2) → l.Pairwise R := by
      rintro l f R (rfl | ⟨p, rfl, -⟩)
      · exact List.Pairwise.nil
      · exact List.pairwise_singleton _ _
    refine ⟨one _ _ _ p3, one _ _ _ n3, ?_⟩
    intro a ha b hb hab
    have q1 := (p5 a ha).2.1
    have q2 := (n5 b hb).2.1
    have := congrArg (fun d => d.2.2.2.1) hab
    simp only [isoData] at this
    rw [q1, q2] at this
    cases this
  · refine (List.pairwise_map.mp e3).imp ?_
    intro e e' hee i hi j hj hij
    unfold isotopiesOf at hi hj
    obtain ⟨c, -, rfl⟩ := List.mem_map.mp hi
    obtain ⟨d, -, rfl⟩ := List.mem_map.mp hj
    exact hee (congrArg (fun d => d.2.1) hij)

theorem comps_le (h : Tidy A.cross A.edge (retag A.comp) A.face) : A.comp.length ≤ A.edge.length := by
  have e1 : A.edge.length = (A.comp.map (fun k => k.edge.length)).sum := by
    have := congrArg List.length (flat_tidy h)
    rw [List.length_flatMap, List.length_range] at this
    exact this.symm
  rw [e1]
  have : ∀ l : List Comp, (∀ k ∈ l, k.edge ≠ []) → l.length ≤ (l.map (fun k => k.edge.length)).sum := by
    intro l
    induction l with
    | nil => simp
    | cons a l ih =>
      intro hl
      have h1 := List.length_pos_iff.mpr (hl a (by simp))
      have h2 := ih (fun k hk => hl k (by simp [hk]))
      simp only [List.map_cons, List.sum_cons, List.length_cons]
      omega
  exact this _ (ne_tidy h)

theorem isotopies_shape (bs : BSearch) (h : Ready A B) {p : Perm} (hp : TagPerm A B p) :
    ∀ i ∈ (sems bs A B p).flatMap (isotopiesOf bs A B p), IsoShape A.comp.length A.edge.length A.cross.length A.face.length i := by
  intro i hi
  obtain ⟨e, he, hi⟩ := List.mem_flatMap.mp hi
  obtain ⟨cm, o, c1, c2, c3, c4, c5, c6, c7, c8⟩ := isotopy_members bs h hp he hi
  obtain ⟨k1, k2, k3, k4⟩ := (isoOk_iff c1).mp c7
  have hs := h.tidyA.small
  have hcount := h.tidyA.plane.consistent.count
  have hf := h.tidyA.goodFaces.count
  have hk := comps_le h.tidyA
  have hor : ∀ o : Or, o ≠ .unset → Cmp.orOk o = true := by
    intro o ho
    cases o <;> first | rfl | exact absurd rfl ho
  have h0 : A.cross.length ≠ 0 := fun hh => h.tidyA.plane.nonempty (List.length_eq_zero_iff.mp hh)
  have c8 := c8.maps
  refine ⟨⟨by simpa using c8.comps.length_eq, small_of_perm c8.comps (by omega)⟩,
    ⟨by simpa using c8.edges.length_eq, c8.ors, small_of_perm c8.edges (by omega), ?_⟩,
    ⟨cm, c1, hor _ (by rw [c5]; exact c4), by simpa using c8.crosses.length_eq, small_of_perm c8.crosses (by omega)⟩,
    ⟨hor _ (by rw [c6]; exact c4), by simpa using c8.faces.length_eq, small_of_perm c8.faces (by omega)⟩⟩
  intro o ho
  exact hor o ((emapOk_parts k2).2 o ho)

theorem isotopies_spec (bs : BSearch) (h : Ready A B) {p : Perm} (hp : TagPerm A B p) (hnd : (B.comp.map (·.tag)).Nodup)
    (κ τ : List Nat) (os : List Or) (oc : Or) (σ : List Nat) (of : Or) (φ : List Nat) :
    (κ, (τ, os), (oc, σ), (of, φ)) ∈ ((sems bs A B p).flatMap (isotopiesOf bs A B p)).map isoData ↔
      oc = of ∧ oc ≠ .unset ∧ IsotopyMaps A B κ τ os σ oc φ := by
  constructor
  · intro hm
    obtain ⟨i, hi, hd⟩ := List.mem_map.mp hm
    obtain ⟨e, he, hi⟩ := List.mem_flatMap.mp hi
    obtain ⟨cm, o, c1, c2, c3, c4, c5, c6, c7, c8⟩ := isotopy_members bs h hp he hi
    simp only [isoData, c1, Prod.mk.injEq] at hd
    obtain ⟨rfl, ⟨rfl, rfl⟩, ⟨rfl, rfl⟩, ⟨rfl, rfl⟩⟩ := hd
    rw [c5, c6]
    exact ⟨rfl, c4, c8⟩
  · rintro ⟨rfl, ho, hm⟩
    have hκ : κ = p.map := by
      refine maps_eq (n := A.comp.length) (by simpa using hm.maps.comps.length_eq) (by simpa using hp.perm.length_eq) ?_
      intro c hc i j hi hj
      obtain ⟨t, b, t1, t2, t3⟩ := hm.tags c _ (List.getElem?_eq_getElem hc)
      obtain ⟨u, b', u1, u2, u3⟩ := hp.tags c _ (List.getElem?_eq_getElem hc)
      rw [hi] at t1
      rw [hj] at u1
      cases t1
      cases u1
      obtain ⟨m1, m2⟩ := List.getElem?_eq_some_iff.mp t2
      obtain ⟨n1, n2⟩ := List.getElem?_eq_some_iff.mp u2
      refine (List.Nodup.getElem_inj_iff hnd (hi := by simpa using m1) (hj := by simpa using n1)).mp ?_
      rw [List.getElem_map, List.getElem_map, m2, n2, t3, u3]
    subst hκ
    obtain ⟨-, -, -, -, e5⟩ := sems_ok bs h hp
    obtain ⟨e, he, hed⟩ := List.mem_map.mp ((e5 τ os).mpr ⟨hm.maps.edges, hm.maps.ors, hm.maps.along, hm.kept⟩)
    simp only [Prod.mk.injEq] at hed
    obtain ⟨rfl, rfl⟩ := hed
    obtain ⟨-, -, -, -, p4, p5⟩ := spairAt_ok bs h hm.maps.edges ho
    have hne := p4.mpr (by
      intro x hx
      obtain ⟨c, hc⟩ := List.mem_iff_getElem?.mp hx
      obtain ⟨i, z, i1, i2, i3⟩ := hm.maps.crossings c x hc
      obtain ⟨j, z', j1, j2, j3⟩ := hm.signs c x hc
      rw [i1] at j1
      cases j1
      rw [i2] at j2
      cases j2
      exact ⟨z, List.mem_of_getElem? i2, i3, j3.symm⟩)
    obtain ⟨cf, hcf⟩ := List.exists_mem_of_ne_nil _ hne
    obtain ⟨q1, q2, -, -, q5, q6, q7, q8⟩ := p5 cf hcf
    have hσ : cf.1.perm.map = σ := by
      refine maps_eq (n := A.cross.length) (by simpa using q5.length_eq) (by simpa using hm.maps.crosses.length_eq) ?_
      intro c hc i j hi hj
      obtain ⟨i', z, a1, a2, a3, -⟩ := q7 c _ (List.getElem?_eq_getElem hc)
      obtain ⟨j', y, b1, b2, b3⟩ := hm.maps.crossings c _ (List.getElem?_eq_getElem hc)
      rw [hi] at a1
      rw [hj] at b1
      cases a1
      cases b1
      exact C32_target_unique B.cross h.tidyB.canonical _ _ _ _ _ _ _ a2 b2 a3 b3
    have hφ : cf.2.perm.map = φ := by
      refine maps_eq (n := A.face.length) (by simpa using q6.length_eq) (by simpa using hm.maps.faces.length_eq) ?_
      intro c hc i j hi hj
      obtain ⟨i', z, a1, a2, a3⟩ := q8 c _ (List.getElem?_eq_getElem hc)
      obtain ⟨j', y, b1, b2, b3⟩ := hm.maps.around c _ (List.getElem?_eq_getElem hc)
      rw [hi] at a1
      rw [hj] at b1
      cases a1
      cases b1
      exact face_target_unique (B := retagged B) h.tidyB a2 b2 a3 b3
    refine List.mem_map.mpr ⟨⟨p, e, some cf.1, cf.2⟩, List.mem_flatMap.mpr ⟨e, he, ?_⟩, ?_⟩
    · refine List.mem_map.mpr ⟨cf, ?_, rfl⟩
      cases oc with
      | pos => exact List.mem_append.mpr (.inl hcf)
      | neg => exact List.mem_append.mpr (.inr hcf)
      | unset => exact absurd rfl ho
    · simp only [isoData, q1, q2, hσ, hφ]

end

end Plc.Isotopy
