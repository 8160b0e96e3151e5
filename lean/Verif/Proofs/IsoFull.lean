import Verif.Proofs.IsoBuild

/-! # All isomorphisms -/

namespace Plc.IsoSearch

open Plc.Cmp Plc.PermM Plc.Emap Plc.Isos Plc.Ok List

/-! ### Checking one -/

theorem isoConsistent_ok (qs : QSort) (mvA mvB : Nat) {A B : Io.Pd} {i : Iso} {cm : OMap} {ok : Bool}
    (hA : Tidy A.cross A.edge A.comp A.face) (hB : Tidy B.cross B.edge B.comp B.face)
    (hmA : A.cross.length ≤ mvA) (hmB : B.cross.length ≤ mvB) (hc : i.cmap = some cm)
    (hos : i.emap.orient.length = i.emap.perm.map.length) (h1 : B.comp.length = A.comp.length)
    (h2 : B.cross.length = A.cross.length) (hok : isoOk i = .ok ok) :
    Decides (isoConsistent qs (Io.capsNew mvA) (Io.capsNew mvB) A B i)
      (ok = true ∧ IsoMaps A B i.comp.map i.emap.perm.map i.emap.orient cm.perm.map (asRead cm.orient)
        i.fmap.perm.map (asRead i.fmap.orient)) := by
  have h3 : B.face.length = A.face.length := by rw [hA.goodFaces.count, hB.goodFaces.count, h2]
  have h4 : A.edge.length = B.edge.length := by
    rw [hA.plane.consistent.count, hB.plane.consistent.count, h2]
  have h0 : A.cross.length ≠ 0 := fun h => hA.plane.nonempty (List.length_eq_zero_iff.mp h)
  unfold isoConsistent
  rw [C51_ok_complete qs mvA A hA hmA, ok_bind, assertC_ok rfl, ok_bind, C51_ok_complete qs mvB B hB hmB, ok_bind,
    assertC_ok rfl, ok_bind]
  refine Decides.andThen (P := ok = true) ⟨ok, hok, Iff.rfl⟩ ?_
  intro hokt
  rw [hokt] at hok
  obtain ⟨k1, k2, k3, k4⟩ := (isoOk_iff hc).mp hok
  obtain ⟨k5, k6⟩ := emapOk_parts k2
  have e1 := permOk_perm k1
  have e2 := permOk_perm k5
  have e3 := permOk_perm k3
  have e4 := permOk_perm k4
  have hs : isoSizes A B i = .ok (decide (A.cross.length = cm.perm.n) && (decide (A.edge.length = i.emap.perm.n) &&
      (decide (A.face.length = i.fmap.perm.n) && decide (A.comp.length = i.comp.n)))) := by
    unfold isoSizes cmapSize
    rw [assertC_ok (by simp [h2]), ok_bind, hc]
    simp only [ok_bind, h0, decide_false, Bool.false_or]
    by_cases q1 : A.cross.length = cm.perm.n
    · simp only [q1, decide_true, if_true, Bool.true_and]
      rw [assertC_ok (by simp [h4]), ok_bind]
      by_cases q2 : A.edge.length = i.emap.perm.n
      · simp only [q2, not_true_eq_false, ne_eq, if_false, decide_true, Bool.true_and]
        rw [assertC_ok (by simp [h3]), ok_bind]
        by_cases q3 : A.face.length = i.fmap.perm.n
        · simp only [q3, not_true_eq_false, if_false, decide_true, Bool.true_and]
          rw [assertC_ok (by simp [h1]), ok_bind]
        · simp [q3]
      · simp [q2]
    · simp [q1]
  have hd : Decides (isoSizes A B i) (A.cross.length = cm.perm.n ∧ A.edge.length = i.emap.perm.n ∧
      A.face.length = i.fmap.perm.n ∧ A.comp.length = i.comp.n) := ⟨_, hs, by simp⟩
  refine Decides.congr (Decides.andThen hd (fun hq => isoAgrees_ok hA hB hc h1 h2 (by rw [hq.2.2.2]; exact e1)
    (by rw [hq.2.1]; exact e2) (by rw [hos, hq.2.1]; rfl) k6 (by rw [hq.1]; exact e3) (by rw [hq.2.2.1]; exact e4))) ?_
  constructor
  · exact fun h => h.2
  · intro h
    refine ⟨⟨?_, ?_, ?_, ?_⟩, h⟩
    · simpa [Perm.n] using h.crosses.length_eq.symm
    · simpa [Perm.n] using h.edges.length_eq.symm
    · simpa [Perm.n] using h.faces.length_eq.symm
    · simpa [Perm.n] using h.comps.length_eq.symm

/-! ### The list of all -/

/-- The crossing map and the face map of one orientation. -/
def pairAt (bs : BSearch) (A B : Io.Pd) (m : List Nat) (o : Or) : List (OMap × OMap) :=
  match orientedCrossmap bs false A.cross B.cross m o, orientedFacemap bs A.face B.face m o with
  | .ok (some c), .ok (some f) => [(c, f)]
  | _, _ => []

/-- The isomorphisms with this component permutation and this edge map. -/
def isosOf (bs : BSearch) (A B : Io.Pd) (p : Perm) (e : EMap) : List Iso :=
  (pairAt bs A B e.perm.map .pos ++ pairAt bs A B e.perm.map .neg).map (fun cf => ⟨p, e, some cf.1, cf.2⟩)

/-- The edge maps for this component permutation. -/
def emsOf (bs : BSearch) (A B : Io.Pd) (p : Perm) : List EMap :=
  match buildEdgemaps bs A B p.map with
  | .ok ems => ems
  | .error _ => []

/-- All isomorphisms, with these component permutations. -/
def fullList (bs : BSearch) (A B : Io.Pd) (ps : List Perm) : List Iso :=
  ps.flatMap (fun p => (emsOf bs A B p).flatMap (isosOf bs A B p))

/-- Two diagrams as the search expects them. -/
structure Ready2 (A B : Io.Pd) (mvA mvB : Nat) : Prop where
  tidyA : Tidy A.cross A.edge A.comp A.face
  tidyB : Tidy B.cross B.edge B.comp B.face
  capA : A.cross.length ≤ mvA
  capB : B.cross.length ≤ mvB
  cross : B.cross.length = A.cross.length
  sizes : compSizes A.comp = compSizes B.comp
  prod : (A.comp.map (fun k => 2 * k.edge.length)).prod < 2 ^ 32

theorem Ready2.comps {A B : Io.Pd} {mvA mvB : Nat} (h : Ready2 A B mvA mvB) : A.comp.length = B.comp.length := by
  have := congrArg List.length h.sizes
  simpa [compSizes] using this

theorem Ready2.edges {A B : Io.Pd} {mvA mvB : Nat} (h : Ready2 A B mvA mvB) : A.edge.length = B.edge.length := by
  rw [h.tidyA.plane.consistent.count, h.tidyB.plane.consistent.count, h.cross]

theorem Ready2.faces {A B : Io.Pd} {mvA mvB : Nat} (h : Ready2 A B mvA mvB) : B.face.length = A.face.length := by
  rw [h.tidyA.goodFaces.count, h.tidyB.goodFaces.count, h.cross]

/-- A component permutation the search tries. -/
def CompPerm (A B : Io.Pd) (p : Perm) : Prop :=
  permOk p = .ok true ∧ p.map ~ List.range A.comp.length ∧
    ∀ (c : Nat) k, A.comp[c]? = some k → ∃ t b, p.map[c]? = some t ∧ B.comp[t]? = some b ∧ b.edge.length = k.edge.length

section

variable {A B : Io.Pd} {mvA mvB : Nat}

theorem emsOf_ok (bs : BSearch) (h : Ready2 A B mvA mvB) {p : Perm} (hp : CompPerm A B p) :
    buildEdgemaps bs A B p.map = .ok (emsOf bs A B p) ∧ emsOf bs A B p ≠ [] ∧
      ((emsOf bs A B p).map (fun e => (e.perm.map, e.orient))).Nodup ∧
      (∀ e ∈ emsOf bs A B p, emapOk e = .ok true ∧ e.perm.map ~ List.range A.edge.length ∧ e.orient.length = A.edge.length) ∧
      ∀ τ os, (τ, os) ∈ (emsOf bs A B p).map (fun e => (e.perm.map, e.orient)) ↔
        τ ~ List.range A.edge.length ∧ os.length = A.edge.length ∧ AlongComps A.comp B.comp p.map τ os := by
  have hC := h.tidyA.plane.consistent
  have h0 := h.tidyA.plane.nonempty
  have hn : 1 ≤ A.edge.length := by
    rw [hC.count]
    have : A.cross.length ≠ 0 := fun h => h0 (List.length_eq_zero_iff.mp h)
    omega
  obtain ⟨ems, e1, e2⟩ := buildEdgemaps_ok bs (cp := p.map) hn h.edges (by rw [h.tidyA.goodComps.all])
    (fun k hk => List.length_pos_iff.mpr (h.tidyA.goodComps.nonempty k hk)) (by rw [h.tidyB.goodComps.all]) h.comps hp.2.1
    hp.2.2 h.prod
  have : emsOf bs A B p = ems := by rw [emsOf, e1]
  rw [this]
  exact ⟨e1, e2⟩

theorem pairAt_ok (bs : BSearch) (h : Ready2 A B mvA mvB) {m : List Nat} (hm : m ~ List.range A.edge.length) {o : Or}
    (ho : o ≠ .unset) :
    orientedCrossmap bs false A.cross B.cross m o = .ok ((pairAt bs A B m o).head?.map Prod.fst) ∧
      orientedFacemap bs A.face B.face m o = .ok ((pairAt bs A B m o).head?.map Prod.snd) ∧
      (pairAt bs A B m o).length ≤ 1 ∧
      (pairAt bs A B m o ≠ [] ↔ ∃ σ, SameShadow A.cross B.cross A.edge.length (fun e => m[e]!) σ o) ∧
      ∀ p ∈ pairAt bs A B m o, p.1.orient = o ∧ p.2.orient = o ∧ permOk p.1.perm = .ok true ∧ permOk p.2.perm = .ok true ∧
        p.1.perm.map ~ List.range A.cross.length ∧ p.2.perm.map ~ List.range A.face.length ∧
        (∀ (c : Nat) x, A.cross[c]? = some x → ∃ i z, p.1.perm.map[c]? = some i ∧ B.cross[i]? = some z ∧
          CarriedTo (fun e => m[e]!) o x z) ∧
        (∀ (c : Nat) x, A.face[c]? = some x → ∃ i z, p.2.perm.map[c]? = some i ∧ B.face[i]? = some z ∧
          ListCarried (fun e => m[e]!) o x.edge z.edge) := by
  obtain ⟨r, r1, r2, r3, r4⟩ := pair_ok bs h.tidyA h.tidyB h.cross hm ho
  cases r with
  | none =>
    have : pairAt bs A B m o = [] := by rw [pairAt, r1, r2]; rfl
    rw [this]
    exact ⟨r1, r2, by simp, by rw [← r3]; simp, by simp⟩
  | some p =>
    have : pairAt bs A B m o = [p] := by rw [pairAt, r1, r2]; rfl
    rw [this]
    refine ⟨r1, r2, by simp, by rw [← r3]; simp, ?_⟩
    intro q hq
    rw [List.mem_singleton.mp hq]
    exact r4 p rfl

theorem iso_members (bs : BSearch) (h : Ready2 A B mvA mvB) {p : Perm} (hp : CompPerm A B p) {e : EMap}
    (he : e ∈ emsOf bs A B p) {i : Iso} (hi : i ∈ isosOf bs A B p e) :
    ∃ cm o, i.cmap = some cm ∧ i.comp = p ∧ i.emap = e ∧ o ≠ .unset ∧ cm.orient = o ∧ i.fmap.orient = o ∧ isoOk i = .ok true ∧
      IsoMaps A B i.comp.map i.emap.perm.map i.emap.orient cm.perm.map o i.fmap.perm.map o := by
  obtain ⟨-, -, -, e4, e5⟩ := emsOf_ok bs h hp
  obtain ⟨a1, a2, a3⟩ := e4 e he
  have hal := ((e5 e.perm.map e.orient).mp (List.mem_map.mpr ⟨e, he, rfl⟩)).2.2
  unfold isosOf at hi
  obtain ⟨cf, hcf, rfl⟩ := List.mem_map.mp hi
  have key : ∀ o, o ≠ .unset → cf ∈ pairAt bs A B e.perm.map o → ∃ cm o, some cf.1 = some cm ∧ p = p ∧ e = e ∧
      o ≠ .unset ∧ cm.orient = o ∧
      cf.2.orient = o ∧ isoOk ⟨p, e, some cf.1, cf.2⟩ = .ok true ∧
      IsoMaps A B p.map e.perm.map e.orient cm.perm.map o cf.2.perm.map o := by
    intro o ho hm
    obtain ⟨-, -, -, -, q⟩ := pairAt_ok bs h a2 ho
    obtain ⟨q1, q2, q3, q4, q5, q6, q7, q8⟩ := q cf hm
    refine ⟨cf.1, o, rfl, rfl, rfl, ho, q1, q2, (isoOk_iff rfl).mpr ⟨hp.1, a1, q3, q4⟩, ?_⟩
    exact ⟨h.comps.symm, h.cross, h.faces, hp.2.1, a2, a3, q5, q6, hal, q7, q8⟩
  rcases List.mem_append.mp hcf with hm | hm
  · exact key .pos (by simp) hm
  · exact key .neg (by simp) hm

theorem addIso_ok (qs : QSort) (bs : BSearch) (h : Ready2 A B mvA mvB) {p : Perm} (hp : CompPerm A B p) {e : EMap}
    (he : e ∈ emsOf bs A B p) {cf : OMap × OMap}
    (hi : cf ∈ pairAt bs A B e.perm.map .pos ++ pairAt bs A B e.perm.map .neg) (acc : List Iso) :
    addIso qs (Io.capsNew mvA) (Io.capsNew mvB) A B p e (some cf.1, cf.2) acc = .ok (acc ++ [⟨p, e, some cf.1, cf.2⟩]) := by
  obtain ⟨cm, o, c1, c2, c3, c4, c5, c6, c7, c8⟩ := iso_members bs h hp he (i := ⟨p, e, some cf.1, cf.2⟩)
    (List.mem_map.mpr ⟨cf, hi, rfl⟩)
  obtain ⟨-, -, -, e4, -⟩ := emsOf_ok bs h hp
  obtain ⟨a1, a2, a3⟩ := e4 e he
  have har : asRead o = o := by
    unfold asRead
    cases o <;> first | rfl | exact absurd rfl c4
  obtain ⟨b, b1, b2⟩ := isoConsistent_ok qs mvA mvB h.tidyA h.tidyB h.capA h.capB c1
    (by simp [a3, a2.length_eq]) h.comps.symm h.cross c7
  have : b = true := by
    rw [b2]
    refine ⟨rfl, ?_⟩
    rw [c5, c6, har]
    exact c8
  rw [this] at b1
  unfold addIso
  dsimp only
  rw [b1, ok_bind, assertC_ok rfl, ok_bind]

theorem edgemapBody_ok (qs : QSort) (bs : BSearch) (stop : Bool) (h : Ready2 A B mvA mvB) {p : Perm} (hp : CompPerm A B p)
    {e : EMap} (he : e ∈ emsOf bs A B p) (acc : List Iso) (hacc : stop = true → acc = []) :
    edgemapBody qs bs stop (Io.capsNew mvA) (Io.capsNew mvB) A B p e acc =
      .ok (acc ++ cut stop (isosOf bs A B p e)) := by
  obtain ⟨-, -, -, e4, -⟩ := emsOf_ok bs h hp
  obtain ⟨a1, a2, a3⟩ := e4 e he
  have h0 : A.cross.length ≠ 0 := fun hh => h.tidyA.plane.nonempty (List.length_eq_zero_iff.mp hh)
  obtain ⟨p1, p2, p3, -⟩ := pairAt_ok bs h a2 (o := .pos) (by simp)
  obtain ⟨n1, n2, n3, -⟩ := pairAt_ok bs h a2 (o := .neg) (by simp)
  have hl : ∀ l : List (OMap × OMap), l.length ≤ 1 →
      (l.head?.map Prod.snd).toList = l.map Prod.snd := by
    intro l hl
    match l, hl with
    | [], _ => rfl
    | [x], _ => rfl
  have hcs : buildCrossmaps bs false A.cross B.cross e.perm.map =
      .ok ((pairAt bs A B e.perm.map .pos ++ pairAt bs A B e.perm.map .neg).map (fun c => some c.1)) := by
    unfold buildCrossmaps
    rw [if_neg (fun hh => h0 hh.1), p1, ok_bind, n1, ok_bind]
    clear p1 p2 n1 n2
    revert p3 n3
    generalize pairAt bs A B e.perm.map .pos = P
    generalize pairAt bs A B e.perm.map .neg = N
    intro p3 n3
    match P, p3, N, n3 with
    | [], _, [], _ => rfl
    | [], _, [x], _ => rfl
    | [x], _, [], _ => rfl
    | [x], _, [y], _ => rfl
  have hfs : buildFacemaps bs A B e =
      .ok ((pairAt bs A B e.perm.map .pos ++ pairAt bs A B e.perm.map .neg).map Prod.snd) := by
    unfold buildFacemaps
    rw [if_neg (fun hh => h0 hh.1), p2, ok_bind, n2, ok_bind, hl _ p3, hl _ n3, List.map_append]
  unfold edgemapBody
  rw [hcs, ok_bind, hfs, ok_bind, assertC_ok (by simp), ok_bind]
  have hz : ∀ l : List (OMap × OMap), (l.map (fun c => some c.1)).zip (l.map Prod.snd) = l.map (fun c => (some c.1, c.2)) := by
    intro l
    induction l with
    | nil => rfl
    | cons a l ih => simp [ih]
  rw [hz, collect_ok (g := fun cf => [⟨p, e, cf.1, cf.2⟩]) _ acc hacc]
  · congr 3
    rw [isosOf, List.flatMap_map]
    exact List.map_eq_flatMap.symm
  · intro cf hcf acc _
    obtain ⟨c, hc, rfl⟩ := List.mem_map.mp hcf
    rw [addIso_ok qs bs h hp he hc acc]
    cases stop <;> rfl

theorem comppermBody_ok (qs : QSort) (bs : BSearch) (stop : Bool) (h : Ready2 A B mvA mvB) {p : Perm} (hp : CompPerm A B p)
    (acc : List Iso) (hacc : stop = true → acc = []) :
    comppermBody qs bs stop (Io.capsNew mvA) (Io.capsNew mvB) A B p acc =
      .ok (acc ++ cut stop ((emsOf bs A B p).flatMap (isosOf bs A B p))) := by
  obtain ⟨e1, e2, e3, e4, -⟩ := emsOf_ok bs h hp
  have hs := h.tidyA.small
  unfold comppermBody
  rw [e1, ok_bind, edgemapsOk_true qs (n := A.edge.length) (by omega) e2 e3 e4, ok_bind, assertC_ok rfl, ok_bind]
  exact collect_ok _ acc hacc (fun e he acc hacc => edgemapBody_ok qs bs stop h hp he acc hacc)

theorem collect_all (qs : QSort) (bs : BSearch) (stop : Bool) (h : Ready2 A B mvA mvB) {ps : List Perm}
    (hp : ∀ p ∈ ps, CompPerm A B p) :
    collect stop (comppermBody qs bs stop (Io.capsNew mvA) (Io.capsNew mvB) A B) ps [] =
      .ok (cut stop (fullList bs A B ps)) := by
  have := collect_ok (stop := stop) (body := comppermBody qs bs stop (Io.capsNew mvA) (Io.capsNew mvB) A B)
    (g := fun p => (emsOf bs A B p).flatMap (isosOf bs A B p)) ps [] (fun _ => rfl)
    (fun p hpm acc hacc => comppermBody_ok qs bs stop h (hp p hpm) acc hacc)
  rw [List.nil_append] at this
  exact this

/-! ### No isomorphism twice -/

theorem mem_full (bs : BSearch) {ps : List Perm} {i : Iso} : i ∈ fullList bs A B ps ↔
    ∃ p ∈ ps, ∃ e ∈ emsOf bs A B p, i ∈ isosOf bs A B p e := by
  simp [fullList, List.mem_flatMap]

theorem full_nodup (bs : BSearch) (h : Ready2 A B mvA mvB) {ps : List Perm} (hp : ∀ p ∈ ps, CompPerm A B p)
    (hd : (ps.map (·.map)).Nodup) : ((fullList bs A B ps).map isoData).Nodup := by
  rw [List.Nodup, List.pairwise_map, fullList, List.pairwise_flatMap]
  constructor
  · intro p hpm
    obtain ⟨e1, e2, e3, e4, -⟩ := emsOf_ok bs h (hp p hpm)
    rw [List.pairwise_flatMap]
    constructor
    · intro e he
      have a2 := (e4 e he).2.1
      obtain ⟨-, -, p3, -, p5⟩ := pairAt_ok bs h a2 (o := .pos) (by simp)
      obtain ⟨-, -, n3, -, n5⟩ := pairAt_ok bs h a2 (o := .neg) (by simp)
      rw [isosOf, List.pairwise_map, List.pairwise_append]
      have one : ∀ (l : List (OMap × OMap)) (R : OMap × OMap → OMap × OMap → Prop), l.length ≤ 1 → l.Pairwise R := by
        intro l R hl
        match l, hl with
        | [], _ => exact List.Pairwise.nil
        | [x], _ => exact List.pairwise_singleton _ _
      refine ⟨one _ _ p3, one _ _ n3, ?_⟩
      intro a ha b hb hab
      have q1 := (p5 a ha).2.1
      have q2 := (n5 b hb).2.1
      have := congrArg (fun d => d.2.2.2.1) hab
      simp only [isoData] at this
      rw [q1, q2] at this
      cases this
    · refine (List.pairwise_map.mp e3).imp ?_
      intro e e' hee i hi j hj hij
      unfold isosOf at hi hj
      obtain ⟨c, -, rfl⟩ := List.mem_map.mp hi
      obtain ⟨d, -, rfl⟩ := List.mem_map.mp hj
      exact hee (congrArg (fun d => d.2.1) hij)
  · refine (List.pairwise_map.mp hd).imp ?_
    intro p q hpq i hi j hj hij
    obtain ⟨e, -, hi⟩ := List.mem_flatMap.mp hi
    obtain ⟨e', -, hj⟩ := List.mem_flatMap.mp hj
    unfold isosOf at hi hj
    obtain ⟨c, -, rfl⟩ := List.mem_map.mp hi
    obtain ⟨d, -, rfl⟩ := List.mem_map.mp hj
    exact hpq (congrArg (fun d => d.1) hij)

theorem full_shape (bs : BSearch) (h : Ready2 A B mvA mvB) {ps : List Perm} (hp : ∀ p ∈ ps, CompPerm A B p) :
    ∀ i ∈ fullList bs A B ps, IsoShape A.comp.length A.edge.length A.cross.length A.face.length i := by
  intro i hi
  obtain ⟨p, hpm, e, he, hi⟩ := (mem_full bs).mp hi
  obtain ⟨cm, o, c1, c2, c3, c4, c5, c6, c7, c8⟩ := iso_members bs h (hp p hpm) he hi
  obtain ⟨k1, k2, k3, k4⟩ := (isoOk_iff c1).mp c7
  have hs := h.tidyA.small
  have hcount := h.tidyA.plane.consistent.count
  have hf := h.tidyA.goodFaces.count
  have hk : A.comp.length ≤ A.edge.length := by
    have e1 : A.edge.length = (A.comp.map (fun k => k.edge.length)).sum := by
      have := congrArg List.length h.tidyA.goodComps.all
      rw [List.length_flatMap, List.length_range] at this
      exact this.symm
    rw [e1]
    have : ∀ l : List Comp, (∀ k ∈ l, k.edge ≠ []) → l.length ≤ (l.map (fun k => k.edge.length)).sum := by
      intro l
      induction l with
      | nil => simp
      | cons a l ih =>
        intro hl
        have h1 := List.length_pos_iff.mpr (hl a (by simp))
        have h2 := ih (fun k hk => hl k (by simp [hk]))
        simp only [List.map_cons, List.sum_cons, List.length_cons]
        omega
    exact this _ h.tidyA.goodComps.nonempty
  have hor : ∀ o : Or, o ≠ .unset → orOk o = true := by
    intro o ho
    cases o <;> first | rfl | exact absurd rfl ho
  have h0 : A.cross.length ≠ 0 := fun hh => h.tidyA.plane.nonempty (List.length_eq_zero_iff.mp hh)
  refine ⟨⟨by simpa using c8.comps.length_eq, small_of_perm c8.comps (by omega)⟩,
    ⟨by simpa using c8.edges.length_eq, c8.ors, small_of_perm c8.edges (by omega), ?_⟩,
    ⟨cm, c1, hor _ (by rw [c5]; exact c4), by simpa using c8.crosses.length_eq, small_of_perm c8.crosses (by omega)⟩,
    ⟨hor _ (by rw [c6]; exact c4), by simpa using c8.faces.length_eq, small_of_perm c8.faces (by omega)⟩⟩
  intro o ho
  exact hor o ((emapOk_parts k2).2 o ho)

theorem handOver_ok (qs : QSort) (nk ne nc nf : Nat) {l : List Iso} (hs : ∀ i ∈ l, IsoShape nk ne nc nf i)
    (hd : (l.map isoData).Nodup) : handOver qs l = .ok l.reverse := by
  unfold handOver
  cases l with
  | nil => rfl
  | cons a l =>
    rw [if_neg (by simp)]
    obtain ⟨s, s1, s2, s3⟩ := sorted_unique qs (isoCmp_order nk ne nc nf) (l := (a :: l).reverse)
      (by intro i hi; exact hs i (List.mem_reverse.mp hi)) (by simp)
      (by
        rw [List.pairwise_reverse]
        exact (List.pairwise_map.mp hd).imp (fun h => Ne.symm h))
      (fun _ _ h => h.symm) (sameBy_ok (isoCmp_order nk ne nc nf))
    unfold isosUnique
    rw [s1, ok_bind, s3, ok_bind, assertC_ok rfl, ok_bind]

/-! ### What the list contains -/

theorem face_target_unique (hB : Tidy B.cross B.edge B.comp B.face) {τ : Nat → Nat} {o : Or} {f : List Nat} {i j : Nat}
    {g g' : Face} (hi : B.face[i]? = some g) (hj : B.face[j]? = some g') (h1 : ListCarried τ o f g.edge)
    (h2 : ListCarried τ o f g'.edge) : i = j := by
  have hG := faceTable_of_tidy hB
  exact hG.differ i j g g' hi hj (fun e => by rw [mem_of_carried h1, mem_of_carried h2])

theorem maps_eq {σ σ' : List Nat} {n : Nat} (h : σ.length = n) (h' : σ'.length = n)
    (he : ∀ c, c < n → ∀ i j, σ[c]? = some i → σ'[c]? = some j → i = j) : σ = σ' := by
  apply List.ext_getElem (by omega)
  intro c h1 h2
  exact he c (by omega) _ _ (List.getElem?_eq_getElem h1) (List.getElem?_eq_getElem h2)

theorem full_spec (bs : BSearch) (h : Ready2 A B mvA mvB) {ps : List Perm} (hp : ∀ p ∈ ps, CompPerm A B p)
    (hall : ∀ q, q ~ List.range A.comp.length → (∀ (c : Nat) k, A.comp[c]? = some k →
      ∃ t b, q[c]? = some t ∧ B.comp[t]? = some b ∧ b.edge.length = k.edge.length) → ∃ p ∈ ps, p.map = q)
    (κ τ : List Nat) (os : List Or) (oc : Or) (σ : List Nat) (of : Or) (φ : List Nat) :
    (κ, (τ, os), (oc, σ), (of, φ)) ∈ (fullList bs A B ps).map isoData ↔
      oc = of ∧ oc ≠ .unset ∧ IsoMaps A B κ τ os σ oc φ of := by
  constructor
  · intro hm
    obtain ⟨i, hi, hd⟩ := List.mem_map.mp hm
    obtain ⟨p, hpm, e, he, hi⟩ := (mem_full bs).mp hi
    obtain ⟨cm, o, c1, c2, c3, c4, c5, c6, c7, c8⟩ := iso_members bs h (hp p hpm) he hi
    simp only [isoData, c1, Prod.mk.injEq] at hd
    obtain ⟨rfl, ⟨rfl, rfl⟩, ⟨rfl, rfl⟩, ⟨rfl, rfl⟩⟩ := hd
    rw [c5, c6]
    exact ⟨rfl, c4, c8⟩
  · rintro ⟨rfl, ho, hm⟩
    obtain ⟨p, hpm, rfl⟩ := hall κ hm.comps (by
      intro c k hk
      obtain ⟨t, b, dir, t1, t2, -, t4, -⟩ := hm.along c k hk
      exact ⟨t, b, t1, t2, listCarried_length t4⟩)
    obtain ⟨-, -, -, -, e5⟩ := emsOf_ok bs h (hp p hpm)
    obtain ⟨e, he, hed⟩ := List.mem_map.mp ((e5 τ os).mpr ⟨hm.edges, hm.ors, hm.along⟩)
    simp only [Prod.mk.injEq] at hed
    obtain ⟨rfl, rfl⟩ := hed
    obtain ⟨-, -, -, p4, p5⟩ := pairAt_ok bs h hm.edges ho
    have hsh := shadow_of_maps hm.sameCross hm.edges hm.crosses hm.crossings
    obtain ⟨cf, hcf⟩ := List.exists_mem_of_ne_nil _ (p4.mpr ⟨_, hsh⟩)
    obtain ⟨q1, q2, -, -, q5, q6, q7, q8⟩ := p5 cf hcf
    have hσ : cf.1.perm.map = σ := by
      refine maps_eq (n := A.cross.length) (by simpa using q5.length_eq) (by simpa using hm.crosses.length_eq) ?_
      intro c hc i j hi hj
      obtain ⟨i', z, a1, a2, a3⟩ := q7 c _ (List.getElem?_eq_getElem hc)
      obtain ⟨j', y, b1, b2, b3⟩ := hm.crossings c _ (List.getElem?_eq_getElem hc)
      rw [hi] at a1
      rw [hj] at b1
      cases a1
      cases b1
      exact C32_target_unique B.cross h.tidyB.canonical _ _ _ _ _ _ _ a2 b2 a3 b3
    have hφ : cf.2.perm.map = φ := by
      refine maps_eq (n := A.face.length) (by simpa using q6.length_eq) (by simpa using hm.faces.length_eq) ?_
      intro c hc i j hi hj
      obtain ⟨i', z, a1, a2, a3⟩ := q8 c _ (List.getElem?_eq_getElem hc)
      obtain ⟨j', y, b1, b2, b3⟩ := hm.around c _ (List.getElem?_eq_getElem hc)
      rw [hi] at a1
      rw [hj] at b1
      cases a1
      cases b1
      exact face_target_unique h.tidyB a2 b2 a3 b3
    refine List.mem_map.mpr ⟨⟨p, e, some cf.1, cf.2⟩, (mem_full bs).mpr ⟨p, hpm, e, he, ?_⟩, ?_⟩
    · refine List.mem_map.mpr ⟨cf, ?_, rfl⟩
      cases oc with
      | pos => exact List.mem_append.mpr (.inl hcf)
      | neg => exact List.mem_append.mpr (.inr hcf)
      | unset => exact absurd rfl ho
    · simp only [isoData, q1, q2, hσ, hφ]

end

theorem _root_.Plc.IsoMaps.shadow {A B : Io.Pd} {κ τ : List Nat} {os : List Or} {σ : List Nat} {oc : Or} {φ : List Nat} {of : Or}
    (h : IsoMaps A B κ τ os σ oc φ of) :
    SameShadow A.cross B.cross A.edge.length (fun e => τ[e]!) (fun c => σ[c]!) oc :=
  shadow_of_maps h.sameCross h.edges h.crosses h.crossings

theorem range_perm {n : Nat} {f : Nat → Nat} (hl : ∀ i, i < n → f i < n) (hi : ∀ i j, i < n → j < n → f i = f j → i = j) :
    (List.range n).map f ~ List.range n := by
  refine perm_range_of (by simp) ?_ ?_
  · intro x hx
    obtain ⟨i, h1, rfl⟩ := List.mem_map.mp hx
    exact hl i (List.mem_range.mp h1)
  · refine List.Nodup.map_on ?_ List.nodup_range
    intro i h1 j h2 h
    exact hi i j (List.mem_range.mp h1) (List.mem_range.mp h2) h

/-- A map of the shadows comes with all the other maps. -/
theorem maps_of_shadow {A B : Io.Pd} (hA : Tidy A.cross A.edge A.comp A.face) (hB : Tidy B.cross B.edge B.comp B.face)
    {τ σ : Nat → Nat} {o : Or} (h : SameShadow A.cross B.cross A.edge.length τ σ o) :
    ∃ κ os φ, IsoMaps A B κ ((List.range A.edge.length).map τ) os ((List.range A.cross.length).map σ) o φ o := by
  have hCA := hA.plane.consistent
  have hCB := hB.plane.consistent
  obtain ⟨π, hπ⟩ := Shape.place_of_shadow h
  obtain ⟨φ, hφ⟩ := Shape.faces_of_place hCA hCB hA.goodFaces hB.goodFaces h.len h.tlt h.tinj hπ
  obtain ⟨hl, κ, dir, k1, k2, k3, k4⟩ := Shape.comps_of_place hCA hCB hA.plane.oriented hB.plane.oriented hA.goodComps
    hB.goodComps h.len h.tinj hπ
  have hfl : B.face.length = A.face.length := by rw [hA.goodFaces.count, hB.goodFaces.count, h.len]
  have hAc : A.comp.flatMap (·.edge) ~ List.range A.edge.length := by rw [hA.goodComps.all]
  have hτ : ∀ e, e < A.edge.length → ((List.range A.edge.length).map τ)[e]! = τ e := by
    intro e he
    rw [getElem!_pos _ e (by simpa using he)]
    simp
  have hr : ∀ (f : Nat → Nat) n c, c < n → ((List.range n).map f)[c]? = some (f c) := by
    intro f n c hc
    rw [List.getElem?_map, List.getElem?_range hc]
    rfl
  have hcl : ∀ x ∈ A.cross, ∀ k, x.at k < A.edge.length := fun x hx k => cross_at_lt hCA hx k
  refine ⟨(List.range A.comp.length).map κ, (List.range A.edge.length).map (fun e =>
    dir (A.comp.findIdx (fun k => decide (e ∈ k.edge)))), (List.range A.face.length).map φ,
    ⟨hl, h.len, hfl, range_perm k1 k2, range_perm h.tlt h.tinj, by simp, range_perm h.slt h.sinj, range_perm hφ.plt hφ.pinj,
      ?_, ?_, ?_⟩⟩
  · intro c k hk
    have hc := (List.getElem?_eq_some_iff.mp hk).1
    obtain ⟨k', a1, a2, -⟩ := k4 c k hk
    refine ⟨κ c, k', dir c, hr κ _ c hc, a1, ?_, ?_, ?_⟩
    · rcases k3 c with h | h <;> rw [h] <;> simp
    · refine a2.congr ?_
      intro e he
      refine hτ e ?_
      exact List.mem_range.mp (hAc.mem_iff.mp (List.mem_flatMap.mpr ⟨k, List.mem_of_getElem? hk, he⟩))
    · intro e he
      have hlt := List.mem_range.mp (hAc.mem_iff.mp (List.mem_flatMap.mpr ⟨k, List.mem_of_getElem? hk, he⟩))
      rw [List.getElem?_map, List.getElem?_range hlt]
      have hidx : A.comp.findIdx (fun k => decide (e ∈ k.edge)) = c := by
        have hex : A.comp.findIdx (fun k => decide (e ∈ k.edge)) < A.comp.length :=
          List.findIdx_lt_length_of_exists ⟨k, List.mem_of_getElem? hk, by simpa using he⟩
        have := List.findIdx_getElem (w := hex)
        exact comp_index_unique hAc (List.getElem?_eq_getElem hex) hk (of_decide_eq_true this) he
      rw [Option.map_some, hidx]
  · intro c x hx
    obtain ⟨z, z1, z2⟩ := h.carried c x hx
    refine ⟨σ c, z, hr σ _ c (List.getElem?_eq_some_iff.mp hx).1, z1, ?_⟩
    rw [Shape.carriedTo_iff] at z2 ⊢
    refine z2.congr ?_
    intro e he
    have hx' := List.mem_of_getElem? hx
    have h0 := hcl x hx' 0
    have h1 := hcl x hx' 1
    have h2 := hcl x hx' 2
    have h3 := hcl x hx' 3
    refine hτ e ?_
    simp only [List.mem_cons, List.not_mem_nil, or_false] at he
    rcases he with rfl | rfl | rfl | rfl
    exacts [h0, h1, h2, h3]
  · intro c f hf
    obtain ⟨g, g1, g2⟩ := hφ.carried c f hf
    refine ⟨φ c, g, hr φ _ c (List.getElem?_eq_some_iff.mp hf).1, g1, g2.congr ?_⟩
    intro e he
    exact hτ e (face_edge_lt hA.goodFaces f (List.mem_of_getElem? hf) e he)

end Plc.IsoSearch
