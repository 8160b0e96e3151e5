import Verif.Model.Isotopy
import Verif.Proofs.IsoDir

/-! # The search for map isomorphisms -/

namespace Plc.Isotopy

open Plc.Cmp Plc.PermM Plc.Emap Plc.Isos Plc.Ok Plc.Places Plc.Multidx Plc.IsoSearch Plc.Iters List

/-- Not a reflection. -/
def direct (i : Iso) : Bool := decide (i.cmap.map (·.orient) = some .pos)

section

variable {A B : Io.Pd} {mvA mvB : Nat}

theorem mapIsoEdgemapBody_ok (qs : QSort) (bs : BSearch) (h : Ready2 A B mvA mvB) {p : Perm} (hp : CompPerm A B p)
    {e : EMap} (he : e ∈ emsOf bs A B p) (acc : List Iso) :
    mapIsoEdgemapBody qs bs (Io.capsNew mvA) (Io.capsNew mvB) A B p e acc =
      .ok (acc ++ (isosOf bs A B p e).filter direct) := by
  obtain ⟨-, -, -, e4, -⟩ := emsOf_ok bs h hp
  obtain ⟨a1, a2, a3⟩ := e4 e he
  have h0 : A.cross.length ≠ 0 := fun hh => h.tidyA.plane.nonempty (List.length_eq_zero_iff.mp hh)
  obtain ⟨p1, p2, p3, -⟩ := pairAt_ok bs h a2 (o := .pos) (by simp)
  obtain ⟨n1, n2, n3, -⟩ := pairAt_ok bs h a2 (o := .neg) (by simp)
  have hl : ∀ l : List (OMap × OMap), l.length ≤ 1 →
      (l.head?.map Prod.snd).toList = l.map Prod.snd := by
    intro l hl
    match l, hl with
    | [], _ => rfl
    | [x], _ => rfl
  have hcs : buildCrossmaps bs false A.cross B.cross e.perm.map =
      .ok ((pairAt bs A B e.perm.map .pos ++ pairAt bs A B e.perm.map .neg).map (fun c => some c.1)) := by
    unfold buildCrossmaps
    rw [if_neg (fun hh => h0 hh.1), p1, ok_bind, n1, ok_bind]
    clear p1 p2 n1 n2
    revert p3 n3
    generalize pairAt bs A B e.perm.map .pos = P
    generalize pairAt bs A B e.perm.map .neg = N
    intro p3 n3
    match P, p3, N, n3 with
    | [], _, [], _ => rfl
    | [], _, [x], _ => rfl
    | [x], _, [], _ => rfl
    | [x], _, [y], _ => rfl
  have hfs : buildFacemaps bs A B e =
      .ok ((pairAt bs A B e.perm.map .pos ++ pairAt bs A B e.perm.map .neg).map Prod.snd) := by
    unfold buildFacemaps
    rw [if_neg (fun hh => h0 hh.1), p2, ok_bind, n2, ok_bind, hl _ p3, hl _ n3, List.map_append]
  unfold mapIsoEdgemapBody
  rw [hcs, ok_bind, hfs, ok_bind, assertC_ok (by simp), ok_bind]
  have hz : ∀ l : List (OMap × OMap), (l.map (fun c => some c.1)).zip (l.map Prod.snd) = l.map (fun c => (some c.1, c.2)) := by
    intro l
    induction l with
    | nil => rfl
    | cons a l ih => simp [ih]
  rw [hz, collect_ok (stop := false) (g := fun cf : Option OMap × OMap => [⟨p, e, cf.1, cf.2⟩].filter direct) _ acc (by simp)]
  · rw [cut, if_neg (by simp), isosOf, List.flatMap_map, ← List.filter_flatMap]
    congr 3
    exact List.map_eq_flatMap.symm
  · intro cf hcf acc _
    obtain ⟨c, hc, rfl⟩ := List.mem_map.mp hcf
    unfold addMapIso theCmap
    dsimp only
    rw [ok_bind]
    by_cases ho : c.1.orient = .pos
    · rw [if_pos ho, addIso_ok qs bs h hp he hc acc]
      simp [direct, ho, cut]
    · rw [if_neg ho]
      simp [direct, ho, cut]

theorem mapIsoBody_ok (qs : QSort) (bs : BSearch) (h : Ready2 A B mvA mvB) {p : Perm} (hp : CompPerm A B p)
    (acc : List Iso) :
    mapIsoBody qs bs (Io.capsNew mvA) (Io.capsNew mvB) A B p acc =
      .ok (acc ++ ((emsOf bs A B p).flatMap (isosOf bs A B p)).filter direct) := by
  obtain ⟨e1, e2, e3, e4, -⟩ := emsOf_ok bs h hp
  have hs := h.tidyA.small
  unfold mapIsoBody
  rw [e1, ok_bind, edgemapsOk_true qs (n := A.edge.length) (by omega) e2 e3 e4, ok_bind, assertC_ok rfl, ok_bind,
    List.filter_flatMap]
  have := collect_ok (stop := false) (body := mapIsoEdgemapBody qs bs (Io.capsNew mvA) (Io.capsNew mvB) A B p)
    (g := fun e => (isosOf bs A B p e).filter direct) (emsOf bs A B p) acc (by simp)
    (fun e he acc _ => mapIsoEdgemapBody_ok qs bs h hp he acc)
  exact this

theorem mapCollect_all (qs : QSort) (bs : BSearch) (h : Ready2 A B mvA mvB) {ps : List Perm}
    (hp : ∀ p ∈ ps, CompPerm A B p) :
    collect false (mapIsoBody qs bs (Io.capsNew mvA) (Io.capsNew mvB) A B) ps [] =
      .ok ((fullList bs A B ps).filter direct) := by
  have := collect_ok (stop := false) (body := mapIsoBody qs bs (Io.capsNew mvA) (Io.capsNew mvB) A B)
    (g := fun p => ((emsOf bs A B p).flatMap (isosOf bs A B p)).filter direct) ps [] (fun _ => rfl)
    (fun p hpm acc _ => mapIsoBody_ok qs bs h (hp p hpm) acc)
  rw [List.nil_append, cut, if_neg (by simp), ← List.filter_flatMap] at this
  exact this

end

/-- The map isomorphisms are the isomorphisms that are not reflections. -/
theorem mapIsomorphisms_ok (qs qA qB : QSort) (bs : BSearch) (mvA mvB : Nat) {A B : Io.Pd}
    (hA : Tidy A.cross A.edge A.comp A.face) (hB : Tidy B.cross B.edge B.comp B.face)
    (hmA : A.cross.length ≤ mvA) (hmB : B.cross.length ≤ mvB)
    (hhA : HashGen.regenHash qA A.cross.length A.edge.length A.face A.comp = .ok A.hash)
    (hhB : HashGen.regenHash qB B.cross.length B.edge.length B.face B.comp = .ok B.hash)
    (h12 : A.comp.length ≤ 12) (hprod : (A.comp.map (fun k => 2 * k.edge.length)).prod < 2 ^ 32) :
    ∃ L, mapIsomorphisms qs bs (Io.capsNew mvA) (Io.capsNew mvB) A B = .ok L ∧
      (L.map isoData).Nodup ∧ (∀ i ∈ L, i.cmap ≠ none ∧ isoOk i = .ok true) ∧
      ∀ κ τ os oc σ of φ, (κ, (τ, os), (oc, σ), (of, φ)) ∈ L.map isoData ↔
        oc = .pos ∧ of = .pos ∧ IsoMaps A B κ τ os σ .pos φ .pos := by
  have hCA := hA.plane.consistent
  by_cases hall : A.hash = B.hash ∧ A.cross.length = B.cross.length ∧
      A.edge.length = B.edge.length ∧ A.comp.length = B.comp.length ∧ A.face.length = B.face.length ∧
      compSizes A.comp = compSizes B.comp ∧ A.face.map (fun f => f.edge.length) = B.face.map (fun f => f.edge.length)
  · obtain ⟨a1, a2, a3, a4, a5, a6, a7⟩ := hall
    have hR : Ready2 A B mvA mvB := ⟨hA, hB, hmA, hmB, a2.symm, a6, hprod⟩
    have hK0 : A.comp ≠ [] := by
      intro hk
      have := hA.goodComps.all
      rw [hk] at this
      have h0 : A.edge.length = 0 := by simpa using (congrArg List.length this).symm
      rw [hCA.count] at h0
      exact hA.plane.nonempty (List.length_eq_zero_iff.mp (by omega))
    obtain ⟨G, ps, ps', g1, g2, g3, g4, g5, g6⟩ := compperms_ok qs bs hK0 a6 hA.goodComps.longest h12
    have hp : ∀ p ∈ ps', CompPerm A B p := by
      intro p hpm
      exact ⟨(g5 p hpm).1, (g5 p hpm).2, ((g6 p.map).mp (List.mem_map.mpr ⟨p, hpm, rfl⟩)).2⟩
    have hnd := full_nodup bs hR hp g4
    have hsh := full_shape bs hR hp
    have hnd' : (((fullList bs A B ps').filter direct).map isoData).Nodup :=
      hnd.sublist (List.filter_sublist.map _)
    have mem : ∀ i ∈ fullList bs A B ps', ∃ cm, i.cmap = some cm ∧ isoOk i = .ok true := by
      intro i hi
      obtain ⟨p, hpm, e, he, hi⟩ := (mem_full bs).mp hi
      obtain ⟨cm, o, c1, c2, c3, c4, c5, c6, c7, c8⟩ := iso_members bs hR (hp p hpm) he hi
      exact ⟨cm, c1, c7⟩
    have spec := fun κ τ os oc σ of φ => full_spec bs hR hp (fun q h1 h2 => by
      obtain ⟨p, hpm, hpq⟩ := List.mem_map.mp ((g6 q).mpr ⟨h1, h2⟩)
      exact ⟨p, hpm, hpq⟩) κ τ os oc σ of φ
    refine ⟨((fullList bs A B ps').filter direct).reverse, ?_, ?_, ?_, ?_⟩
    · unfold mapIsomorphisms
      rw [if_neg (not_not.mpr a1), if_neg (not_not.mpr a2), if_neg (not_not.mpr a3), if_neg (not_not.mpr a4),
        if_neg (not_not.mpr a5), if_neg (not_not.mpr a6), if_neg (not_not.mpr a7), g1, ok_bind]
      dsimp only
      rw [g2, ok_bind, g3, ok_bind]
      dsimp only
      rw [assertC_ok rfl, ok_bind, mapCollect_all qs bs hR hp, ok_bind]
      exact handOver_ok qs _ _ _ _ (fun i hi => hsh i (List.mem_of_mem_filter hi)) hnd'
    · rw [List.map_reverse, List.nodup_reverse]
      exact hnd'
    · intro i hi
      obtain ⟨cm, c1, c2⟩ := mem i (List.mem_of_mem_filter (List.mem_reverse.mp hi))
      exact ⟨by rw [c1]; simp, c2⟩
    · intro κ τ os oc σ of φ
      have key : (κ, (τ, os), (oc, σ), (of, φ)) ∈ (((fullList bs A B ps').filter direct).reverse).map isoData ↔
          oc = .pos ∧ (κ, (τ, os), (oc, σ), (of, φ)) ∈ (fullList bs A B ps').map isoData := by
        rw [List.map_reverse, List.mem_reverse]
        constructor
        · intro hm
          obtain ⟨i, hi, hd⟩ := List.mem_map.mp hm
          obtain ⟨i1, i2⟩ := List.mem_filter.mp hi
          obtain ⟨cm, c1, -⟩ := mem i i1
          refine ⟨?_, List.mem_map.mpr ⟨i, i1, hd⟩⟩
          simp only [isoData, c1, Prod.mk.injEq] at hd
          simp only [direct, c1, Option.map_some, decide_eq_true_eq, Option.some.injEq] at i2
          rw [← hd.2.2.1.1, i2]
        · rintro ⟨rfl, hm⟩
          obtain ⟨i, i1, hd⟩ := List.mem_map.mp hm
          obtain ⟨cm, c1, -⟩ := mem i i1
          refine List.mem_map.mpr ⟨i, List.mem_filter.mpr ⟨i1, ?_⟩, hd⟩
          simp only [isoData, c1, Prod.mk.injEq] at hd
          simp [direct, c1, hd.2.2.1.1]
      rw [key, spec]
      constructor
      · rintro ⟨rfl, rfl, -, h⟩
        exact ⟨rfl, rfl, h⟩
      · rintro ⟨rfl, rfl, h⟩
        exact ⟨rfl, rfl, by simp, h⟩
  · refine ⟨[], ?_, by simp, by simp, ?_⟩
    · unfold mapIsomorphisms
      split_ifs with b1 b2 b3 b4 b5 b6 b7 <;> try rfl
      exact absurd ⟨not_not.mp b1, not_not.mp b2, not_not.mp b3, not_not.mp b4, not_not.mp b5, not_not.mp b6, not_not.mp b7⟩ hall
    · intro κ τ os oc σ of φ
      simp only [List.map_nil, List.not_mem_nil, false_iff]
      rintro ⟨-, -, h⟩
      exact hall (h.agree qA qB hA hB hhA hhB)

end Plc.Isotopy
