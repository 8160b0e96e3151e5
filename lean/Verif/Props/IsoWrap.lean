import Verif.Props.IsoSearch

/-! # C52: the number of edge maps is computed in 32 bits -/

namespace Plc

open Plc.Cmp Plc.PermM Plc.Emap Plc.Isos Plc.Ok Plc.IsoSearch Plc.Regenerate Plc.Multidx Plc.Planar Plc.Faces Plc.Core

theorem IsoSearch.mapM_pure_map {α β : Type} (f : α → β) : ∀ l : List α, l.mapM (fun a => (.ok (f a) : Res β)) = .ok (l.map f)
  | [] => rfl
  | a :: l => by rw [List.mapM_cons, mapM_pure_map f l]; rfl

/-- When the number of edge maps is a multiple of `2^32`, it is taken to be 0: the list of edge maps is
empty, and the check of it runs off the start of the array. Not even comparing a diagram with itself is safe. -/
theorem C52_product_wraps (qs : QSort) (bs : BSearch) (stop : Bool) (caps : Io.Caps) (A : Io.Pd)
    (hA : Tidy A.cross A.edge A.comp A.face) (h12 : A.comp.length ≤ 12)
    (hprod : 2 ^ 32 ∣ (A.comp.map (fun k => 2 * k.edge.length)).prod) :
    buildIsos qs bs stop caps caps A A = .error .ub := by
  have hCA := hA.plane.consistent
  have hK0 : A.comp ≠ [] := by
    intro hk
    have := hA.goodComps.all
    rw [hk] at this
    have h0 : A.edge.length = 0 := by simpa using (congrArg List.length this).symm
    rw [hCA.count] at h0
    exact hA.plane.nonempty (List.length_eq_zero_iff.mp (by omega))
  obtain ⟨G, ps, ps', g1, g2, g3, g4, g5, g6⟩ := compperms_ok qs bs hK0 rfl hA.goodComps.longest h12
  have hid := (g6 (List.range A.comp.length)).mpr ⟨List.Perm.refl _, fun c k hk => by
    have hc := (List.getElem?_eq_some_iff.mp hk).1
    exact ⟨c, k, List.getElem?_range hc, hk, rfl⟩⟩
  obtain ⟨p, hp, hpr⟩ := List.mem_map.mp hid
  obtain ⟨p0, ps0, rfl⟩ := List.exists_cons_of_ne_nil (List.ne_nil_of_mem hp)
  have hlen := (g5 p0 List.mem_cons_self).2.length_eq
  rw [List.length_range] at hlen
  have hbody : comppermBody qs bs stop caps caps A A p0 [] = .error .ub := by
    have hE : buildEdgemaps bs A A p0.map = .ok [] := by
      unfold buildEdgemaps newMultidx dihedralOps
      rw [assertC_ok (by simp [hlen]), ok_bind, assertC_ok (by simp), ok_bind]
      dsimp only
      rw [mapM_pure_map, ok_bind, ok_bind]
      have : multidxNvals (σ := Iters.Dihedral) ⟨A.comp.map (fun k => Iters.newDihedral k.edge.length),
          List.replicate (A.comp.map (fun k => Iters.newDihedral k.edge.length)).length 0,
          (A.comp.map (fun k => Iters.newDihedral k.edge.length)).map Iters.ndihedrals⟩ = 0 := by
        unfold multidxNvals
        dsimp only
        have h := nvalsFrom_eq ((A.comp.map (fun k => Iters.newDihedral k.edge.length)).map Iters.ndihedrals) 1
        rw [show 1 % 2 ^ 32 = 1 by rfl] at h
        rw [h, List.map_map, Nat.one_mul]
        have : A.comp.map (Iters.ndihedrals ∘ fun k => Iters.newDihedral k.edge.length) =
            A.comp.map (fun k => 2 * k.edge.length) := by
          refine List.map_congr_left ?_
          intro k _
          simp [Iters.ndihedrals, Iters.newDihedral]
        rw [this]
        exact Nat.mod_eq_zero_of_dvd hprod
      rw [this]
      rfl
    unfold comppermBody
    rw [hE, ok_bind]
    have : edgemapsOk qs [] = .error .ub := by
      unfold edgemapsOk sortR
      rw [allOk, ok_bind, if_pos rfl]
      have : qs.sort (leOf emapCmp) [] = [] := List.length_eq_zero_iff.mp (by rw [(qs.perm _ _).length_eq]; rfl)
      rw [pairsOk, if_pos rfl, ok_bind, this]
      rfl
    rw [this]
    rfl
  unfold buildIsos
  rw [if_neg (not_not.mpr rfl), if_neg (not_not.mpr rfl), if_neg (not_not.mpr rfl), if_neg (not_not.mpr rfl),
    if_neg (not_not.mpr rfl), if_neg (not_not.mpr rfl), if_neg (not_not.mpr rfl), g1, ok_bind]
  dsimp only
  rw [g2, ok_bind, g3, ok_bind]
  dsimp only
  rw [assertC_ok rfl, ok_bind, collect, if_neg (by simp), hbody]
  rfl

/-! A chain of twelve rings, as `pd_build_simple_chain` and `pd_regenerate` make it, but for the signs. -/

def chain12Cross : List Cross := [⟨0, 40, 3, 41, .neg⟩, ⟨0, 41, 1, 40, .neg⟩, ⟨1, 8, 2, 9, .neg⟩, ⟨2, 8, 3,
  11, .neg⟩, ⟨4, 42, 5, 43, .neg⟩, ⟨4, 43, 7, 42, .neg⟩, ⟨5, 37, 6, 38, .neg⟩, ⟨6, 39, 7, 38, .neg⟩, ⟨9, 12,
  10, 13, .neg⟩, ⟨10, 12, 11, 15, .neg⟩, ⟨13, 16, 14, 17, .neg⟩, ⟨14, 16, 15, 19, .neg⟩, ⟨17, 20, 18, 21,
  .neg⟩, ⟨18, 20, 19, 23, .neg⟩, ⟨21, 24, 22, 25, .neg⟩, ⟨22, 24, 23, 27, .neg⟩, ⟨25, 28, 26, 29, .neg⟩, ⟨26,
  28, 27, 31, .neg⟩, ⟨29, 32, 30, 33, .neg⟩, ⟨30, 32, 31, 35, .neg⟩, ⟨33, 36, 34, 37, .neg⟩, ⟨34, 36, 35, 39,
  .neg⟩]

def chain12Edge : List Edge := [⟨1, 0, 0, 0⟩, ⟨2, 0, 1, 2⟩, ⟨3, 0, 2, 2⟩, ⟨0, 2, 3, 2⟩, ⟨4, 0, 5, 0⟩, ⟨6, 0,
  4, 2⟩, ⟨7, 0, 6, 2⟩, ⟨5, 2, 7, 2⟩, ⟨2, 1, 3, 1⟩, ⟨8, 0, 2, 3⟩, ⟨9, 0, 8, 2⟩, ⟨3, 3, 9, 2⟩, ⟨8, 1, 9, 1⟩,
  ⟨10, 0, 8, 3⟩, ⟨11, 0, 10, 2⟩, ⟨9, 3, 11, 2⟩, ⟨10, 1, 11, 1⟩, ⟨12, 0, 10, 3⟩, ⟨13, 0, 12, 2⟩, ⟨11, 3, 13,
  2⟩, ⟨12, 1, 13, 1⟩, ⟨14, 0, 12, 3⟩, ⟨15, 0, 14, 2⟩, ⟨13, 3, 15, 2⟩, ⟨14, 1, 15, 1⟩, ⟨16, 0, 14, 3⟩, ⟨17, 0,
  16, 2⟩, ⟨15, 3, 17, 2⟩, ⟨16, 1, 17, 1⟩, ⟨18, 0, 16, 3⟩, ⟨19, 0, 18, 2⟩, ⟨17, 3, 19, 2⟩, ⟨18, 1, 19, 1⟩, ⟨20,
  0, 18, 3⟩, ⟨21, 0, 20, 2⟩, ⟨19, 3, 21, 2⟩, ⟨20, 1, 21, 1⟩, ⟨6, 1, 20, 3⟩, ⟨7, 3, 6, 3⟩, ⟨21, 3, 7, 1⟩, ⟨1,
  3, 0, 1⟩, ⟨0, 3, 1, 1⟩, ⟨4, 1, 5, 3⟩, ⟨5, 1, 4, 3⟩]

def chain12Sides : List (Nat × Or) := [(0, .pos), (0, .neg), (1, .pos), (1, .neg), (2, .pos), (2, .neg), (4,
  .pos), (4, .neg), (5, .pos), (6, .pos), (6, .neg), (10, .pos), (10, .neg), (14, .pos), (14, .neg), (18,
  .pos), (18, .neg), (22, .pos), (22, .neg), (26, .pos), (26, .neg), (30, .pos), (30, .neg), (34, .neg)]

theorem chain12_plane : PlaneDiagram chain12Cross chain12Edge where
  consistent := by decide +kernel
  oriented := by decide +kernel
  nonempty := by decide
  connected := connected_by (fun c => if c = 4 ∨ c = 5 then 50 + c else if c = 6 ∨ c = 7 then 30 + c else c) (by decide +kernel)
  plane := planeFaces_of (by decide +kernel) 44 (by decide) (by decide +kernel) chain12Sides (by decide) (by decide +kernel)
    (by decide +kernel) (by decide +kernel) (by decide +kernel)

theorem chain12_regenerate : (regenerate insQSort (Io.capsNew 22).edges (Io.capsNew 22).comps (Io.capsNew 22).faces chain12Cross
    chain12Edge).map (fun x => (x.2.2.1.map (fun k => 2 * k.edge.length))) = .ok [8, 8, 8, 8, 8, 8, 8, 8, 8, 8, 4, 4] := by
  decide +kernel

/-- The chain of twelve rings, with 22 crossings, is such a diagram. -/
theorem C52_chain_wraps : ∃ A : Io.Pd, Tidy A.cross A.edge A.comp A.face ∧ A.comp.length = 12 ∧ A.cross.length = 22 ∧
    ∀ (qs : QSort) (bs : BSearch) (caps : Io.Caps), isomorphic qs bs caps caps A A = .error .ub := by
  obtain ⟨cross', edge', comps, faces, h1, h2, -⟩ :=
    C51_regenerated_ok insQSort insQSort 22 chain12Cross chain12Edge chain12Edge chain12_plane
      (Or.inl ⟨rfl, _, List.mem_cons_self, by decide⟩) (by decide) (by decide)
  have h3 := chain12_regenerate
  rw [h1] at h3
  replace h3 : comps.map (fun k => 2 * k.edge.length) = [8, 8, 8, 8, 8, 8, 8, 8, 8, 8, 4, 4] := Except.ok.inj h3
  have hc : comps.length = 12 := by simpa using congrArg List.length h3
  have hsum : edge'.length = 44 := by
    have e1 := congrArg List.length h2.goodComps.all
    rw [List.length_range, List.length_flatMap] at e1
    have e2 := congrArg List.sum h3
    rw [show (fun k : Comp => 2 * k.edge.length) = (fun k => 2 * (fun k : Comp => k.edge.length) k) from rfl,
      List.sum_map_mul_left] at e2
    have e3 : ([8, 8, 8, 8, 8, 8, 8, 8, 8, 8, 4, 4] : List Nat).sum = 88 := by decide
    omega
  have hx := h2.plane.consistent.count
  refine ⟨⟨[], 0, cross', edge', comps, faces⟩, h2, hc, ?_, ?_⟩
  · dsimp only
    omega
  · intro qs bs caps
    unfold isomorphic
    rw [C52_product_wraps qs bs true caps _ h2 (by dsimp only; omega) (by dsimp only; rw [h3]; decide)]
    rfl

end Plc
