import Verif.Proofs.HashInv
import Verif.Proofs.ShapeEq
import Verif.Proofs.Std
import Batteries.Lean.Except
import Verif.Proofs.PlaneCheck

/-! # C50: the hash of a diagram depends on its shadow only

`pd_regenerate_hash` gives the same string for two diagrams with the same shadow, however their crossings,
edges, faces and components are numbered, which way components run, and whether one is seen from the
other side of the plane. So pd codes with different hashes are not isomorphic, which `pd_isomorphic` and
the pd storage rely on. -/

namespace Plc

open Plc.Cmp Plc.HashGen Plc.Regenerate

/-- **C50.** On correct face records the hash is computed without a failure and has 31 printable characters. -/
theorem C50_hash_computed (qs : QSort) (cross : List Cross) (edge : List Edge) (faces : List Face) (comps : List Comp)
    (hF : GoodFaces cross edge faces) :
    ∃ s, regenHash qs cross.length edge.length faces comps = .ok s ∧ s.length = 31 ∧
      ∀ ch ∈ s, ch.isAlphanum = true ∨ ch = '+' ∨ ch = '/' :=
  regenHash_ok qs _ (twice_of hF) (by
    intro h
    have := hF.count
    rw [h] at this
    simp at this) comps

/-- **C50.** Two diagrams with the same shadow, or mirrored ones, have the same hash. -/
theorem C50_hash_invariant (qs qs' : QSort) (A B : List Cross) (edge edge' : List Edge) (F G : List Face)
    (K L : List Comp) (hA : Consistent A edge) (hB : Consistent B edge') (hOA : Oriented A edge)
    (hOB : Oriented B edge') (hF : GoodFaces A edge F) (hG : GoodFaces B edge' G) (hK : GoodComps A edge K)
    (hL : GoodComps B edge' L) (τ σ : Nat → Nat) (o : Or) (h : SameShadow A B edge.length τ σ o) :
    ∃ s, regenHash qs A.length edge.length F K = .ok s ∧ regenHash qs' B.length edge'.length G L = .ok s := by
  obtain ⟨π, hπ⟩ := Shape.place_of_shadow h
  obtain ⟨φ, hφ⟩ := Shape.faces_of_place hA hB hF hG h.len h.tlt h.tinj hπ
  obtain ⟨hl, κ, dir, k1, k2, -, k4⟩ := Shape.comps_of_place hA hB hOA hOB hK hL h.len h.tinj hπ
  have hel : edge'.length = edge.length := by rw [hA.count, hB.count, h.len]
  have hks : K.map (·.edge.length) = L.map (·.edge.length) := by
    refine sorted_reindex (κ := κ) (by simp [hl]) (by simpa using k1) (by simpa using k2) ?_
      (List.pairwise_map.mpr hK.longest) (List.pairwise_map.mpr hL.longest)
    intro i x hx
    rw [List.getElem?_map, Option.map_eq_some_iff] at hx
    obtain ⟨k, hk, rfl⟩ := hx
    obtain ⟨k', h1, h2, -⟩ := k4 i k hk
    rw [List.getElem?_map, h1]
    have := (carried_perm h2).length_eq
    simpa using this
  obtain ⟨s, hs, -⟩ := C50_hash_computed qs A edge F K hF
  refine ⟨s, hs, ?_⟩
  have h0 : F ≠ [] := by
    intro h
    have := hF.count
    rw [h] at this
    simp at this
  have hG' := twice_of hG
  rw [hel] at hG'
  rw [← hs, h.len, hel]
  exact (regenHash_same qs qs' _ (twice_of hF) hG' h0 hφ hF.longest hG.longest hks).symm

/-- What a caller may hand to `pd_regenerate`: crossings of a connected plane diagram with some sign and
its edge records, or with edge records that will be rebuilt. -/
def Ready (cross : List Cross) (edge0 edge : List Edge) : Prop :=
  (edge = edge0 ∧ ∃ x ∈ cross, x.sign ≠ .unset) ∨
    ((∀ r ∈ edge, r.head < cross.length ∧ r.tail < cross.length) ∧
      ((∀ x ∈ cross, x.sign = .unset) ∨ edge.length ≠ 2 * cross.length ∨
        ∃ e r, edge[e]? = some r ∧ ((r.headpos < 4 ∧ slot cross r.head r.headpos ≠ some e) ∨
          (r.tailpos < 4 ∧ slot cross r.tail r.tailpos ≠ some e))))

theorem HashGen.regenerate_shadow (qs : QSort) (mv : Nat) (cross : List Cross) (edge0 edge : List Edge)
    (h : PlaneDiagram cross edge0) (hr : Ready cross edge0 edge) (hmv : cross.length ≤ mv)
    (hsmall : 2 * edge0.length < 2 ^ 31) :
    ∃ cross' edge' comps faces τ σ,
      regenerate qs (Io.capsNew mv).edges (Io.capsNew mv).comps (Io.capsNew mv).faces cross edge =
        .ok (cross', edge', comps, faces) ∧
      SameShadow cross cross' edge0.length τ σ .pos ∧ edge'.length = edge0.length ∧ PlaneDiagram cross' edge' ∧
      GoodComps cross' edge' comps ∧ GoodFaces cross' edge' faces := by
  rcases hr with ⟨rfl, hs⟩ | ⟨h1, h2⟩
  · obtain ⟨cross', edge', comps, faces, τ, σ, ρ, a1, a2, -, -, a5, a6⟩ := C49_regenerate_keeps qs mv cross edge h hs hmv hsmall
    exact ⟨cross', edge', comps, faces, τ, σ, a1, a2.shadow, a2.elen, h.renamed a2 Regenerate.along_false, a5, a6⟩
  · obtain ⟨cross', edge', comps, faces, τ, σ, ρ, rev, a1, a2, -, a3, -, -, a5, a6⟩ :=
      C49_regenerate_rebuilds qs mv cross edge0 edge h h1 h2 hmv hsmall
    exact ⟨cross', edge', comps, faces, τ, σ, a1, a2.shadow, a2.elen, a3, a5, a6⟩

/-- **C50.** Two connected plane diagrams with the same shadow that go through `pd_regenerate` come out
with the same hash, even if the two runs sort equal records differently. -/
theorem C50_regenerated_hash (qs qs' : QSort) (mv mv' : Nat) (A B : List Cross) (eA eA' eB eB' : List Edge)
    (hA : PlaneDiagram A eA) (hB : PlaneDiagram B eB) (hrA : Ready A eA eA') (hrB : Ready B eB eB')
    (hmA : A.length ≤ mv) (hmB : B.length ≤ mv') (hsmall : 2 * eA.length < 2 ^ 31) (τ σ : Nat → Nat) (o : Or)
    (h : SameShadow A B eA.length τ σ o) :
    ∃ A1 e1 K1 F1 B1 e2 K2 F2 s,
      regenerate qs (Io.capsNew mv).edges (Io.capsNew mv).comps (Io.capsNew mv).faces A eA' = .ok (A1, e1, K1, F1) ∧
      regenerate qs' (Io.capsNew mv').edges (Io.capsNew mv').comps (Io.capsNew mv').faces B eB' = .ok (B1, e2, K2, F2) ∧
      regenHash qs A1.length e1.length F1 K1 = .ok s ∧ regenHash qs' B1.length e2.length F2 K2 = .ok s := by
  have hl : eB.length = eA.length := by rw [hA.consistent.count, hB.consistent.count, h.len]
  obtain ⟨A1, e1, K1, F1, τ1, σ1, a1, a2, a3, a4, a5, a6⟩ := regenerate_shadow qs mv A eA eA' hA hrA hmA hsmall
  obtain ⟨B1, e2, K2, F2, τ2, σ2, b1, b2, b3, b4, b5, b6⟩ := regenerate_shadow qs' mv' B eB eB' hB hrB hmB
    (by rw [hl]; exact hsmall)
  obtain ⟨τ', σ', c1, -, -⟩ := a2.symm (slots_lt hA.consistent)
  rw [hl] at b2
  have hs := (c1.trans h).trans b2
  rw [← a3] at hs
  obtain ⟨s, s1, s2⟩ := C50_hash_invariant qs qs' A1 B1 e1 e2 F1 F2 K1 K2 a4.consistent b4.consistent a4.oriented
    b4.oriented a6 b6 a5 b5 _ _ _ hs
  exact ⟨A1, e1, K1, F1, B1, e2, K2, F2, s, a1, b1, s1, s2⟩

/-- **C50**, what the hash does not tell: it is cut to 24 bytes and each entry to one byte, so a diagram
with 256 more crossings may get the same string. Shown on the first byte. -/
theorem C50_count_mod_256 (qs : QSort) (nc m : Nat) (F : List Face) (K : List Comp) :
    regenHash qs (nc + 256) m F K = regenHash qs nc m F K := by
  unfold regenHash
  rw [Nat.add_mod_right]

/-- **C50**, runs of zeros: the number kept for a run of zeros is overwritten by the entry after it, so
leading zeros are lost. -/
theorem C50_zero_runs_lost : ∃ a b : List Nat, a ≠ b ∧ a.length = 21 ∧ b.length = 21 ∧
    compress a 0 false (List.replicate 21 0) = compress b 0 false (List.replicate 21 0) ∧
    ∃ c, compress a 0 false (List.replicate 21 0) = .ok c :=
  ⟨[0, 2, 3] ++ List.replicate 18 0, [2, 0, 3] ++ List.replicate 18 0, by decide, by decide, by decide, by
    decide +kernel, [2, 3, 237] ++ List.replicate 18 0, by decide +kernel⟩

/-- **C50** fails on bad records: with no faces, or with a face without edges, memory outside the buffers
is read, and an edge on three faces ends the program. -/
theorem C50_bad_faces : regenHash insQSort 0 0 [] [] = .error .ub ∧
    regenHash insQSort 1 1 [⟨[0], [.pos]⟩, ⟨[0], [.neg]⟩, ⟨[], []⟩] [] = .error .ub ∧
    regenHash insQSort 1 1 [⟨[0], [.pos]⟩, ⟨[0], [.neg]⟩, ⟨[0], [.neg]⟩] [] = .error .die := by
  decide +kernel

/-! ### Examples -/

theorem hopf3_plane : PlaneDiagram hopf3 hopf3Edge :=
  ⟨by decide, by decide, by decide, connected_of (by decide),
    planeFaces_of (by decide) 2 (by decide) (by decide) [(0, .pos), (0, .neg), (1, .pos), (1, .neg)] rfl (by decide)
      (by decide) (by decide) (by decide)⟩

def hopfTau (e : Nat) : Nat := ([0, 2, 1, 3] : List Nat)[e]?.getD 0

/-- The Hopf link under other names, seen in a mirror. -/
theorem hopf_mirror_shadow : SameShadow hopf2 hopf3 hopf2Edge.length hopfTau (fun c => 1 - c) .neg where
  len := rfl
  tlt := by decide
  tinj := by
    have : ∀ e, e < hopf2Edge.length → ∀ f, f < hopf2Edge.length → hopfTau e = hopfTau f → e = f := by decide
    exact fun e f he hf => this e he f hf
  slt := by decide
  sinj := by
    have : ∀ c, c < hopf2.length → ∀ d, d < hopf2.length → 1 - c = 1 - d → c = d := by decide
    exact fun c d hc hd => this c hc d hd
  carried := by
    intro c x hx
    match c, hx with
    | 0, hx => cases hx; exact ⟨⟨0, 3, 1, 2, .pos⟩, rfl, by decide⟩
    | 1, hx => cases hx; exact ⟨⟨0, 2, 1, 3, .pos⟩, rfl, by decide⟩

/-- C50 applies: one copy keeps its signs, the other has no edge records. -/
example : ∃ A1 e1 K1 F1 B1 e2 K2 F2 s,
    regenerate insQSort (Io.capsNew 2).edges (Io.capsNew 2).comps (Io.capsNew 2).faces hopf2 hopf2Edge = .ok (A1, e1, K1, F1) ∧
    regenerate insQSort (Io.capsNew 4).edges (Io.capsNew 4).comps (Io.capsNew 4).faces hopf3 [] = .ok (B1, e2, K2, F2) ∧
    regenHash insQSort A1.length e1.length F1 K1 = .ok s ∧ regenHash insQSort B1.length e2.length F2 K2 = .ok s :=
  C50_regenerated_hash insQSort insQSort 2 4 hopf2 hopf3 hopf2Edge hopf2Edge hopf3Edge [] hopf2_plane hopf3_plane
    (Or.inl ⟨rfl, ⟨0, 1, 2, 3, .pos⟩, by decide, by decide⟩) (Or.inr ⟨by simp, Or.inr (Or.inl (by decide))⟩)
    (by decide) (by decide) (by decide) hopfTau _ .neg hopf_mirror_shadow

/-- The hash of the Hopf link. -/
example : (regenHash insQSort 2 4 [⟨[0, 2], [.neg, .pos]⟩, ⟨[0, 3], [.pos, .pos]⟩, ⟨[1, 2], [.neg, .neg]⟩,
    ⟨[1, 3], [.pos, .neg]⟩] [⟨[0, 1], 65⟩, ⟨[2, 3], 66⟩]).map String.ofList = .ok "AgQEAgICAgICAgDqAAAAAAAAAAAAAAA" := by
  decide +kernel

/-- The third diagram of `data/pdstors/6.pdstor` with the hash stored there. -/
example : (regenHash insQSort 6 12 [⟨[0, 9, 4, 11], []⟩, ⟨[1, 6, 3, 9], []⟩, ⟨[2, 7, 11, 5], []⟩, ⟨[1, 8, 7], []⟩,
    ⟨[3, 5, 10], []⟩, ⟨[0, 8], []⟩, ⟨[2, 6], []⟩, ⟨[4, 10], []⟩]
    [⟨[0, 1, 2, 3, 4, 5, 6, 7], 65⟩, ⟨[8, 9, 10, 11], 66⟩]).map String.ofList =
    .ok "BgwIBAQEAwMCAgICCAQAAgQE9AAAAAA" := by
  decide +kernel

/-- The shadows of the trefoil and of the Hopf link have different hashes. -/
example : regenHash insQSort 3 6 [⟨[0, 2, 4], []⟩, ⟨[1, 3, 5], []⟩, ⟨[0, 3], []⟩, ⟨[1, 4], []⟩, ⟨[2, 5], []⟩]
    [⟨[0, 1, 2, 3, 4, 5], 65⟩] ≠ regenHash insQSort 2 4 [⟨[0, 2], []⟩, ⟨[0, 3], []⟩, ⟨[1, 2], []⟩, ⟨[1, 3], []⟩]
    [⟨[0, 1], 65⟩, ⟨[2, 3], 66⟩] := by
  decide +kernel

end Plc
