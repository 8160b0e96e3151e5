import Verif.Proofs.BigonSmall
import Verif.Props.Triangle

/-! # C70: pulling two strands off each other -/

namespace Plc

open Plc.Core Plc.Cmp Plc.Places Plc.Faces Plc.Buffers Plc.Moves Plc.Comps Plc.Planar Plc.BigonDel Plc.Isotopy Plc.Ok List

theorem BigonDel.found {cross : List Cross} {edge : List Edge} (h : PlaneDiagram cross edge) {c d : Nat} (hc : c < cross.length)
    (hd : d < cross.length) (hcd : c ≠ d) :
    (findSite cross edge c d = .error .die ∧ ¬ ∃ s, Strands2 cross edge c d s) ∨
      ∃ s, findSite cross edge c d = .ok s ∧ Strands2 cross edge c d s := by
  have e1 := List.getElem?_eq_getElem hc
  have e2 := List.getElem?_eq_getElem hd
  rcases findSite_ok h hc hd hcd with ⟨q, hn⟩ | ⟨s, q, s1, s2, s3⟩
  · refine .inl ⟨q, ?_⟩
    rintro ⟨s, s1, s2, s3⟩
    refine hn ⟨s, s1, s2, fun hu => s3 _ _ e1 e2 ?_⟩
    by_contra hx
    exact hu ⟨not_not.mp (fun q => hx (.inl q)), not_not.mp (fun q => hx (.inr q))⟩
  · refine .inr ⟨s, q, s1, s2, fun x y hx hy hu => s3 ?_⟩
    rw [e1] at hx
    rw [e2] at hy
    cases hx
    cases hy
    rintro ⟨u1, u2⟩
    rcases hu with hu | hu
    · exact hu u1
    · exact hu u2

/-- Crossings without such strands stop the program. -/
theorem C70_refused (qs : QSort) (caps : Io.Caps) (pd : Io.Pd) (hN : Neat pd) (hok : pdOk qs caps pd = .ok true) (c d : Nat)
    (hc : c < pd.cross.length) (hd : d < pd.cross.length) (hcd : c ≠ d) (hno : ¬ ∃ s, Strands2 pd.cross pd.edge c d s) :
    bigonElimination qs caps pd c d = .error .die := by
  unfold bigonElimination
  rw [hok, ok_bind]
  simp only [assertC, decide_eq_true hc, decide_eq_true hd, if_true]
  rw [ok_bind, ok_bind, ok_bind]
  rcases BigonDel.found hN.tidy.plane hc hd hcd with ⟨q, -⟩ | ⟨s, -, hs⟩
  · rw [q]; rfl
  · exact absurd ⟨s, hs⟩ hno

/-- If there are such strands then two of them are pulled off each other.

A diagram of two crossings becomes an unknot for each component. Any other diagram stays in one piece unless what hangs on the one
strand and what hangs on the other are connected by the two crossings only, and then it falls into two pieces. -/
theorem C70_pulled_off (qs : QSort) (caps : Io.Caps) (pd : Io.Pd) (hN : Neat pd) (hok : pdOk qs caps pd = .ok true) (c d : Nat)
    (hc : c < pd.cross.length) (hd : d < pd.cross.length) (hcd : c ≠ d) (hex : ∃ s, Strands2 pd.cross pd.edge c d s) :
    ∃ s, Strands2 pd.cross pd.edge c d s ∧
      (pd.cross.length = 2 → ∃ ts : List Nat, bigonElimination qs caps pd c d = .ok (ts.map .unknot) ∧
        ts.Perm (pd.comp.map (·.tag))) ∧
      (pd.cross.length ≠ 2 → (¬ ∃ lab, Apart pd.cross pd.edge c d lab ∧ lab s.a0 ∧ ¬ lab s.b0) →
        ∃ caps' pd', bigonElimination qs caps pd c d = .ok [.code caps' pd'] ∧ Pulled pd s caps' pd') ∧
      (pd.cross.length ≠ 2 → ∀ lab, Apart pd.cross pd.edge c d lab → lab s.a0 → ¬ lab s.b0 →
        ∃ oA oB, bigonElimination qs caps pd c d = .ok [oA, oB] ∧ Piece pd lab s.a0 s.a1 s.a2 oA ∧
          Piece pd (fun e => ¬ lab e) s.b0 s.b1 s.b2 oB ∧ ncross oA + ncross oB + 2 = pd.cross.length) := by
  have hP := hN.tidy.plane
  have hC := hP.consistent
  have hO := hP.oriented
  rcases BigonDel.found hP hc hd hcd with ⟨-, hn⟩ | ⟨s, q, hs⟩
  · exact absurd hex hn
  have L := hs.lens.at hC hO
  obtain ⟨f1, f2, o1, o2, o3⟩ := outer_cases hN hs.lens
  have e0 : bigonElimination qs caps pd c d =
      if pd.cross.length = 2 ∧ (pd.comp.length = 2 ∨ pd.comp.length = 1) then small pd s
      else if f1 ≠ f2 then (joined qs pd s >>= fun o => .ok [o]) else split qs pd s := by
    unfold bigonElimination
    rw [hok, ok_bind]
    simp only [assertC, decide_eq_true hc, decide_eq_true hd, if_true]
    rw [ok_bind, ok_bind, ok_bind, q, ok_bind, o1, ok_bind]
  have hap : ∀ lab, Apart pd.cross pd.edge c d lab ↔ Separates pd.cross pd.edge s.c0 s.c1 lab := by
    intro lab
    rw [← apart_iff hC]
    rcases hs.at_ with ⟨h1, h2⟩ | ⟨h1, h2⟩ <;> rw [h1, h2]
    exact ⟨fun h => ⟨h.along, fun e x r k a b w n0 n1 => h.meet e x r k a b w n1 n0⟩,
      fun h => ⟨h.along, fun e x r k a b w n0 n1 => h.meet e x r k a b w n1 n0⟩⟩
  refine ⟨s, hs, ?_, ?_, ?_⟩
  · intro hV
    obtain ⟨h1, ts, h2, h3⟩ := small_ok hN L hV
    exact ⟨ts, by rw [e0, if_pos ⟨hV, h1⟩, h2], h3⟩
  · intro hV hno
    rw [if_neg (fun w => hV w.1)] at e0
    by_cases hf : f1 = f2
    · obtain ⟨lab, h1, h2, h3⟩ := o3 hf
      exact absurd ⟨lab, (hap lab).mpr h1, h2, h3⟩ hno
    · obtain ⟨g1, g2, g3, g4⟩ := o2 hf (fun w => hV w.1)
      obtain ⟨caps', pd', τ, σ, ρ, j1, j2⟩ := joined_ok qs hN hs.lens g1 g2 g3 g4
      rw [if_pos hf, j1, ok_bind] at e0
      exact ⟨caps', pd', e0, τ, σ, ρ, j2⟩
  · intro hV lab h1 h2 h3
    rw [if_neg (fun w => hV w.1)] at e0
    by_cases hf : f1 = f2
    · rw [if_neg (not_not.mpr hf)] at e0
      obtain ⟨oA, oB, s1, s2, s3, s4⟩ := split_ok qs hN L ((hap lab).mp h1) h2 h3
      exact ⟨oA, oB, by rw [e0, s1], s2, s3, s4⟩
    · obtain ⟨-, -, -, g4⟩ := o2 hf (fun w => hV w.1)
      exact absurd (g4 lab ((hap lab).mp h1) h2) h3

/-- If the two strands bound a face with two edges and the one passes over the other twice, then the crossings have opposite
signs. -/
theorem C70_signs (pd : Io.Pd) (hN : Neat pd) (s : Site) (hL : Lens pd.cross pd.edge s) (hO : Over pd.cross pd.edge s) (F : Face)
    (hF : F ∈ pd.face) (ha : s.a1 ∈ F.edge) (hb : ∀ e ∈ F.edge, e = s.a1 ∨ e = s.b1) (x y : Cross)
    (hx : pd.cross[s.c0]? = some x) (hy : pd.cross[s.c1]? = some y) : x.sign = .neg ↔ y.sign ≠ .neg := by
  have hP := hN.tidy.plane
  have hC := hP.consistent
  have hOr := hP.oriented
  have hG := hN.tidy.goodFaces
  have L := hL.at hC hOr
  have mp : ∀ {e : Nat}, e < pd.edge.length → ((e, .pos) : Dart) ∈ D pd.edge := fun h => mem_D.mpr ⟨h, .inl rfl⟩
  have mn : ∀ {e : Nat}, e < pd.edge.length → ((e, .neg) : Dart) ∈ D pd.edge := fun h => mem_D.mpr ⟨h, .inr rfl⟩
  -- no other edge is on the face
  have only : ∀ {e : Nat} {o : Or}, (e, o) ∈ sides F → e = s.a1 ∨ e = s.b1 := fun h =>
    hb _ (List.of_mem_zip h).1
  obtain ⟨o, hso⟩ : ∃ o, (s.a1, o) ∈ sides F := by
    obtain ⟨i, hi, q⟩ := List.mem_iff_getElem.mp ha
    have hlen := (hG.shape _ hF).1
    refine ⟨F.orient[i]'(by omega), ?_⟩
    rw [List.mem_iff_getElem]
    exact ⟨i, by simp [sides]; omega, by simp [sides, q]⟩
  have hsD := Shape.sides_mem hG hF hso
  have far : ∀ {e : Nat} {p : Or}, e < pd.edge.length → (p = .pos ∨ p = .neg) → e ≠ s.a1 → e ≠ s.b1 →
      (∀ f, FaceFn pd.cross pd.edge f → f (e, p) = f (s.a1, o)) → False := fun he hp n1 n2 hall =>
    (only (in_face hC hG hF hso hsD (mem_D.mpr ⟨he, hp⟩) hall)).elim n1 n2
  have nb2 : s.b2 ≠ s.a1 := L.b2a1
  have mb2 : s.b2 ≠ s.b1 := Ne.symm L.b1b2
  rcases L.hb with hb' | hb'
  · -- same direction
    obtain ⟨p1, p2⟩ := over_side hC hOr hO.1 L.lb0 (Ne.symm L.b0a0) hb'.1 hx
    obtain ⟨q1, q2⟩ := over_side hC hOr hO.2 L.lb1 (Ne.symm L.b1a1) hb'.2 hy
    constructor
    · intro h h'
      exact LensAt.agree_false hP L hb' (.inr ⟨p1 h, q1 h'⟩)
    · intro h
      by_contra h'
      exact LensAt.agree_false hP L hb' (.inl ⟨p2 h', q2 h⟩)
  · obtain ⟨p1, p2⟩ := over_side hC hOr hO.1 L.lb1 (Ne.symm L.b1a0) hb'.2 hx
    obtain ⟨q1, q2⟩ := over_side hC hOr hO.2 L.lb0 (Ne.symm L.b0a1) hb'.1 hy
    constructor
    · intro h h'
      have w := fun f hf => right_of hC hOr L.lb1 L.la0 (p1 h) (f := f) hf
      have v := fun f hf => right_of hC hOr L.lb0 L.la1 (q1 h') (f := f) hf
      rw [L.nb1, L.na0] at w
      rw [L.nb0, L.na1] at v
      rcases (mem_D.mp hsD).2 with rfl | rfl
      · exact far L.lb0 (.inr rfl) L.b0a1 L.b0b1 (fun f hf => (v f hf).1)
      · exact far L.lb2 (.inl rfl) nb2 mb2 (fun f hf => (w f hf).2.2.1)
    · intro h
      by_contra h'
      have w := fun f hf => right_of hC hOr L.la0 L.lb1 (p2 h') (f := f) hf
      have v := fun f hf => right_of hC hOr L.la1 L.lb0 (q2 h) (f := f) hf
      rw [L.nb1, L.na0] at w
      rw [L.nb0, L.na1] at v
      rcases (mem_D.mp hsD).2 with rfl | rfl
      · exact far L.lb2 (.inr rfl) nb2 mb2 (fun f hf => (w f hf).2.2.1.symm)
      · exact far L.lb0 (.inl rfl) L.b0a1 L.b0b1 (fun f hf => (v f hf).1.symm)

/-! ## Concrete cases -/

/-- Two strands of a trefoil pushed across each other. -/
def claspPd : Io.Pd := ⟨[], 0,
  [⟨0, 6, 1, 5, .unset⟩, ⟨0, 7, 9, 6, .unset⟩, ⟨1, 4, 2, 5, .pos⟩, ⟨2, 8, 3, 7, .pos⟩, ⟨3, 8, 4, 9, .pos⟩],
  [⟨0, 0, 1, 0⟩, ⟨2, 0, 0, 2⟩, ⟨3, 0, 2, 2⟩, ⟨4, 0, 3, 2⟩, ⟨2, 1, 4, 2⟩, ⟨0, 3, 2, 3⟩, ⟨1, 3, 0, 1⟩, ⟨3, 3, 1, 1⟩, ⟨4, 1, 3, 1⟩,
    ⟨1, 2, 4, 3⟩],
  [⟨[0, 1, 2, 3, 4, 5, 6, 7, 8, 9], 65⟩],
  [⟨[0, 5, 2, 7], [.pos, .neg, .pos, .neg]⟩, ⟨[1, 6, 9, 4], [.neg, .pos, .neg, .pos]⟩, ⟨[2, 4, 8], [.neg, .neg, .neg]⟩,
    ⟨[3, 9, 7], [.pos, .pos, .pos]⟩, ⟨[0, 6], [.neg, .neg]⟩, ⟨[1, 5], [.pos, .pos]⟩, ⟨[3, 8], [.neg, .pos]⟩]⟩

theorem BigonDel.clasp_plane : PlaneDiagram claspPd.cross claspPd.edge := by
  have hC : Consistent claspPd.cross claspPd.edge := by decide
  refine ⟨hC, by decide, by decide, connected_of (by decide), planeFaces_of hC 12 (by decide) (by decide +kernel)
    [(0, .pos), (1, .neg), (2, .neg), (3, .pos), (0, .neg), (1, .pos), (3, .neg)] rfl (by decide) (by decide) (by decide +kernel)
    (by decide +kernel)⟩

theorem BigonDel.clasp_neat : Neat claspPd := by
  obtain ⟨cross', edge', comps, faces, h1, h2, -⟩ := C51_regenerated_ok insQSort insQSort 5 claspPd.cross claspPd.edge claspPd.edge
    clasp_plane (Or.inl ⟨rfl, ⟨1, 4, 2, 5, .pos⟩, by decide, by decide⟩) (by decide) (by decide)
  have h3 : Regenerate.regenerate insQSort (Io.capsNew 5).edges (Io.capsNew 5).comps (Io.capsNew 5).faces claspPd.cross claspPd.edge =
      .ok (claspPd.cross, claspPd.edge, claspPd.comp, claspPd.face) := by decide +kernel
  rw [h3] at h1
  cases h1
  exact Tidy.neat h2

/-- Two circles, the first one with a loop. -/
def loopedPd : Io.Pd := ⟨[], 0,
  [⟨0, 0, 1, 3, .pos⟩, ⟨1, 4, 2, 5, .neg⟩, ⟨2, 4, 3, 5, .pos⟩],
  [⟨0, 0, 0, 1⟩, ⟨1, 0, 0, 2⟩, ⟨2, 0, 1, 2⟩, ⟨0, 3, 2, 2⟩, ⟨2, 1, 1, 1⟩, ⟨1, 3, 2, 3⟩],
  [⟨[0, 1, 2, 3], 65⟩, ⟨[4, 5], 66⟩],
  [⟨[0, 3, 4, 1], [.pos, .neg, .neg, .neg]⟩, ⟨[1, 5, 3], [.pos, .neg, .pos]⟩, ⟨[2, 4], [.neg, .pos]⟩, ⟨[2, 5], [.pos, .pos]⟩,
    ⟨[0], [.neg]⟩]⟩

theorem BigonDel.looped_plane : PlaneDiagram loopedPd.cross loopedPd.edge := by
  have hC : Consistent loopedPd.cross loopedPd.edge := by decide
  refine ⟨hC, by decide, by decide, connected_of (by decide), planeFaces_of hC 12 (by decide) (by decide +kernel)
    [(0, .pos), (1, .pos), (2, .neg), (2, .pos), (0, .neg)] rfl (by decide) (by decide) (by decide +kernel) (by decide +kernel)⟩

theorem BigonDel.looped_neat : Neat loopedPd := by
  obtain ⟨cross', edge', comps, faces, h1, h2, -⟩ := C51_regenerated_ok insQSort insQSort 3 loopedPd.cross loopedPd.edge loopedPd.edge
    looped_plane (Or.inl ⟨rfl, _, List.mem_cons_self, by decide⟩) (by decide) (by decide)
  have h3 : Regenerate.regenerate insQSort (Io.capsNew 3).edges (Io.capsNew 3).comps (Io.capsNew 3).faces loopedPd.cross loopedPd.edge =
      .ok (loopedPd.cross, loopedPd.edge, loopedPd.comp, loopedPd.face) := by decide +kernel
  rw [h3] at h1
  cases h1
  exact Tidy.neat h2

/-- Two circles that overlap. -/
def ringsPd : Io.Pd := ⟨[], 0, [⟨0, 2, 1, 3, .neg⟩, ⟨0, 3, 1, 2, .pos⟩],
  [⟨0, 0, 1, 0⟩, ⟨1, 2, 0, 2⟩, ⟨1, 3, 0, 1⟩, ⟨0, 3, 1, 1⟩], [⟨[0, 1], 65⟩, ⟨[2, 3], 66⟩],
  [⟨[0, 2], [.neg, .neg]⟩, ⟨[0, 3], [.pos, .neg]⟩, ⟨[1, 2], [.neg, .pos]⟩, ⟨[1, 3], [.pos, .pos]⟩]⟩

theorem BigonDel.rings_plane : PlaneDiagram ringsPd.cross ringsPd.edge := by
  have hC : Consistent ringsPd.cross ringsPd.edge := by decide
  refine ⟨hC, by decide, by decide, connected_of (by decide), planeFaces_of hC 2 (by decide) (by decide +kernel)
    [(0, .neg), (0, .pos), (1, .neg), (1, .pos)] rfl (by decide) (by decide) (by decide +kernel) (by decide +kernel)⟩

theorem BigonDel.rings_neat : Neat ringsPd := by
  obtain ⟨cross', edge', comps, faces, h1, h2, -⟩ := C51_regenerated_ok insQSort insQSort 2 ringsPd.cross ringsPd.edge ringsPd.edge
    rings_plane (Or.inl ⟨rfl, _, List.mem_cons_self, by decide⟩) (by decide) (by decide)
  have h3 : Regenerate.regenerate insQSort (Io.capsNew 2).edges (Io.capsNew 2).comps (Io.capsNew 2).faces ringsPd.cross ringsPd.edge =
      .ok (ringsPd.cross, ringsPd.edge, ringsPd.comp, ringsPd.face) := by decide +kernel
  rw [h3] at h1
  cases h1
  exact Tidy.neat h2

/-- What the search finds is there. -/
theorem BigonDel.strands_of {cross : List Cross} {edge : List Edge} (h : PlaneDiagram cross edge) {c d : Nat} (hc : c < cross.length)
    (hd : d < cross.length) (hcd : c ≠ d) (hf : (findSite cross edge c d).isOk = true) : ∃ s, Strands2 cross edge c d s := by
  rcases BigonDel.found h hc hd hcd with ⟨q, -⟩ | ⟨s, -, hs⟩
  · rw [q] at hf; cases hf
  · exact ⟨s, hs⟩

example : ∃ ts : List Nat, bigonElimination insQSort (Io.capsNew 2) ringsPd 0 1 = .ok (ts.map .unknot) ∧ ts.Perm [65, 66] := by
  obtain ⟨s, -, h, -⟩ := C70_pulled_off insQSort (Io.capsNew 2) ringsPd BigonDel.rings_neat (by decide +kernel) 0 1 (by decide) (by decide)
    (by decide) (BigonDel.strands_of BigonDel.rings_plane (by decide) (by decide) (by decide) (by decide +kernel))
  exact h rfl

/-- The trefoil comes back. -/
example : ∃ caps pd, bigonElimination insQSort (Io.capsNew 5) claspPd 0 1 = .ok [.code caps pd] ∧ PlaneDiagram pd.cross pd.edge ∧
    pd.cross.length = 3 ∧ pd.face.length = 5 := by
  obtain ⟨s, hs, -, h, -⟩ := C70_pulled_off insQSort (Io.capsNew 5) claspPd BigonDel.clasp_neat (by decide +kernel) 0 1 (by decide)
    (by decide) (by decide) (BigonDel.strands_of BigonDel.clasp_plane (by decide) (by decide) (by decide) (by decide +kernel))
  have hC := BigonDel.clasp_plane.consistent
  have L := hs.lens.at hC BigonDel.clasp_plane.oriented
  obtain ⟨caps, pd, h1, τ, σ, ρ, h2, -, -, -, h3, -, h4, -⟩ := h (by decide) (by
    rintro ⟨lab, A, ha, hb⟩
    have step : ∀ e, e < 9 → (lab e ↔ lab (e + 1)) := fun e he => A.along e (e + 1) ((follows_iff hC _ _).mpr (by
      revert e; decide +kernel))
    have all : ∀ e, e < 10 → (lab e ↔ lab 0) := by
      intro e
      induction e with
      | zero => exact fun _ => Iff.rfl
      | succ e ih => exact fun he => (step e (by omega)).symm.trans (ih (by omega))
    exact hb ((all _ L.lb0).mpr ((all _ L.la0).mp ha)))
  have k1 : claspPd.cross.length = 5 := rfl
  have k2 : claspPd.face.length = 7 := rfl
  exact ⟨caps, pd, h1, h2.tidy.plane, by omega, by omega⟩

/-- The circles come apart, and there is one crossing left. -/
example : ∃ oA oB, bigonElimination insQSort (Io.capsNew 3) loopedPd 1 2 = .ok [oA, oB] ∧ ncross oA + ncross oB = 1 := by
  obtain ⟨s, hs, -, -, h⟩ := C70_pulled_off insQSort (Io.capsNew 3) loopedPd BigonDel.looped_neat (by decide +kernel) 1 2 (by decide)
    (by decide) (by decide) (BigonDel.strands_of BigonDel.looped_plane (by decide) (by decide) (by decide) (by decide +kernel))
  have hC := BigonDel.looped_plane.consistent
  have hO := BigonDel.looped_plane.oriented
  have L := hs.lens.at hC hO
  have meet : ∀ e, e < 6 → ∀ x, x < 6 → ((hd loopedPd.edge[e]!).1 = (hd loopedPd.edge[x]!).1 ∧ (hd loopedPd.edge[e]!).1 ≠ 1 ∧
      (hd loopedPd.edge[e]!).1 ≠ 2) → (e < 4 ↔ x < 4) := by decide
  have A : Apart loopedPd.cross loopedPd.edge 1 2 (fun e => e < 4) := by
    rw [apart_iff hC]
    exact ⟨by decide, fun e x he hx h n0 n1 => meet e he x hx ⟨h, n0, n1⟩⟩
  have B : Apart loopedPd.cross loopedPd.edge 1 2 (fun e => ¬ e < 4) := by
    rw [apart_iff hC]
    exact ⟨by decide, fun e x he hx h n0 n1 => not_congr (meet e he x hx ⟨h, n0, n1⟩)⟩
  have two : ∀ a, a < 6 → ∀ b, b < 6 → ((hd loopedPd.edge[a]!).1 ≠ 0 ∧ (hd loopedPd.edge[b]!).1 ≠ 0 ∧ b ≠ a ∧
      b ≠ nx loopedPd.cross loopedPd.edge a ∧ nx loopedPd.cross loopedPd.edge b ≠ a) → (a < 4 ↔ 4 ≤ b) := by
    decide +kernel
  have c12 : s.c0 ≠ 0 ∧ s.c1 ≠ 0 := by rcases hs.at_ with ⟨p, q⟩ | ⟨p, q⟩ <;> rw [p, q] <;> decide
  have w := two _ L.la0 _ L.lb0 ⟨by rw [L.ha0]; exact c12.1, by
    rcases L.hb with q | q <;> rw [q.1]
    · exact c12.1
    · exact c12.2, L.b0a0, by rw [L.na0]; exact L.b0a1, by rw [L.nb0]; exact L.b1a0⟩
  have k : loopedPd.cross.length = 3 := rfl
  by_cases w1 : s.a0 < 4
  · have w2 : ¬ s.b0 < 4 := not_lt.mpr (w.mp w1)
    obtain ⟨oA, oB, h1, -, -, h2⟩ := h (by decide) _ A w1 w2
    exact ⟨oA, oB, h1, by omega⟩
  · have w2 : ¬ ¬ s.b0 < 4 := fun q => w1 (w.mpr (not_lt.mp q))
    obtain ⟨oA, oB, h1, -, -, h2⟩ := h (by decide) _ B w1 w2
    exact ⟨oA, oB, h1, by omega⟩

/-- The two edges on the second face of the overlapping circles. -/
example : ∃ s : Site, Lens ringsPd.cross ringsPd.edge s ∧ Over ringsPd.cross ringsPd.edge s ∧
    ∃ F ∈ ringsPd.face, s.a1 ∈ F.edge ∧ ∀ e ∈ F.edge, e = s.a1 ∨ e = s.b1 := by
  rcases BigonDel.found BigonDel.rings_plane (c := 0) (d := 1) (by decide) (by decide) (by decide) with ⟨h, -⟩ | ⟨s, h, hs⟩
  · have e : (findSite ringsPd.cross ringsPd.edge 0 1).isOk = true := by decide +kernel
    rw [h] at e
    cases e
  · have hF : (do
        let s ← findSite ringsPd.cross ringsPd.edge 0 1
        .ok (decide (∃ F ∈ ringsPd.face, s.a1 ∈ F.edge ∧ ∀ e ∈ F.edge, e = s.a1 ∨ e = s.b1)) : Res Bool) = .ok true := by decide +kernel
    rw [h, ok_bind] at hF
    exact ⟨s, hs.lens, hs.over _ _ rfl rfl (.inl (by decide)), of_decide_eq_true (Except.ok.inj hF)⟩

/-- Linked circles do not come apart. -/
example : bigonElimination insQSort (Io.capsNew 2) isoHopf 0 1 = .error .die := by
  have hP := (Tidy.neat IsoSearch.isoHopf_searchable.tidy).tidy.plane
  refine C70_refused insQSort (Io.capsNew 2) isoHopf (Tidy.neat IsoSearch.isoHopf_searchable.tidy) (by decide +kernel) 0 1 (by decide)
    (by decide) (by decide) ?_
  rcases BigonDel.found (c := 0) (d := 1) hP (by decide) (by decide) (by decide) with ⟨-, h⟩ | ⟨s, h, -⟩
  · exact h
  · have e : (findSite isoHopf.cross isoHopf.edge 0 1).isOk = false := by decide +kernel
    rw [h] at e
    cases e

/-- A circle that turns twice the same way and has a loop. -/
def twistPd : Io.Pd := ⟨[], 0,
  [⟨0, 0, 5, 1, .pos⟩, ⟨1, 4, 2, 5, .pos⟩, ⟨2, 4, 3, 3, .pos⟩],
  [⟨0, 1, 0, 0⟩, ⟨1, 0, 0, 3⟩, ⟨2, 0, 1, 2⟩, ⟨2, 3, 2, 2⟩, ⟨1, 1, 2, 1⟩, ⟨0, 2, 1, 3⟩],
  [⟨[0, 1, 2, 3, 4, 5], 65⟩],
  [⟨[1, 5, 2, 3, 4], [.neg, .neg, .pos, .neg, .pos]⟩, ⟨[0, 1, 5], [.neg, .pos, .pos]⟩, ⟨[2, 4], [.neg, .neg]⟩, ⟨[0], [.pos]⟩,
    ⟨[3], [.pos]⟩]⟩

/-- The strands need not bound a face: here they pass the two crossings in opposite directions, with two equal signs, and the sum of
the signs changes from 3 to 1. No move of two strands across each other does this. -/
theorem C70_writhe_changes : pdOk insQSort (Io.capsNew 3) twistPd = .ok true ∧ Isotopy.writhe twistPd.cross = 3 ∧
    ∃ caps pd, bigonElimination insQSort (Io.capsNew 3) twistPd 0 1 = .ok [.code caps pd] ∧ Isotopy.writhe pd.cross = 1 := by
  refine ⟨by decide +kernel, by decide, ?_⟩
  have h : (do
      let o ← bigonElimination insQSort (Io.capsNew 3) twistPd 0 1
      match o with
      | [.code _ pd] => .ok (Isotopy.writhe pd.cross)
      | _ => .error .ub : Res Int) = .ok 1 := by decide +kernel
  match ho : bigonElimination insQSort (Io.capsNew 3) twistPd 0 1 with
  | .ok [.code caps pd] =>
    rw [ho, ok_bind] at h
    exact ⟨caps, pd, rfl, Except.ok.inj h⟩
  | .error e => rw [ho] at h; cases h
  | .ok [] => rw [ho] at h; cases h
  | .ok [.unknot _] => rw [ho] at h; cases h
  | .ok (.code _ _ :: _ :: _) => rw [ho] at h; cases h
  | .ok (.unknot _ :: _ :: _) => rw [ho] at h; cases h

end Plc
