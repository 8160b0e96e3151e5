import Verif.Props.Struts
import Verif.Proofs.OctTag

/-! # C89: the octree is one, and `octrope_struts` finds the struts -/

namespace Plc.Struts

open Plc.Core Plc.FindCrossings Plc.RandomPolygon Plc.Equilateral Plc.Motions Plc.Measure Plc.Poca

/-- **C89a.** For every curve with an edge, and any number of levels asked for, `build_octree` succeeds, never reporting an inconsistency. It
leaves a list of all edges, each once, and an octree of them: the root holds all edges, each box holds all of its edges, and either it is a
leaf or the boxes inside of it hold its edges, one range after the other. The depth is at most 21, and at most what was asked for. (What is in
front of the list of edges in memory does not matter, if there is something.) -/
theorem C89_octree (cp : List Comp) (hn : ∃ c ∈ cp, ∃ v a b, EdgeAt c v a b) (front : Varr) (req : Nat) :
    ∃ T, buildOctree (some front) req cp = .ok T ∧ EdgesOf cp T.es ∧ OctreeOf cp T.es T.boxes T.depth T.root ∧
      0 < T.depth ∧ T.depth ≤ 21 ∧ (req ≠ 0 → T.depth ≤ req) ∧ 2 ^ (T.depth - 1) ≤ T.es.length ∧
      T.es.length = (cp.map fun c => if c.isOpen then c.vt.length - 1 else c.vt.length).sum := by
  obtain ⟨T, h1, h2, h3, h4, h5⟩ := build_ok cp hn front req
  have hl : 0 < T.es.length := by
    obtain ⟨c, hc, v, a, b, hv⟩ := hn
    obtain ⟨i, hi⟩ := List.getElem?_of_mem hc
    obtain ⟨e0, he0, _⟩ := h2.all i c v a b hi hv
    exact List.length_pos_of_mem he0
  have hd : 0 < T.depth := by rw [h4]; exact levels_pos.mpr hl
  refine ⟨T, h1, h2, h3, hd, ?_, ?_, ?_, h5⟩
  · rw [h4]; unfold levels; omega
  · intro hr
    rw [h4]; unfold levels; rw [if_neg hr]; omega
  · rw [← Nat.lt_size]
    have : T.depth ≤ Nat.size T.es.length := by
      rw [h4]; unfold levels log2
      split <;> omega
    omega

/-- **C89b.** So `octrope_struts` does what is expected, for every curve whose edges have a length, which turns somewhere, and any two edges of
which are parallel or clearly not. There is a number `k`, two or such that no `k` turning angles make more than half a circle, so that with
"strut" for a strut between edges at least `k` apart along the curve: nothing is shorter than the length reported, and that is the length of a
strut or the start value; what is listed are struts within the bound, at most as many as there is room for, no two of the same two edges; with
room for all pairs of edges, or a cutoff and room for all struts within it, all those between edges which are not parallel are listed. -/
theorem C89_struts {cp : List Comp} (hE : Edged cp) (hc : ClearCut cp) (ht : ∃ c ∈ cp, ∃ t, TurnAt c t ∧ Real.pi < 2 ^ 31 * t) (front : Varr) (req : Nat)
    {big cutoff eps : ℝ} (h0 : 0 ≤ cutoff) (he : 0 ≤ eps) (size : Nat) :
    ∃ (sh : ℝ) (l : List Strut) (k : Int), octropeStruts big (some front) req cp cutoff eps size = .ok (some (sh, l)) ∧
      (2 ≤ k ∧ (k = 2 ∨ ∀ c ∈ cp, ∀ t, TurnAt c t → k * t ≤ Real.pi) ∧ ∃ c ∈ cp, ∃ t, TurnAt c t ∧ Real.pi < (k + 1) * t) ∧
      sh ≤ big ∧ (∀ x, StrutOf cp x → FarAlong cp k x → Transversal cp x → (0 < cutoff → x.len ≤ cutoff) → sh ≤ x.len) ∧
      (sh = big ∨ ∃ x, StrutOf cp x ∧ FarAlong cp k x ∧ x.len = sh ∧ (0 < cutoff → sh ≤ cutoff)) ∧
      (∀ x ∈ l, StrutOf cp x ∧ FarAlong cp k x ∧ x.len ≤ lengthBound cutoff eps sh) ∧ l.length ≤ size ∧ l.Pairwise (fun x y => ¬ SameEdges x y) ∧
      (((cp.map fun c => if c.isOpen then c.vt.length - 1 else c.vt.length).sum * ((cp.map fun c => if c.isOpen then c.vt.length - 1 else c.vt.length).sum - 1) ≤
          2 * size ∨
        (0 < cutoff ∧ ∀ L : List Strut, L.Pairwise (fun x y => ¬ SameEdges x y) → (∀ x ∈ L, StrutOf cp x ∧ FarAlong cp k x ∧ x.len ≤ cutoff) → L.length ≤ size)) →
        ∀ x, StrutOf cp x → FarAlong cp k x → Transversal cp x → x.len ≤ lengthBound cutoff eps sh → x ∈ l ∨ Plc.flip x ∈ l) := by
  have hn : ∃ c ∈ cp, ∃ v a b, EdgeAt c v a b := by
    obtain ⟨c, hc, t, ⟨u, v, a, b, d, h, _⟩, _⟩ := ht
    exact ⟨c, hc, u, a, b, h⟩
  obtain ⟨T, h1, h2, h3, _, _, _, _, h4⟩ := C89_octree cp hn front req
  obtain ⟨k, hk⟩ := (C87_straight hE).2 ht
  have G : Given cp T.es T.boxes T.depth T.root eps k := ⟨hE, h2, h3, hk, he⟩
  obtain ⟨sh, l, r, s1, s2, s3⟩ := C87_shortest G hc big cutoff size
  obtain ⟨l1, l2, l3⟩ := C87_list_sound G hc r
  refine ⟨sh, l, k, ?_, C87_pi_count hE hk, s1, s2, s3, l1, l2, l3, ?_⟩
  · unfold octropeStruts
    rw [if_neg (not_lt.mpr he), if_neg (not_lt.mpr h0), h1, ok_bind, r, ok_bind]
  · rw [← h4]
    exact C87_list_complete G hc r

/-- **C89c.** A negative cutoff or epsilon is refused, nothing is computed. -/
theorem C89_refused {big cutoff eps : ℝ} (h : cutoff < 0 ∨ eps < 0) (front : Option Varr) (req : Nat) (cp : List Comp) (size : Nat) :
    octropeStruts big front req cp cutoff eps size = .ok none := by
  unfold octropeStruts
  rcases h with h | h
  · rw [if_pos h, ite_self]
  · rw [if_pos h]

/-- **C89d.** A curve without edges (no components, or only arcs of one vertex): `1 << -1`, undefined. -/
theorem C89_no_edges {cp : List Comp} (hn : ∀ c ∈ cp, ∀ v a b, ¬ EdgeAt c v a b) (front : Option Varr) (req : Nat) {big cutoff eps : ℝ} (h0 : 0 ≤ cutoff)
    (he : 0 ≤ eps) (size : Nat) : octropeStruts big front req cp cutoff eps size = .error .ub := by
  unfold octropeStruts
  rw [if_neg (not_lt.mpr he), if_neg (not_lt.mpr h0), build_empty cp hn, error_bind]

/-! ## Examples -/

/-- The curve of C87, with three levels asked for. -/
example (front : Varr) : ∃ T, buildOctree (some front) 3 [bent, above] = .ok T ∧ EdgesOf [bent, above] T.es ∧ T.es.length = 3 ∧
    OctreeOf [bent, above] T.es T.boxes T.depth T.root := by
  obtain ⟨T, h1, h2, h3, _, _, _, _, h4⟩ := C89_octree [bent, above] ⟨bent, by simp, 0, ⟨0, 0, 0⟩, ⟨2, 0, 0⟩, rfl, rfl⟩ front 3
  exact ⟨T, h1, h2, by rw [h4]; simp [bent, above], h3⟩

example (front : Varr) : ∃ sh l, octropeStruts 100 (some front) 0 [bent, above] 0 0 3 = .ok (some (sh, l)) ∧ l.length ≤ 3 ∧ sh ≤ 100 := by
  obtain ⟨sh, l, k, h1, _, h3, _, _, _, h7, _⟩ := C89_struts exEdged exClear
    ⟨bent, by simp, Real.pi / 2, exTurns, by nlinarith [Real.pi_pos]⟩ front 0 (big := 100) (le_refl (0 : ℝ)) (le_refl (0 : ℝ)) 3
  exact ⟨sh, l, h1, h7, h3⟩

example : ∀ c ∈ ([⟨true, [⟨1, 2, 3⟩]⟩] : List Comp), ∀ v a b, ¬ EdgeAt c v a b := by
  intro c hc v a b h
  simp only [List.mem_cons, List.not_mem_nil, or_false] at hc
  subst hc
  have := h.openLt rfl
  simp at this

end Plc.Struts
