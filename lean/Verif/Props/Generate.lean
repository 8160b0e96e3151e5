import Verif.Proofs.GenerateC
import Verif.Proofs.CheckTri
import Verif.Props.Embed

/-! # C95: triangulations from systems of chords -/

namespace Plc.Embed

open Plc.Core Plc.Tri

theorem vertices_all {n : Nat} (h : 3 ≤ n) : (0 :: 1 :: (List.range (n - 2)).map (fun q => q + 2)).Nodup ∧
    ∀ i, i ∈ 0 :: 1 :: (List.range (n - 2)).map (fun q => q + 2) ↔ i < n := by
  constructor
  · rw [List.nodup_cons, List.nodup_cons]
    refine ⟨by simp, by simp, List.Nodup.map (fun a b h => by simpa using h) List.nodup_range⟩
  · intro i
    simp only [List.mem_cons, List.mem_map, List.mem_range]
    constructor
    · rintro (h | h | ⟨q, h1, h2⟩) <;> omega
    · intro h'
      rcases i with _ | _ | i
      · exact .inl rfl
      · exact .inr (.inl rfl)
      · exact .inr (.inr ⟨i, by omega, rfl⟩)

/-- **C95** From the chords of any triangulation of the n-gon, `tsmcmc_generate_triangulation` makes triangles: the tree of triangles is a
triangulation of the polygon with every vertex and chord in its place, the edges are those of the polygon, and diagonal number k has the ends
of chord number k. -/
theorem C95_generate (Q : QSort) {n : Nat} {sys : List Chord} (h3 : 3 ≤ n) (h : IsTriangulation n sys) :
    ∃ T, generate Q n sys = .ok T ∧ Proper T ∧ T.edges.length = n ∧ T.diags.length = n - 3 ∧
      ∀ (k : Nat) (c : Chord), sys[k]? = some c → ∃ d, T.diags[k]? = some d ∧ Same d c := by
  have hr := mapM_rd_all sys h.1.symm
  have hrl : (ring n).length = n := by simp [ring]
  by_cases hn : n = 3
  · subst hn
    have hs : sys = [] := List.eq_nil_of_length_eq_zero h.1
    subst hs
    refine ⟨⟨[⟨⟨false, 0⟩, ⟨false, 1⟩, ⟨false, 2⟩, none, none⟩], [], ring 3⟩, rfl, ?_, rfl, rfl, by simp⟩
    refine ⟨fun i hi => ring_get hi, rfl, _, 0, 1, 2, 0, [], [], [⟨false, 1⟩], [⟨false, 2⟩], rfl, rfl, rfl,
      Behind.edge 1 1 2 rfl, Behind.edge 2 2 0 rfl, by decide, ?_, by decide, ?_⟩
    · intro i
      simp [ring]
      omega
    · rintro ⟨d, k⟩ p hp
      cases d
      · have : k < 3 := (List.getElem?_eq_some_iff.mp (show (ring 3)[k]? = some p from hp)).1
        have : k = 0 ∨ k = 1 ∨ k = 2 := by omega
        rcases this with rfl | rfl | rfl <;> simp
      · simp [ends] at hp
  · have h4 : 4 ≤ n := by omega
    have P := poly_of h4 h
    have hL := laid_of h
    obtain ⟨vi, e1, hT⟩ := buildVit_ok Q P hL
    obtain ⟨st, b1, b2, b3, b4, b5, b6, v, cs, ds, t, v1, v2, b7, b8, b9, b10⟩ := build_ok P hT n 0 (n - 1) ⟨false, 0⟩
      ⟨List.replicate (n - 2) ⟨⟨false, 0⟩, ⟨false, 0⟩, ⟨false, 0⟩, some 0, some 0⟩, sys, 0⟩ (by omega) (by omega) (by omega) (.inl ⟨rfl, by omega, rfl⟩)
      (full_of P rfl) hL (fun k hk => by cases hk) (by simp only [List.length_replicate]; omega)
    simp only [List.length_replicate] at b3 b4 b7
    obtain ⟨B0, B1⟩ := b10 ⟨st.triangles, st.diags, ring n⟩ ⟨rfl, fun _ _ _ => rfl, fun _ _ => rfl⟩
    have w0 : vx n 0 = 1 := by unfold vx; rw [if_neg (by omega)]
    have w1 : vx n (n - 1) = 0 := by unfold vx; rw [if_pos (by omega)]
    rw [w0] at B0
    rw [w1] at B1
    have hv := vertices_all h3
    rw [← seg_all h3, ← seg_append v1 v2] at hv
    refine ⟨⟨st.triangles, st.diags, ring n⟩, ?_, ⟨?_, ?_, t, 0, 1, vx n v, 0, _, _, cs, ds, b7, b8, ?_, B0, B1, hv.1, ?_, ?_, ?_⟩, hrl, b2.len, ?_⟩
    · unfold generate
      rw [hr, ok_bind]
      simp only
      rw [if_neg hn, e1, ok_bind]
      show (do let s ← build n (ring n) vi n _ _; _) = _
      rw [b1, ok_bind]
      rfl
    · intro i hi
      simp only [hrl] at hi ⊢
      exact ring_get hi
    · simp only [hrl, b4]; omega
    · show (ring n)[0]? = _
      rw [ring_get (by omega), Nat.mod_eq_of_lt (by omega)]
    · intro i
      rw [hv.2 i, hrl]
    · rw [List.nodup_cons]
      refine ⟨?_, b9.1⟩
      rw [b9.2]
      rintro (⟨k, _, hk⟩ | ⟨e, h1, _, h2⟩)
      · cases hk
      · cases h2; omega
    · rintro ⟨d, k⟩ p hp
      rw [List.mem_cons, b9.2]
      cases d
      · have hk : k < n := by rw [← hrl]; exact (List.getElem?_eq_some_iff.mp (show (ring n)[k]? = some p from hp)).1
        rcases Nat.eq_zero_or_pos k with h0 | h0
        · left; rw [h0]
        · exact .inr (.inr ⟨k, h0, by omega, rfl⟩)
      · have hk : k < n - 3 := by rw [← b2.len]; exact (List.getElem?_eq_some_iff.mp (show st.diags[k]? = some p from hp)).1
        refine .inr (.inl ⟨k, ?_, rfl⟩)
        simp only [below, Finset.mem_filter, Finset.mem_range]
        have h1 := P.top k hk
        have h2 := P.whole k hk
        refine ⟨hk, ⟨by omega, by omega⟩, fun h3 => h2 ⟨h3.1, by omega⟩⟩
    · intro k c hc
      exact same_of h b2 hc

/-- **C95** `tsmcmc_triangulation_ok` accepts every triangulation, and there are n - 3 diagonals. -/
theorem C95_accepted {T : Triangulation} (h : Proper T) : T.diags.length + 3 = T.edges.length ∧ triangulationOk T = .ok true := proper_ok h

theorem checked_ok (Q : QSort) {n : Nat} {sys : List Chord} (h3 : 3 ≤ n) (h : IsTriangulation n sys) : ∃ T, checked Q n sys = .ok T ∧ Proper T ∧ T.edges.length = n := by
  obtain ⟨T, h1, h2, h4, _⟩ := C95_generate Q h3 h
  refine ⟨T, ?_, h2, h4⟩
  unfold checked
  rw [h1, ok_bind, (C95_accepted h2).2, ok_bind]
  rfl

/-- **C95** The fan triangulation. -/
theorem C95_fan (Q : QSort) {n : Nat} (h3 : 3 ≤ n) : ∃ T, fanT Q n = .ok T ∧ Proper T ∧ T.edges.length = n := by
  obtain ⟨sys, h1, h2⟩ := C48_fan Q n
  obtain ⟨T, h4, h5, h6, _⟩ := C95_generate Q h3 h2
  refine ⟨T, ?_, h5, h6⟩
  unfold fanT
  rw [h1, ok_bind, h4]

/-- **C95** The spiral triangulation; no assertion fails. -/
theorem C95_spiral (Q : QSort) {n : Nat} (h4 : 4 ≤ n) : ∃ T, spiralT Q n = .ok T ∧ Proper T ∧ T.edges.length = n := by
  obtain ⟨sys, h1, h2⟩ := C48_spiral Q n h4
  obtain ⟨T, h⟩ := checked_ok Q (by omega) h2
  refine ⟨T, ?_, h.2⟩
  unfold spiralT
  rw [h1, ok_bind, h.1]

/-- **C95** The teeth; no assertion fails. -/
theorem C95_teeth (Q : QSort) {n : Nat} (h4 : 4 ≤ n) : ∃ T, teethT Q n = .ok T ∧ Proper T ∧ T.edges.length = n := by
  obtain ⟨sys, h1, h2⟩ := C48_teeth n h4
  obtain ⟨T, h⟩ := checked_ok Q (by omega) h2
  refine ⟨T, ?_, h.2⟩
  unfold teethT
  rw [h1, ok_bind, h.1]

/-- **C95** The random triangulation, whatever random numbers are drawn; no assertion fails. -/
theorem C95_random (Q : QSort) (rng : Nat → Nat) {n : Nat} (h3 : 3 ≤ n) : ∃ T, randomT Q rng n = .ok T ∧ Proper T ∧ T.edges.length = n := by
  obtain ⟨sys, h1, h2⟩ := C48_random Q rng n h3
  obtain ⟨T, h⟩ := checked_ok Q h3 h2
  refine ⟨T, ?_, h.2⟩
  unfold randomT
  rw [h1, ok_bind, h.1]

/-! ## What the check does not see -/

/-- The pentagon with the diagonals from 1 to 3 and from 3 to 0, where the two triangles at the diagonals are taken for each other. -/
def swapped : Triangulation :=
  ⟨[⟨⟨false, 0⟩, ⟨true, 0⟩, ⟨true, 1⟩, some 2, some 1⟩, ⟨⟨true, 0⟩, ⟨false, 1⟩, ⟨false, 2⟩, none, none⟩, ⟨⟨true, 1⟩, ⟨false, 3⟩, ⟨false, 4⟩, none, none⟩],
    [(1, 3), (3, 0)], ring 5⟩

/-- **C95** `tsmcmc_triangulation_ok` does not check that the daughter triangle at a side is one at that side: it accepts this one, which is
not a triangulation. -/
theorem C95_accepts_swapped : triangulationOk swapped = .ok true ∧ ¬ Proper swapped := by
  refine ⟨rfl, ?_⟩
  rintro ⟨_, _, t, a, b, c, k, xs, ys, cs, ds, r1, r2, r3, r4, _⟩
  cases r1
  simp only at r4
  cases r4 with
  | diag k u v w s t xs ys cs ds h1 h2 h3 =>
    cases h2
    cases h3

/-! ## Example -/

/-- The hexagon with the diagonals 0-2, 2-4, 4-0. -/
example : IsTriangulation 6 [(0, 2), (2, 4), (4, 0)] := by
  refine ⟨rfl, ?_, ?_⟩
  · intro c hc
    simp at hc
    rcases hc with rfl | rfl | rfl <;> simp [Diagonal]
  · simp [Same, Crossing, Inside, Outside]

end Plc.Embed
