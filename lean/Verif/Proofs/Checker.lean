import Verif.Spec.PlaneDiagram

/-! # Chessboard colouring -/

namespace Plc.Planar

open Plc.Places Plc.Faces Plc.Cmp

variable {cross : List Cross} {edge : List Edge}

/-- The faces of a plane diagram can be coloured with two colours, different on the two sides of each edge. At a crossing the colours
of the corners alternate, so one colour per crossing says it all. -/
theorem chessboard (h : PlaneDiagram cross edge) :
    ∃ b : Nat → K, ∀ r ∈ edge, b r.tail + (r.tailpos : K) + b r.head + (r.headpos : K) = 1 := by
  have hC := h.consistent
  obtain ⟨reps, r1, r2, r3, r4⟩ := reps_of_plane hC h.plane
  obtain ⟨f, f1, f2⟩ := exact hC h.connected r1 r2 r3 r4 (strand_cycle hC h.oriented (z := fun _ => 1) (fun _ _ => rfl))
  -- colours at places
  have two : (1 : K) + 1 = 0 := by decide
  have step : ∀ p ∈ P cross, f (dartAt cross edge (turn 3 p)) = f (dartAt cross edge p) + 1 := by
    intro p hp
    have hd := dartAt_mem hC hp
    have hr := rev_mem hd
    have e1 := f1 _ hr
    have e2 : nd cross edge (rev (dartAt cross edge p)) = dartAt cross edge (turn 3 p) := by
      unfold nd
      rw [endp_rev hd, begp_dartAt hC hp]
    rw [e2] at e1
    rw [e1]
    have hm := mem_D.mp hd
    have := f2 (dartAt cross edge p).1 hm.1
    generalize dartAt cross edge p = d at this hm
    obtain ⟨e, o⟩ := d
    simp only at this hm
    rcases hm.2 with rfl | rfl
    · simp only [rev, if_true]
      rw [this]
      generalize f (e, .pos) = x
      generalize f (e, .neg) = y
      revert x y; decide
    · simp only [rev, reduceCtorEq, if_false]
      rw [this]
      generalize f (e, .pos) = x
      generalize f (e, .neg) = y
      revert x y; decide
  have col : ∀ c, c < cross.length → ∀ k, k < 4 → f (dartAt cross edge (c, k)) = f (dartAt cross edge (c, 0)) + (k : K) := by
    intro c hc
    have s := fun k (hk : k < 4) => step (c, k) (mem_P.mpr ⟨hc, hk⟩)
    have s0 := s 0 (by decide)
    have s3 := s 3 (by decide)
    have s2 := s 2 (by decide)
    simp only [turn, Nat.reduceAdd, Nat.reduceMod] at s0 s2 s3
    intro k hk
    have : k = 0 ∨ k = 1 ∨ k = 2 ∨ k = 3 := by omega
    rcases this with rfl | rfl | rfl | rfl
    · simp
    all_goals generalize f (dartAt cross edge (c, 0)) = x at *
    · rw [s2, s3, s0]; clear * -; revert x; decide
    · rw [s3, s0]; clear * -; revert x; decide
    · rw [s0]; clear * -; revert x; decide
  refine ⟨fun c => f (dartAt cross edge (c, 0)), ?_⟩
  intro r hr
  obtain ⟨e, he, rfl⟩ := List.getElem_of_mem hr
  have hpos : ((e, .pos) : Dart) ∈ D edge := mem_D.mpr ⟨he, Or.inl rfl⟩
  have hneg : ((e, .neg) : Dart) ∈ D edge := mem_D.mpr ⟨he, Or.inr rfl⟩
  have hget : edge[e]! = edge[e] := by simp [he]
  have ht := (begp_mem hC hpos).1
  have hh := (begp_mem hC hneg).1
  have et := begp_inj hC (dartAt_mem hC ht) hpos (begp_dartAt hC ht)
  have eh := begp_inj hC (dartAt_mem hC hh) hneg (begp_dartAt hC hh)
  simp only [begp, if_true, reduceCtorEq, if_false, hget, tl, hd] at ht hh et eh
  rw [mem_P] at ht hh
  have c1 := col _ ht.1 _ ht.2
  have c2 := col _ hh.1 _ hh.2
  simp only at c1 c2
  have := f2 e he
  rw [et] at c1
  rw [eh] at c2
  rw [add_assoc, ← c1, ← c2]
  exact this.symm

end Plc.Planar
