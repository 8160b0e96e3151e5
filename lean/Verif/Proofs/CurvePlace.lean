import Verif.Proofs.CurveEdges
import Verif.Proofs.Moves
import Mathlib.Data.List.Perm.Basic

/-! The records which `assemble_pdcode` fills in. -/

namespace Plc.FromCurve

open Plc.Core Plc.Cmp Plc.Moves Plc.Buffers List

theorem inPos_lt (u : Bool) (o : Or) : inPos u o < 4 := by
  unfold inPos; split <;> (try split) <;> omega

theorem outPos_lt (u : Bool) (o : Or) : outPos u o < 4 := by
  unfold outPos; split <;> (try split) <;> omega

variable {K : Type}

/-- Where the edges of a table are written. -/
def spots (sgn : Nat → Or) (te : List (Strand K × Strand K)) : List (Nat × Nat) :=
  te.flatMap (fun p => [(p.1.num, inPos p.1.up (sgn p.1.num)), (p.2.num, outPos p.2.up (sgn p.2.num))])

theorem place_ok (sgn : Nat → Or) : ∀ (te : List (Strand K × Strand K)) (i : Nat) (cross : List Cross),
    (∀ (d : Nat) (x : Cross), cross[d]? = some x → x.sign = sgn d) → (∀ p ∈ te, p.1.num < cross.length ∧ p.2.num < cross.length) →
    (spots sgn te).Nodup →
    ∃ cross', place te i cross = .ok (cross', te.map (fun p => ⟨p.1.num, inPos p.1.up (sgn p.1.num), p.2.num, outPos p.2.up (sgn p.2.num)⟩)) ∧
      cross'.length = cross.length ∧
      (∀ (d : Nat) (x : Cross), cross[d]? = some x → ∃ x' : Cross, cross'[d]? = some x' ∧ x'.sign = x.sign ∧
        ∀ k, k < 4 → (d, k) ∉ spots sgn te → x'.at k = x.at k) ∧
      ∀ (j : Nat) (h t : Strand K), te[j]? = some (h, t) →
        slot cross' h.num (inPos h.up (sgn h.num)) = some (i + j) ∧ slot cross' t.num (outPos t.up (sgn t.num)) = some (i + j)
  | [], i, cross, _, _, _ => ⟨cross, rfl, rfl, fun d x hx => ⟨x, hx, rfl, fun _ _ _ => rfl⟩, fun j h t hj => by simp at hj⟩
  | (h, t) :: te, i, cross, hsg, hlt, hnd => by
    obtain ⟨l1, l2⟩ := hlt (h, t) (by simp)
    simp only at l1 l2
    have hnd' : (h.num, inPos h.up (sgn h.num)) ∉ (t.num, outPos t.up (sgn t.num)) :: spots sgn te ∧
        (t.num, outPos t.up (sgn t.num)) ∉ spots sgn te ∧ (spots sgn te).Nodup := by
      have : spots sgn ((h, t) :: te) = (h.num, inPos h.up (sgn h.num)) :: (t.num, outPos t.up (sgn t.num)) :: spots sgn te := rfl
      rw [this, List.nodup_cons, List.nodup_cons] at hnd
      exact hnd
    obtain ⟨n1, n2, n3⟩ := hnd'
    rw [List.mem_cons, not_or] at n1
    obtain ⟨c1, a1, a2, a3⟩ := setSlot_ok (cross := cross) l1 (inPos_lt h.up (sgn h.num)) i
    have hsg1 : ∀ (d : Nat) (x : Cross), c1[d]? = some x → x.sign = sgn d := by
      intro d x hx
      have hd : d < cross.length := by rw [← a2]; exact (List.getElem?_eq_some_iff.mp hx).1
      obtain ⟨x', x1, x2, -⟩ := a3 d _ (List.getElem?_eq_getElem hd)
      rw [hx] at x1
      cases x1
      rw [x2]
      exact hsg d _ (List.getElem?_eq_getElem hd)
    have l2' : t.num < c1.length := by rw [a2]; exact l2
    obtain ⟨c2, b1, b2, b3⟩ := setSlot_ok (cross := c1) l2' (outPos_lt t.up (sgn t.num)) i
    have hsg2 : ∀ (d : Nat) (x : Cross), c2[d]? = some x → x.sign = sgn d := by
      intro d x hx
      have hd : d < c1.length := by rw [← b2]; exact (List.getElem?_eq_some_iff.mp hx).1
      obtain ⟨x', x1, x2, -⟩ := b3 d _ (List.getElem?_eq_getElem hd)
      rw [hx] at x1
      cases x1
      rw [x2]
      exact hsg1 d _ (List.getElem?_eq_getElem hd)
    obtain ⟨c3, d1, d2, d3, d4⟩ := place_ok sgn te (i + 1) c2 hsg2
      (fun p hp => by rw [b2, a2]; exact hlt p (by simp [hp])) n3
    refine ⟨c3, ?_, by rw [d2, b2, a2], ?_, ?_⟩
    · rw [place, rd_lt l1, ok_bind, hsg h.num _ (List.getElem?_eq_getElem l1), a1, ok_bind, rd_lt l2', ok_bind,
        hsg1 t.num _ (List.getElem?_eq_getElem l2'), b1, ok_bind, d1, ok_bind]
      rfl
    · intro d x hx
      obtain ⟨x1, e1, e2, e3⟩ := a3 d x hx
      obtain ⟨x2, f1, f2, f3⟩ := b3 d x1 e1
      obtain ⟨x3, g1, g2, g3⟩ := d3 d x2 f1
      refine ⟨x3, g1, by rw [g2, f2, e2], ?_⟩
      intro k hk hn
      have : spots sgn ((h, t) :: te) = (h.num, inPos h.up (sgn h.num)) :: (t.num, outPos t.up (sgn t.num)) :: spots sgn te := rfl
      rw [this, List.mem_cons, List.mem_cons, not_or, not_or] at hn
      rw [g3 k hk hn.2.2, f3, if_neg, e3, if_neg]
      · rintro ⟨rfl, h2⟩
        rw [Nat.mod_eq_of_lt hk] at h2
        exact hn.1 (by rw [h2])
      · rintro ⟨rfl, h2⟩
        rw [Nat.mod_eq_of_lt hk] at h2
        exact hn.2.1 (by rw [h2])
    · intro j h' t' hj
      cases j with
      | succ j =>
        rw [List.getElem?_cons_succ] at hj
        have := d4 j h' t' hj
        rw [show i + (j + 1) = i + 1 + j by omega]
        exact this
      | zero =>
        simp only [List.getElem?_cons_zero, Option.some.injEq, Prod.mk.injEq] at hj
        obtain ⟨rfl, rfl⟩ := hj
        obtain ⟨x1, e1, e2, e3⟩ := a3 h.num _ (List.getElem?_eq_getElem l1)
        obtain ⟨x2, f1, f2, f3⟩ := b3 h.num x1 e1
        obtain ⟨x3, g1, g2, g3⟩ := d3 h.num x2 f1
        obtain ⟨y1, p1, p2, p3⟩ := b3 t.num _ (List.getElem?_eq_getElem l2')
        obtain ⟨y2, q1, q2, q3⟩ := d3 t.num y1 p1
        have hi := inPos_lt h.up (sgn h.num)
        have ho := outPos_lt t.up (sgn t.num)
        constructor
        · have := at_eq_slot (k := inPos h.up (sgn h.num)) g1
          rw [Nat.mod_eq_of_lt hi] at this
          rw [this, g3 _ hi n1.2, f3, if_neg, e3, if_pos ⟨rfl, Nat.mod_eq_of_lt hi⟩]
          · rfl
          · rintro ⟨h1, h2⟩
            rw [Nat.mod_eq_of_lt hi] at h2
            exact n1.1 (by rw [h2, h1])
        · have := at_eq_slot (k := outPos t.up (sgn t.num)) q1
          rw [Nat.mod_eq_of_lt ho] at this
          rw [this, q3 _ ho n2, p3, if_pos ⟨rfl, Nat.mod_eq_of_lt ho⟩]
          rfl

theorem in_inj {sgn : Nat → Or} {a b : Strand K} (h : (a.num, inPos a.up (sgn a.num)) = (b.num, inPos b.up (sgn b.num))) :
    (a.num, a.up) = (b.num, b.up) := by
  simp only [Prod.mk.injEq] at h ⊢
  obtain ⟨h1, h2⟩ := h
  refine ⟨h1, ?_⟩
  rw [h1] at h2
  cases ha : a.up <;> cases hb : b.up <;> rw [ha, hb] at h2 <;> simp [inPos] at h2 ⊢ <;> split at h2 <;> omega

theorem out_inj {sgn : Nat → Or} {a b : Strand K} (h : (a.num, outPos a.up (sgn a.num)) = (b.num, outPos b.up (sgn b.num))) :
    (a.num, a.up) = (b.num, b.up) := by
  simp only [Prod.mk.injEq] at h ⊢
  obtain ⟨h1, h2⟩ := h
  refine ⟨h1, ?_⟩
  rw [h1] at h2
  cases ha : a.up <;> cases hb : b.up <;> rw [ha, hb] at h2 <;> simp [outPos] at h2 ⊢ <;> split at h2 <;> omega

theorem in_ne_out {sgn : Nat → Or} {a b : Strand K} : (a.num, inPos a.up (sgn a.num)) ≠ (b.num, outPos b.up (sgn b.num)) := by
  intro h
  simp only [Prod.mk.injEq] at h
  obtain ⟨h1, h2⟩ := h
  rw [h1] at h2
  generalize a.up = u at h2
  generalize b.up = v at h2
  generalize sgn b.num = o at h2
  cases u <;> cases v <;> cases o <;> simp [inPos, outPos] at h2

theorem spots_nodup (sgn : Nat → Or) {te : List (Strand K × Strand K)} (h1 : (te.map (fun p => (p.1.num, p.1.up))).Nodup)
    (h2 : (te.map (fun p => (p.2.num, p.2.up))).Nodup) : (spots sgn te).Nodup := by
  have hp := List.map_append_flatMap_perm te (fun p : Strand K × Strand K => (p.1.num, inPos p.1.up (sgn p.1.num)))
    (fun p => [(p.2.num, outPos p.2.up (sgn p.2.num))])
  unfold spots
  rw [← hp.nodup_iff, show te.flatMap (fun p => [(p.2.num, outPos p.2.up (sgn p.2.num))]) = te.map (fun p => (p.2.num, outPos p.2.up (sgn p.2.num))) from
    List.map_eq_flatMap.symm, List.nodup_append]
  refine ⟨?_, ?_, ?_⟩
  · unfold List.Nodup at h1 ⊢
    rw [List.pairwise_map] at h1 ⊢
    exact h1.imp (fun hab h => hab (in_inj h))
  · unfold List.Nodup at h2 ⊢
    rw [List.pairwise_map] at h2 ⊢
    exact h2.imp (fun hab h => hab (out_inj h))
  · intro a ha b hb
    obtain ⟨p, -, rfl⟩ := List.mem_map.mp ha
    obtain ⟨q, -, rfl⟩ := List.mem_map.mp hb
    exact in_ne_out

end Plc.FromCurve
