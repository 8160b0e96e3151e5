import Verif.Proofs.Regenerate
import Verif.Proofs.Reorient2
import Verif.Proofs.Shape

/-! On a plane diagram no two crossings and no two faces have the same edges. -/

namespace Plc.Distinct

open Plc.Core Plc.Cmp Plc.Places Plc.Orbit Plc.Faces Plc.Planar

variable {cross : List Cross} {edge : List Edge}

/-- There are at least three faces. -/
theorem three_faces (h : PlaneDiagram cross edge) {s t : Dart} (hs : s ∈ D edge) (ht : t ∈ D edge)
    (hall : ∀ d ∈ D edge, d ∈ cyc (nd cross edge) s ∨ d ∈ cyc (nd cross edge) t) : False := by
  obtain ⟨reps, r1, r2, r3, _⟩ := reps_of_plane h.consistent h.plane
  have := sep_le (injOn_nd h.consistent) (A := reps) (B := [s, t]) r2 (by simp [hs, ht]) r3 (by
    intro x hx
    rcases hall x hx with q | q
    · exact ⟨s, by simp, q⟩
    · exact ⟨t, by simp, q⟩)
  have := List.length_pos_iff.mpr h.nonempty
  simp only [List.length_cons, List.length_nil] at *
  omega

/-- A set of sides closed under going along faces and changing sides is everything. -/
theorem closed_all (h : PlaneDiagram cross edge) (W : Dart → Prop)
    (h1 : ∀ d ∈ D edge, W d → W (nd cross edge d)) (h2 : ∀ d ∈ D edge, W d → W (rev d)) {s d : Dart}
    (hs : s ∈ D edge) (hW : W s) (hd : d ∈ D edge) : W d := by
  classical
  have hI := injOn_nd h.consistent
  have back : ∀ d ∈ D edge, W (nd cross edge d) → W d := by
    intro d hd hw
    have key : ∀ k, W ((nd cross edge)^[k + 1] d) := by
      intro k
      induction k with
      | zero => exact hw
      | succ k ih =>
        rw [Function.iterate_succ_apply']
        exact h1 _ (hI.iterate_mem hd _) ih
    have hp := hI.per_pos hd
    have := key (per (nd cross edge) d - 1)
    rwa [show per (nd cross edge) d - 1 + 1 = per (nd cross edge) d by omega, iterate_per] at this
  have rr : ∀ d ∈ D edge, rev (rev d) = d := by
    intro d hd
    rw [mem_D] at hd
    obtain ⟨e, o⟩ := d
    unfold rev
    simp only at hd
    rcases hd.2 with q | q <;> simp [q]
  have := const_of_faces h.consistent h.connected (f := fun d => decide (W d)) (by
    intro d hd
    rw [decide_eq_decide]
    exact ⟨back d hd, h1 d hd⟩) (by
    intro d hd
    rw [decide_eq_decide]
    refine ⟨fun q => ?_, h2 d hd⟩
    have := h2 _ (rev_mem hd) q
    rwa [rr d hd] at this) hs hd
  rw [decide_eq_decide] at this
  exact this.mp hW

/-- Two different crossings do not have the same edges in the same positions. -/
theorem crossings_differ (h : PlaneDiagram cross edge) {c d : Nat} (hc : c < cross.length) (hd : d < cross.length)
    (hne : c ≠ d) (he : Cmp.edges cross[c] = Cmp.edges cross[d]) : False := by
  have hC := h.consistent
  simp only [Cmp.edges, List.cons.injEq, and_true] at he
  have hat : ∀ k, cross[c].at k = cross[d].at k := by
    intro k
    rw [← Cross.at_mod, ← Cross.at_mod cross[d]]
    have : k % 4 < 4 := Nat.mod_lt _ (by decide)
    match k % 4, this with
    | 0, _ => exact he.1
    | 1, _ => exact he.2.1
    | 2, _ => exact he.2.2.1
    | 3, _ => exact he.2.2.2
  have hoth : ∀ k, k < 4 → oth cross edge (c, k) = (d, k) := by
    intro k hk
    have m1 : (c, k) ∈ P cross := mem_P.mpr ⟨hc, hk⟩
    have m2 : (d, k) ∈ P cross := mem_P.mpr ⟨hd, hk⟩
    have e1 := eslot_of_slot (p := (c, k)) (slot_of_lt hc hk)
    have e2 := eslot_of_slot (p := (d, k)) (slot_of_lt hd hk)
    rcases same_edge hC m1 m2 (e1.trans ((hat k).trans e2.symm)) with q | q
    · rw [Prod.mk.injEq] at q; omega
    · exact q.symm
  have hoth' : ∀ k, k < 4 → oth cross edge (d, k) = (c, k) := by
    intro k hk
    rw [← hoth k hk, oth_oth hC (mem_P.mpr ⟨hc, hk⟩)]
  -- where a side ends is the other end of the edge
  have hend : ∀ x ∈ D edge, endp edge x = oth cross edge (begp edge x) := by
    intro x hx
    have hx' := mem_D.mp hx
    unfold endp begp
    rcases hx'.2 with q | q
    · rw [if_pos q, if_pos q, oth_tl hC hx'.1]
    · rw [if_neg (by simp [q]), if_neg (by simp [q]), oth_hd hC hx'.1]
  have all : ∀ x ∈ D edge, (begp edge x).1 = c ∨ (begp edge x).1 = d := by
    have m0 : (c, 0) ∈ P cross := mem_P.mpr ⟨hc, Nat.zero_lt_succ _⟩
    intro x hx
    refine closed_all h (fun x => (begp edge x).1 = c ∨ (begp edge x).1 = d) ?_ ?_ (dartAt_mem hC m0) ?_ hx
    · intro x hx q
      rw [begp_nd hC hx, hend x hx]
      obtain ⟨-, hk⟩ := mem_P.mp (begp_mem hC hx).1
      rcases q with q | q
      · right
        rw [show begp edge x = (c, (begp edge x).2) from Prod.ext q rfl, hoth _ hk]
        rfl
      · left
        rw [show begp edge x = (d, (begp edge x).2) from Prod.ext q rfl, hoth' _ hk]
        rfl
    · intro x hx q
      rw [begp_rev hx, hend x hx]
      obtain ⟨-, hk⟩ := mem_P.mp (begp_mem hC hx).1
      rcases q with q | q
      · right
        rw [show begp edge x = (c, (begp edge x).2) from Prod.ext q rfl, hoth _ hk]
      · left
        rw [show begp edge x = (d, (begp edge x).2) from Prod.ext q rfl, hoth' _ hk]
    · left
      rw [begp_dartAt hC m0]
  have hI := injOn_nd hC
  -- the face starting at a place
  have ndAt : ∀ p ∈ P cross, nd cross edge (dartAt cross edge p) = dartAt cross edge (turn 3 (oth cross edge p)) := by
    intro p hp
    unfold nd
    rw [hend _ (dartAt_mem hC hp), begp_dartAt hC hp]
  have stepc : ∀ k, k < 4 → nd cross edge (dartAt cross edge (c, k)) = dartAt cross edge (d, (k + 3) % 4) := by
    intro k hk
    rw [ndAt _ (mem_P.mpr ⟨hc, hk⟩), hoth k hk]
    rfl
  have stepd : ∀ k, k < 4 → nd cross edge (dartAt cross edge (d, k)) = dartAt cross edge (c, (k + 3) % 4) := by
    intro k hk
    rw [ndAt _ (mem_P.mpr ⟨hd, hk⟩), hoth' k hk]
    rfl
  have self : ∀ x ∈ D edge, x = dartAt cross edge (begp edge x) := by
    intro x hx
    have hp := (begp_mem hC hx).1
    exact begp_inj hC hx (dartAt_mem hC hp) (begp_dartAt hC hp).symm
  have m0 : dartAt cross edge (c, 0) ∈ D edge := dartAt_mem hC (mem_P.mpr ⟨hc, Nat.zero_lt_succ _⟩)
  have m1 : dartAt cross edge (d, 0) ∈ D edge := dartAt_mem hC (mem_P.mpr ⟨hd, Nat.zero_lt_succ _⟩)
  refine three_faces h m0 m1 ?_
  intro x hx
  rw [hI.mem_cyc m0, hI.mem_cyc m1]
  have hk := (mem_P.mp (begp_mem hC hx).1).2
  rw [self x hx]
  have c1 := stepc 0 (by decide)
  have c2 := stepd 3 (by decide)
  have c3 := stepc 2 (by decide)
  have d1 := stepd 0 (by decide)
  have d2 := stepc 3 (by decide)
  have d3 := stepd 2 (by decide)
  simp only [Nat.zero_add, Nat.reduceMod, Nat.reduceAdd] at c1 c2 c3 d1 d2 d3
  have f1 : (nd cross edge)^[1] (dartAt cross edge (c, 0)) = dartAt cross edge (d, 3) := c1
  have f2 : (nd cross edge)^[2] (dartAt cross edge (c, 0)) = dartAt cross edge (c, 2) := by
    rw [Function.iterate_succ_apply', f1, c2]
  have f3 : (nd cross edge)^[3] (dartAt cross edge (c, 0)) = dartAt cross edge (d, 1) := by
    rw [Function.iterate_succ_apply', f2, c3]
  have g1 : (nd cross edge)^[1] (dartAt cross edge (d, 0)) = dartAt cross edge (c, 3) := d1
  have g2 : (nd cross edge)^[2] (dartAt cross edge (d, 0)) = dartAt cross edge (d, 2) := by
    rw [Function.iterate_succ_apply', g1, d2]
  have g3 : (nd cross edge)^[3] (dartAt cross edge (d, 0)) = dartAt cross edge (c, 1) := by
    rw [Function.iterate_succ_apply', g2, d3]
  rcases all x hx with q | q
  · rw [show begp edge x = (c, (begp edge x).2) from Prod.ext q rfl]
    match (begp edge x).2, hk with
    | 0, _ => exact Or.inl ⟨0, rfl⟩
    | 1, _ => exact Or.inr ⟨3, g3⟩
    | 2, _ => exact Or.inl ⟨2, f2⟩
    | 3, _ => exact Or.inr ⟨1, g1⟩
  · rw [show begp edge x = (d, (begp edge x).2) from Prod.ext q rfl]
    match (begp edge x).2, hk with
    | 0, _ => exact Or.inr ⟨0, rfl⟩
    | 1, _ => exact Or.inl ⟨3, f3⟩
    | 2, _ => exact Or.inr ⟨2, g2⟩
    | 3, _ => exact Or.inl ⟨1, f1⟩

/-- Opposite positions of a crossing hold different edges. -/
theorem facing (h : PlaneDiagram cross edge) {x : Cross} (hx : x ∈ cross) : x.e0 ≠ x.e2 ∧ x.e1 ≠ x.e3 := by
  obtain ⟨c, hc, rfl⟩ := List.getElem_of_mem hx
  constructor
  · intro he
    have s0 := slot_of_lt hc (show 0 < 4 by decide)
    have s2 := slot_of_lt hc (show 2 < 4 by decide)
    rw [show cross[c].at 2 = cross[c].e2 from rfl, ← he] at s2
    exact Regenerate.not_facing h s0 s2
  · intro he
    have s0 := slot_of_lt hc (show 1 < 4 by decide)
    have s2 := slot_of_lt hc (show 3 < 4 by decide)
    rw [show cross[c].at 3 = cross[c].e3 from rfl, ← he] at s2
    exact Regenerate.not_facing h s0 s2

/-- Sorted crossings of a plane diagram, each read from its canonical place, are canonical. -/
theorem canonical_of (h : PlaneDiagram cross edge) (hs : SortedCross cross)
    (hcan : ∀ x ∈ cross, ∃ y, x = canonorderCross y .pos) : Canonical cross where
  low := by
    intro x hx
    have := facing h hx
    exact ⟨fun q => this.1 q.1, fun q => this.2 q.1⟩
  rot := by
    intro x hx
    obtain ⟨y, rfl⟩ := hcan x hx
    have hf := facing h hx
    refine C17_canonorder_idempotent y .pos ?_
    -- `y` is a rotation of it
    have hy : ∀ k, y.at k ≠ y.at (k + 2) := by
      intro k hk
      unfold canonorderCross at hf
      simp only [reduceCtorEq, if_false, rotL] at hf
      generalize rdist y = r at hf
      have e1 : y.at k = y.at (k % 4) := (Cross.at_mod y k).symm
      have e2 : y.at (k + 2) = y.at ((k + 2) % 4) := (Cross.at_mod y _).symm
      have a0 : y.at r = y.at (r % 4) := (Cross.at_mod y r).symm
      have a1 : y.at (1 + r) = y.at ((1 + r) % 4) := (Cross.at_mod y _).symm
      have a2 : y.at (2 + r) = y.at ((2 + r) % 4) := (Cross.at_mod y _).symm
      have a3 : y.at (3 + r) = y.at ((3 + r) % 4) := (Cross.at_mod y _).symm
      rw [a0, a1, a2, a3] at hf
      rw [e1, e2] at hk
      have hr : r % 4 < 4 := Nat.mod_lt _ (by decide)
      have hk4 : k % 4 < 4 := Nat.mod_lt _ (by decide)
      have b1 : (1 + r) % 4 = (1 + r % 4) % 4 := by omega
      have b2 : (2 + r) % 4 = (2 + r % 4) % 4 := by omega
      have b3 : (3 + r) % 4 = (3 + r % 4) % 4 := by omega
      have c2 : (k + 2) % 4 = (k % 4 + 2) % 4 := by omega
      rw [b1, b2, b3] at hf
      rw [c2] at hk
      generalize r % 4 = r' at *
      generalize k % 4 = k' at *
      interval_cases r' <;> interval_cases k' <;> simp_all
    have h0 := hy 0
    have h1 := hy 1
    exact ⟨fun q => h0 q.1, fun q => h1 q.1⟩
  strict := by
    unfold SortedCross at hs
    rw [List.pairwise_iff_getElem] at hs ⊢
    intro i j hi hj hij
    have := hs i j hi hj hij
    rw [not_lt] at this
    refine lt_of_le_of_ne this ?_
    intro q
    exact crossings_differ h hi hj (by omega) q

/-- Sides of a face are reached from its first one. -/
theorem sides_reach (h : PlaneDiagram cross edge) {F : List Face} (hF : GoodFaces cross edge F) {f : Face} (hf : f ∈ F)
    {s : Dart} (hs : (sides f)[0]? = some s) {d : Dart} (hd : d ∈ sides f) : d ∈ cyc (nd cross edge) s := by
  have hC := h.consistent
  have hI := injOn_nd hC
  have hsD := Shape.sides_mem hF hf (List.mem_of_getElem? hs)
  rw [hI.mem_cyc hsD]
  have hlen := Shape.sides_length hF hf
  have key : ∀ j, j < f.edge.length → (sides f)[j]? = some ((nd cross edge)^[j] s) := by
    intro j
    induction j with
    | zero => intro _; exact hs
    | succ j ih =>
      intro hj
      obtain ⟨t, t1, t2⟩ := hF.turn f hf j _ (ih (by omega))
      rw [Nat.mod_eq_of_lt hj] at t1
      rw [t1, Function.iterate_succ_apply', ((turns_iff hC _ _).mp t2).2]
  obtain ⟨j, hj⟩ := List.mem_iff_getElem?.mp hd
  have hlt := (List.getElem?_eq_some_iff.mp hj).1
  have := key j (by omega)
  rw [hj, Option.some.injEq] at this
  exact ⟨j, this.symm⟩

/-- No two faces have the same edges. -/
theorem faces_differ (h : PlaneDiagram cross edge) {F : List Face} (hF : GoodFaces cross edge F) {i j : Nat} {f g : Face}
    (hi : F[i]? = some f) (hj : F[j]? = some g) (hne : i ≠ j) (he : ∀ e, e ∈ f.edge ↔ e ∈ g.edge) : False := by
  have hC := h.consistent
  have hfF := List.mem_of_getElem? hi
  have hgF := List.mem_of_getElem? hj
  have hnod : (F.map sides).flatten.Nodup := by
    rw [← List.flatMap_def]
    exact hF.all.nodup_iff.mpr (Shape.allSides_nodup _)
  have disj : ∀ d, d ∈ sides f → d ∉ sides g := by
    intro d h1 h2
    exact hne (Cycles.flat_unique hnod (by rw [List.getElem?_map, hi]; rfl) (by rw [List.getElem?_map, hj]; rfl) h1 h2)
  have memE : ∀ (k : Face), k ∈ F → ∀ e, e ∈ k.edge ↔ ∃ o, (e, o) ∈ sides k := by
    intro k hk e
    have : k.edge = (sides k).map Prod.fst := by
      rw [sides, List.map_fst_zip (hF.shape k hk).1.le]
    rw [this, List.mem_map]
    constructor
    · rintro ⟨⟨a, o⟩, q, rfl⟩; exact ⟨o, q⟩
    · rintro ⟨o, q⟩; exact ⟨(e, o), q, rfl⟩
  have other : ∀ (k l : Face), k ∈ F → l ∈ F → (∀ d, d ∈ sides k → d ∉ sides l) → (∀ e, e ∈ k.edge → e ∈ l.edge) →
      ∀ d ∈ sides k, rev d ∈ sides l := by
    intro k l hk hl hd hsub d hdk
    obtain ⟨e, o⟩ := d
    obtain ⟨o', ho'⟩ := (memE l hl e).mp (hsub e ((memE k hk e).mpr ⟨o, hdk⟩))
    have m1 := (mem_D.mp (Shape.sides_mem hF hk hdk)).2
    have m2 := (mem_D.mp (Shape.sides_mem hF hl ho')).2
    have hoo : o ≠ o' := fun q => hd _ hdk (by rw [q]; exact ho')
    unfold rev
    simp only at m1 m2 ⊢
    rcases m1 with rfl | rfl <;> rcases m2 with rfl | rfl
    · exact absurd rfl hoo
    · exact ho'
    · exact ho'
    · exact absurd rfl hoo
  have next : ∀ (k : Face), k ∈ F → ∀ d ∈ sides k, nd cross edge d ∈ sides k := by
    intro k hk d hd
    obtain ⟨m, hm⟩ := List.mem_iff_getElem?.mp hd
    obtain ⟨t, t1, t2⟩ := hF.turn k hk m d hm
    rw [((turns_iff hC _ _).mp t2).2]
    exact List.mem_of_getElem? t1
  have first : ∀ (k : Face), k ∈ F → ∃ s, (sides k)[0]? = some s := by
    intro k hk
    have h1 := Shape.sides_length hF hk
    have h2 := List.length_pos_iff.mpr (hF.shape k hk).2
    exact ⟨_, List.getElem?_eq_getElem (by omega)⟩
  obtain ⟨s, hs⟩ := first f hfF
  obtain ⟨t, ht⟩ := first g hgF
  have hsm := List.mem_of_getElem? hs
  have htm := List.mem_of_getElem? ht
  refine three_faces h (Shape.sides_mem hF hfF hsm) (Shape.sides_mem hF hgF htm) ?_
  intro d hd
  have := closed_all h (fun d => d ∈ sides f ∨ d ∈ sides g)
    (by
      rintro d - (q | q)
      · exact Or.inl (next f hfF d q)
      · exact Or.inr (next g hgF d q))
    (by
      rintro d - (q | q)
      · exact Or.inr (other f g hfF hgF disj (fun e => (he e).mp) d q)
      · exact Or.inl (other g f hgF hfF (fun d h1 h2 => disj d h2 h1) (fun e => (he e).mpr) d q))
    (Shape.sides_mem hF hfF hsm) (Or.inl hsm) hd
  rcases this with q | q
  · exact Or.inl (sides_reach h hF hfF hs q)
  · exact Or.inr (sides_reach h hF hgF ht q)

/-- An edge is at most once on a face. -/
theorem face_nodup (h : PlaneDiagram cross edge) {F : List Face} (hF : GoodFaces cross edge F) {f : Face} (hf : f ∈ F) :
    f.edge.Nodup := by
  have hC := h.consistent
  have hI := injOn_nd hC
  have h1 : f.edge = (sides f).map Prod.fst := by
    rw [sides, List.map_fst_zip (hF.shape f hf).1.le]
  have hn : (sides f).Nodup := by
    have := hF.all.nodup_iff.mpr (Shape.allSides_nodup _)
    rw [List.flatMap_def, List.nodup_flatten] at this
    exact this.1 _ (List.mem_map_of_mem hf)
  rw [h1]
  refine List.Nodup.map_on ?_ hn
  rintro ⟨x, o⟩ hx ⟨y, o'⟩ hy (rfl : x = y)
  have mx := mem_D.mp (Shape.sides_mem hF hf hx)
  have my := mem_D.mp (Shape.sides_mem hF hf hy)
  have hl := List.length_pos_iff.mpr (List.ne_nil_of_mem hx)
  have hs := List.getElem?_eq_getElem (l := sides f) (i := 0) hl
  generalize (sides f)[0] = s at hs
  have hsD := Shape.sides_mem hF hf (List.mem_of_getElem? hs)
  have r1 := (hI.mem_cyc hsD).mp (sides_reach h hF hf hs hx)
  have r2 := (hI.mem_cyc hsD).mp (sides_reach h hF hf hs hy)
  have both : ∀ a b : Dart, a ∈ D edge → (∃ k, (nd cross edge)^[k] s = a) → (∃ k, (nd cross edge)^[k] s = b) →
      b ∈ cyc (nd cross edge) a := by
    intro a b ha h1 h2
    rw [hI.mem_cyc ha]
    exact reach_trans (hI.reach_symm hsD h1) h2
  have hd := sides_differ hC h.oriented h.connected h.plane (e := x) mx.1
  simp only at mx my
  rcases mx.2 with rfl | rfl <;> rcases my.2 with rfl | rfl
  · rfl
  · exact absurd (both _ _ (mem_D.mpr ⟨mx.1, Or.inl rfl⟩) r1 r2) hd
  · exact absurd (both _ _ (mem_D.mpr ⟨mx.1, Or.inl rfl⟩) r2 r1) hd
  · rfl

end Plc.Distinct
