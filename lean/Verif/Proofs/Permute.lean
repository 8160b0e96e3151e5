import Verif.Spec.Permute
import Verif.Props.Polytope
import Mathlib.Algebra.BigOperators.Group.List.Basic

/-! # Permutation of the edges: lemmas -/

namespace Plc.Embed

open Plc.Core Plc.FindCrossings Plc.RandomPolygon Plc.Equilateral Plc.Motions Plc.Measure Plc.Tri

/-- The sum of vectors. -/
noncomputable def vsum (l : List V3) : V3 := ⟨(l.map (·.x)).sum, (l.map (·.y)).sum, (l.map (·.z)).sum⟩

theorem vsum_perm {l l' : List V3} (h : l.Perm l') : vsum l = vsum l' := by
  unfold vsum
  rw [(h.map _).sum_eq, (h.map _).sum_eq, (h.map _).sum_eq]

theorem vsum_cons (a : V3) (l : List V3) : vsum (a :: l) = add a (vsum l) := by simp [vsum, add]

theorem vsum_append (l l' : List V3) : vsum (l ++ l') = add (vsum l) (vsum l') := by simp [vsum, add]

theorem sumLoop_length : ∀ (es : List V3) (v : V3), (sumLoop v es).length = es.length
  | [], _ => rfl
  | e :: es, v => by simp [sumLoop, sumLoop_length es]

theorem sumLoop_get : ∀ (es : List V3) (v : V3) (i : Nat), i < es.length → (sumLoop v es)[i]? = some (add v (vsum (es.take i)))
  | [], _, _, h => by simp at h
  | e :: es, v, 0, _ => by simp [sumLoop, vsum, add]
  | e :: es, v, i + 1, h => by
    simp only [sumLoop, List.getElem?_cons_succ, List.take_succ_cons, vsum_cons]
    rw [sumLoop_get es _ i (by simpa using h)]
    congr 1
    unfold add
    refine V3.ext' ?_ ?_ ?_ <;> simp only <;> ring

theorem telescope (f : Nat → ℝ) (m : Nat) : ((List.range m).map (fun i => f (i + 1) - f i)).sum = f m - f 0 := by
  induction m with
  | zero => simp
  | succ m ih => rw [List.range_succ, List.map_append, List.sum_append, ih]; simp

theorem telescope_mod (f : Nat → ℝ) (n : Nat) : ((List.range n).map (fun i => f ((i + 1) % n) - f i)).sum = 0 := by
  rcases n with _ | m
  · simp
  · rw [List.range_succ, List.map_append, List.sum_append]
    have : (List.range m).map (fun i => f ((i + 1) % (m + 1)) - f i) = (List.range m).map (fun i => f (i + 1) - f i) := by
      refine List.map_congr_left (fun i hi => ?_)
      rw [List.mem_range] at hi
      rw [Nat.mod_eq_of_lt (by omega)]
    rw [this, telescope]
    simp

theorem vsum_edges (vt : List V3) : vsum (edgeVectors vt) = ⟨0, 0, 0⟩ := by
  unfold vsum edgeVectors
  simp only [List.map_map, Function.comp_def, V3.sub]
  rw [telescope_mod (fun i => ((vt[i]?).getD ⟨0, 0, 0⟩).x), telescope_mod (fun i => ((vt[i]?).getD ⟨0, 0, 0⟩).y), telescope_mod (fun i => ((vt[i]?).getD ⟨0, 0, 0⟩).z)]

theorem mapM_ok {α β : Type} {f : α → Res β} {g : α → β} : ∀ (l : List α), (∀ a ∈ l, f a = .ok (g a)) → l.mapM f = .ok (l.map g)
  | [], _ => rfl
  | a :: l, h => by
    rw [List.mapM_cons, h a (by simp), ok_bind, mapM_ok l (fun b hb => h b (by simp [hb])), ok_bind]
    rfl

theorem edgeSet_ok {n : Nat} {vt : List V3} (h : vt.length = n) : edgeSet n vt = .ok (edgeVectors vt) := by
  subst h
  refine mapM_ok _ ?_
  intro i hi
  rw [List.mem_range] at hi
  have h2 : (i + 1) % vt.length < vt.length := Nat.mod_lt _ (by omega)
  rw [rd_lt h2, ok_bind, rd_lt hi, ok_bind, List.getElem?_eq_getElem hi, List.getElem?_eq_getElem h2]
  rfl

/-- The polygon with the edges given, if they close up. -/
theorem edges_sumLoop {es : List V3} (h : vsum es = ⟨0, 0, 0⟩) : edgeVectors (sumLoop ⟨0, 0, 0⟩ es) = es := by
  have hz : ∀ v : V3, add ⟨0, 0, 0⟩ v = v := by intro v; simp [add]
  refine List.ext_getElem? (fun i => ?_)
  unfold edgeVectors
  rw [sumLoop_length, List.getElem?_map]
  by_cases hi : i < es.length
  · rw [List.getElem?_eq_getElem (by simpa using hi), List.getElem_range, Option.map_some, sumLoop_get es _ i hi, List.getElem?_eq_getElem hi]
    congr 1
    by_cases hl : i + 1 < es.length
    · rw [Nat.mod_eq_of_lt hl, sumLoop_get es _ (i + 1) hl, List.take_succ_eq_append_getElem hi, vsum_append, hz, hz]
      unfold vsum add V3.sub
      refine V3.ext' ?_ ?_ ?_ <;> simp
    · have hn : i + 1 = es.length := by omega
      rw [hn, Nat.mod_self, sumLoop_get es _ 0 (by omega), hz, hz]
      have hs : vsum es = add (vsum (es.take i)) es[i] := by
        have : es = es.take i ++ [es[i]] := by
          rw [← List.take_succ_eq_append_getElem hi, hn, List.take_length]
        conv_lhs => rw [this]
        rw [vsum_append]
        unfold vsum add
        refine V3.ext' ?_ ?_ ?_ <;> simp
      rw [h] at hs
      have hx := congrArg V3.x hs
      have hy := congrArg V3.y hs
      have hzz := congrArg V3.z hs
      simp only [add] at hx hy hzz
      have e0 : vsum (es.take 0) = ⟨0, 0, 0⟩ := by simp [vsum]
      rw [e0]
      unfold V3.sub
      refine V3.ext' ?_ ?_ ?_ <;> simp only [Option.getD_some] <;> linarith
  · rw [List.getElem?_eq_none (by simpa using hi), List.getElem?_eq_none (by omega)]
    rfl

/-- The length of a vector. -/
noncomputable def len (v : V3) : ℝ := apart v ⟨0, 0, 0⟩

theorem apart_len (p q : V3) : apart p q = len (q.sub p) := by
  unfold len
  rw [apart_comm, apart_dot, apart_dot]
  congr 1
  simp [V3.sub, V3.dot]

/-- The lengths of the edges. -/
theorem lengths_edges {T : Triangulation} (hT : Proper T) {vt : List V3} (hv : vt.length = T.edges.length) :
    computeLengths vt T.edges = .ok ((edgeVectors vt).map len) := by
  refine computeLengths_ok _ _ (by simp [edgeVectors, hv]) ?_
  intro k a b hk
  have hi := (List.getElem?_eq_some_iff.mp hk).1
  rw [hT.edges k hi] at hk
  simp only [Option.some.injEq, Prod.mk.injEq] at hk
  obtain ⟨rfl, rfl⟩ := hk
  have hi1 : k < vt.length := by rw [hv]; exact hi
  have hi2 : (k + 1) % T.edges.length < vt.length := by rw [hv]; exact Nat.mod_lt _ (by omega)
  refine ⟨_, _, List.getElem?_eq_getElem hi1, List.getElem?_eq_getElem hi2, ?_⟩
  unfold edgeVectors
  rw [List.getElem?_map, List.getElem?_map, List.getElem?_eq_getElem (by simpa using hi1), List.getElem_range, hv, Option.map_some, Option.map_some,
    List.getElem?_eq_getElem hi1, List.getElem?_eq_getElem hi2, apart_len]
  rfl

/-! ## The dihedral angles are computed, whatever the polygon -/

/-- The vertices named exist. -/
def Small (n : Nat) (d : Dihedral) : Prop := d.a0 < n ∧ d.a1 < n ∧ d.a2 < n ∧ d.b2 < n

theorem anglesLoop_total {n : Nat} {vt : List V3} (hv : vt.length = n) : ∀ (ds : List Dihedral), (∀ d ∈ ds, Small n d) →
    ∃ rs, anglesLoop vt ds = .ok rs ∧ rs.length = ds.length
  | [], _ => ⟨[], rfl, rfl⟩
  | d :: ds, h => by
    obtain ⟨h0, h1, h2, h3⟩ := h d (by simp)
    obtain ⟨rs, e1, e2⟩ := anglesLoop_total hv ds (fun x hx => h x (by simp [hx]))
    have hd : ∀ A B C D : V3, ∃ r, dihedralAngle A B C D = .ok r := by
      intro A B C D
      unfold dihedralAngle
      split
      · dsimp only
        split
        · exact ⟨_, rfl⟩
        · split
          · exact ⟨_, rfl⟩
          · split <;> exact ⟨_, rfl⟩
      · exact ⟨_, rfl⟩
    obtain ⟨r, hr⟩ := hd (vt[d.a1]'(by omega)) (vt[d.a2]'(by omega)) (vt[d.a0]'(by omega)) (vt[d.b2]'(by omega))
    refine ⟨(if r.2 then r.1 else 0, r.2) :: rs, ?_, ?_⟩
    · unfold anglesLoop
      rw [rd_lt (by omega), ok_bind, rd_lt (by omega), ok_bind, rd_lt (by omega), ok_bind, rd_lt (by omega), ok_bind, hr, ok_bind, e1, ok_bind]
    · simp [e2]

theorem branch_total {T : Triangulation} {n : Nat} {c : CRef} {s : Option Nat} {u w : Nat} {xs : List Nat} {cs : List CRef} (h : Behind T c s u w xs cs) :
    u < n → w < n → (∀ x ∈ xs, x < n) → ∀ (t : Triangle) (first : Bool) (ds : List Dihedral) (f a : Nat), a < n →
      (∀ (d : Triangle) (x y z : Nat), vertChord T true d.d1 = .ok x → vertChord T false d.d0 = .ok y → vertChord T true d.d0 = .ok z →
        entry T t d first = .ok ⟨u, w, a, x, y, z⟩) →
      ds.length = T.diags.length → (∀ d ∈ ds, Small n d) → xs.length ≤ f →
      ∃ ds', branch T f t first s c ds = .ok ds' ∧ ds'.length = T.diags.length ∧ ∀ d ∈ ds', Small n d := by
  induction h with
  | edge k u w h =>
    intro _ _ _ t first ds f a _ _ hl hs _
    exact ⟨ds, rfl, hl, hs⟩
  | diag k u v w s t xs ys cs1 cs2 g1 g2 g3 g4 g5 ih4 ih5 =>
    intro hu hw hx t' first ds f a ha hent hl hs hfu
    have hv := hx v (by simp)
    rcases f with _ | f
    · simp at hfu
    simp only [List.length_append, List.length_cons] at hfu
    obtain ⟨x0, x1⟩ := vert_ends g4.ends
    obtain ⟨y0, y1⟩ := vert_ends g5.ends
    have hk : k < ds.length := by rw [hl]; exact (List.getElem?_eq_some_iff.mp g1).1
    obtain ⟨d1, e1, e2, e3⟩ := ih4 hu hv (fun x hx' => hx x (by simp [hx'])) t true (ds.set k ⟨u, w, a, w, u, v⟩) f w hw (by
        intro d x y z i1 i2 i3
        unfold entry
        rw [y1, x0, x1, i1, i2, i3]; rfl) (by simpa using hl) (by
        intro d hd
        rcases List.mem_or_eq_of_mem_set hd with hd | rfl
        · exact hs d hd
        · exact ⟨hu, hw, ha, hv⟩) (by omega)
    obtain ⟨d2, q1, q2, q3⟩ := ih5 hv hw (fun x hx' => hx x (by simp [hx'])) t false d1 f u hu (by
        intro d x y z i1 i2 i3
        unfold entry
        rw [y1, x0, x1, i1, i2, i3]; rfl) e2 e3 (by omega)
    refine ⟨d2, ?_, q2, q3⟩
    show (do
      assertC true
      let d ← rd T.triangles s
      let e ← entry T t' d first
      let ds ← wr ds k e
      dihedralsWorker T (f + 1) s ds) = _
    rw [assertC_ok rfl, ok_bind, rd_eq_ok.mpr g2, ok_bind, hent t w u v y1 x0 x1, ok_bind, wr_lt hk, ok_bind, worker_branch, rd_eq_ok.mpr g2, ok_bind, e1, ok_bind, q1]

/-- The angles are computed for every polygon. -/
theorem dihedrals_total {T : Triangulation} (hT : Proper T) {vt : List V3} (hv : vt.length = T.edges.length) :
    ∃ rs, computeDihedrals T vt = .ok rs ∧ rs.length = T.diags.length := by
  obtain ⟨t, a, b, c, k, xs, ys, cs, ds, ht, hp, hk, h0, h1, hnd, hall, hcs, hev⟩ := hT.tree
  have hlen : (a :: b :: (xs ++ c :: ys)).length = T.edges.length := by
    have hperm : (a :: b :: (xs ++ c :: ys)).Perm (List.range T.edges.length) := by
      rw [List.perm_ext_iff_of_nodup hnd List.nodup_range]
      intro i
      rw [hall i, List.mem_range]
    rw [hperm.length_eq, List.length_range]
  simp only [List.length_cons, List.length_append] at hlen
  have hcount := hT.count
  obtain ⟨f, hf⟩ : ∃ f, T.triangles.length = f + 1 := ⟨T.triangles.length - 1, by have := (List.getElem?_eq_some_iff.mp ht).1; omega⟩
  have ha := (hall a).mp (by simp)
  have hb := (hall b).mp (by simp)
  have hc := (hall c).mp (by simp)
  obtain ⟨x0, x1⟩ := vert_ends h0.ends
  obtain ⟨y0, y1⟩ := vert_ends h1.ends
  obtain ⟨d1, e1, e2, e3⟩ := branch_total h0 hb hc (fun x hx => (hall x).mp (by simp [hx])) t true (List.replicate T.diags.length ⟨0, 0, 0, 0, 0, 0⟩) f a ha (by
      intro d x y z i1 i2 i3
      unfold entry
      rw [y1, x0, x1, i1, i2, i3]; rfl) (by simp) (by
      intro d hd
      rw [(List.mem_replicate.mp hd).2]
      have hz : 0 < T.edges.length := by omega
      exact ⟨hz, hz, hz, hz⟩) (by omega)
  obtain ⟨d2, q1, q2, q3⟩ := branch_total h1 hc ha (fun x hx => (hall x).mp (by simp [hx])) t false d1 f b hb (by
      intro d x y z i1 i2 i3
      unfold entry
      rw [y1, x0, x1, i1, i2, i3]; rfl) e2 e3 (by omega)
  obtain ⟨rs, r1, r2⟩ := anglesLoop_total hv d2 q3
  refine ⟨rs, ?_, by rw [r2, q2]⟩
  unfold computeDihedrals
  rw [hf, worker_branch, rd_eq_ok.mpr ht, ok_bind, e1, ok_bind, q1, ok_bind, r1]

end Plc.Embed
