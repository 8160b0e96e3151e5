import Verif.Model.Vertex
import Verif.Proofs.Basic
import Batteries.Lean.Except

/-! # C45: flat vertex numbers and (component, vertex) pairs correspond -/

namespace Plc

open Plc.Vtx

namespace Vtx

/-- The pair is a vertex of the curve. -/
def IsVertex (l : List Strand) (cp : Nat) (vt : Int) : Prop := ∃ s, l[cp]? = some s ∧ 0 ≤ vt ∧ vt < s.nv

theorem numVerts_nonneg (l : List Strand) : 0 ≤ numVerts l := by
  induction l with
  | nil => exact Int.le_refl _
  | cons s t ih => rw [numVerts]; omega

theorem numVerts_take (l : List Strand) (cp : Nat) (s : Strand) (h : l[cp]? = some s) :
    numVerts (l.take cp) + s.nv ≤ numVerts l := by
  induction l generalizing cp with
  | nil => simp at h
  | cons a t ih =>
    cases cp with
    | zero =>
      simp only [List.getElem?_cons_zero, Option.some.injEq] at h
      subst h
      simp only [List.take_zero, numVerts]
      have := numVerts_nonneg t
      omega
    | succ cp =>
      simp only [List.getElem?_cons_succ] at h
      simp only [List.take_succ_cons, numVerts]
      have := ih cp h
      omega

theorem loops_of (l : List Strand) (cp : Nat) (s : Strand) (vt : Int) (h : l[cp]? = some s) (h0 : 0 ≤ vt) (h1 : vt < s.nv)
    (i : Nat) : cpLoop l i (vt + numVerts (l.take cp)) = .ok (i + cp) ∧ vtLoop l (vt + numVerts (l.take cp)) = .ok vt := by
  induction l generalizing cp i with
  | nil => simp at h
  | cons a t ih =>
    cases cp with
    | zero =>
      simp only [List.getElem?_cons_zero, Option.some.injEq] at h
      subst h
      simp only [List.take_zero, numVerts, cpLoop, vtLoop]
      rw [if_pos (by omega), if_pos (by omega)]
      simp
    | succ cp =>
      simp only [List.getElem?_cons_succ] at h
      simp only [List.take_succ_cons, numVerts, cpLoop, vtLoop]
      have hn := numVerts_nonneg (t.take cp)
      obtain ⟨h2, h3⟩ := ih cp h (i + 1)
      rw [if_neg (by omega), if_neg (by omega),
        show vt + ((a.nv : Int) + numVerts (t.take cp)) - a.nv = vt + numVerts (t.take cp) by omega, h2, h3]
      exact ⟨by rw [show i + 1 + cp = i + (cp + 1) by omega], rfl⟩

theorem exists_pair (l : List Strand) (n : Int) (h0 : 0 ≤ n) (h1 : n < numVerts l) :
    ∃ cp vt, IsVertex l cp vt ∧ n = vt + numVerts (l.take cp) := by
  induction l generalizing n with
  | nil => simp only [numVerts] at h1; omega
  | cons a t ih =>
    by_cases hn : n < a.nv
    · exact ⟨0, n, ⟨a, rfl, h0, hn⟩, by simp [numVerts]⟩
    · simp only [numVerts] at h1
      obtain ⟨cp, vt, ⟨s, hs, hv⟩, e⟩ := ih (n - a.nv) (by omega) (by omega)
      refine ⟨cp + 1, vt, ⟨s, hs, hv⟩, ?_⟩
      simp only [List.take_succ_cons, numVerts]
      omega

theorem addUp_spec (nv : Nat) (h : 0 < nv) (r : Nat) (w : Int) (hr : -w ≤ r) :
    0 ≤ addUp nv r w ∧ ∃ k : Nat, addUp nv r w = w + k * nv := by
  induction r generalizing w with
  | zero => rw [addUp]; exact ⟨by omega, 0, by simp⟩
  | succ r ih =>
    rw [addUp]
    split
    · obtain ⟨h1, k, h2⟩ := ih (w + nv) (by omega)
      refine ⟨h1, k + 1, ?_⟩
      rw [h2, Int.natCast_add, Int.add_mul]
      omega
    · exact ⟨by omega, 0, by simp⟩

theorem wrap_closed (s : Strand) (vt : Int) (ho : s.isOpen = false) (h : 0 < s.nv) : wrapVt s vt = .ok (vt % s.nv) := by
  rw [wrapVt, if_neg (by simp [ho]), if_neg (by omega)]
  obtain ⟨h1, k, h2⟩ := addUp_spec s.nv h (-vt).toNat vt (by omega)
  rw [Int.tmod_eq_emod_of_nonneg h1, h2, Int.add_mul_emod_self_right]

theorem wrap_in (s : Strand) (vt : Int) (h0 : 0 ≤ vt) (h1 : vt < s.nv) : wrapVt s vt = .ok vt := by
  cases ho : s.isOpen with
  | true => rw [wrapVt, if_pos ho, if_neg (by omega), if_neg (by omega)]
  | false => rw [wrap_closed s vt ho (by omega), Int.emod_eq_of_lt h0 h1]

theorem vertexNum_eq (l : List Strand) (cp : Nat) (vt w : Int) (s : Strand) (h : l[cp]? = some s) (hw : wrapVt s vt = .ok w) :
    vertexNum l cp vt = .ok (w + numVerts (l.take cp)) := by
  rw [vertexNum, rd, h]
  simp only [ok_bind, hw]

end Vtx

/-- **C45, pairs to numbers and back.** Every vertex of the curve has a number in `0..num_verts-1`, from which
`plc_cp_num` and `plc_vt_num` give the pair back. -/
theorem C45_pair (l : List Strand) (cp : Nat) (vt : Int) (h : IsVertex l cp vt) :
    ∃ n, vertexNum l cp vt = .ok n ∧ 0 ≤ n ∧ n < numVerts l ∧ cpNum l n = .ok cp ∧ vtNum l n = .ok vt := by
  obtain ⟨s, hs, h0, h1⟩ := h
  refine ⟨_, vertexNum_eq l cp vt vt s hs (wrap_in s vt h0 h1), ?_⟩
  have ha := numVerts_take l cp s hs
  have hb := numVerts_nonneg (l.take cp)
  have hlt : vt + numVerts (l.take cp) < numVerts l := by omega
  obtain ⟨hc, hv⟩ := loops_of l cp s vt hs h0 h1 0
  refine ⟨by omega, hlt, ?_, ?_⟩
  · rw [cpNum, assertC_ok (decide_eq_true hlt), ok_bind, hc, Nat.zero_add]
  · rw [vtNum, assertC_ok (decide_eq_true hlt), ok_bind, hv]

/-- **C45, numbers to pairs and back.** Every number in `0..num_verts-1` is the number of the vertex that
`plc_cp_num` and `plc_vt_num` give for it. -/
theorem C45_number (l : List Strand) (n : Int) (h0 : 0 ≤ n) (h1 : n < numVerts l) :
    ∃ cp vt, cpNum l n = .ok cp ∧ vtNum l n = .ok vt ∧ IsVertex l cp vt ∧ vertexNum l cp vt = .ok n := by
  obtain ⟨cp, vt, hv, e⟩ := exists_pair l n h0 h1
  obtain ⟨s, hs, h2, h3⟩ := id hv
  obtain ⟨n', a, -, -, b, c⟩ := C45_pair l cp vt hv
  have hn : vertexNum l cp vt = .ok n := by
    rw [e]
    exact vertexNum_eq l cp vt vt s hs (wrap_in s vt h2 h3)
  rw [hn] at a
  injection a with a
  subst a
  exact ⟨cp, vt, b, c, hv, hn⟩

/-- **C45, the numbers are different.** -/
theorem C45_injective (l : List Strand) (cp cp' : Nat) (vt vt' : Int) (h : IsVertex l cp vt) (h' : IsVertex l cp' vt')
    (e : vertexNum l cp vt = vertexNum l cp' vt') : cp = cp' ∧ vt = vt' := by
  obtain ⟨n, a, -, -, b, c⟩ := C45_pair l cp vt h
  obtain ⟨n', a', -, -, b', c'⟩ := C45_pair l cp' vt' h'
  rw [a, a'] at e
  injection e with e
  subst e
  rw [b] at b'
  rw [c] at c'
  exact ⟨by injection b', by injection c'⟩

/-- **C45, wrapping.** On a closed component vertex numbers count around: adding any multiple of its number of vertices
changes nothing, so every number is that of a vertex of the component. -/
theorem C45_wrap (l : List Strand) (cp : Nat) (s : Strand) (hs : l[cp]? = some s) (ho : s.isOpen = false) (hn : 0 < s.nv)
    (vt : Int) :
    (∀ k : Int, vertexNum l cp (vt + k * s.nv) = vertexNum l cp vt) ∧
      ∃ vt', IsVertex l cp vt' ∧ vertexNum l cp vt = vertexNum l cp vt' := by
  refine ⟨?_, vt % s.nv, ⟨s, hs, ?_, ?_⟩, ?_⟩
  · intro k
    rw [vertexNum_eq l cp _ _ s hs (wrap_closed s _ ho hn), vertexNum_eq l cp _ _ s hs (wrap_closed s _ ho hn),
      Int.add_mul_emod_self_right]
  · exact Int.emod_nonneg _ (by omega)
  · exact Int.emod_lt_of_pos _ (by omega)
  · rw [vertexNum_eq l cp _ _ s hs (wrap_closed s _ ho hn), vertexNum_eq l cp _ _ s hs (wrap_closed s _ ho hn), Int.emod_emod]

/-- **C45, clamping.** On an open component every number below 0 means the first vertex and every number past the end
the last one. -/
theorem C45_clamp (l : List Strand) (cp : Nat) (s : Strand) (hs : l[cp]? = some s) (ho : s.isOpen = true) (hn : 0 < s.nv)
    (vt : Int) :
    (vt < 0 → vertexNum l cp vt = vertexNum l cp 0) ∧
      ((s.nv : Int) ≤ vt → vertexNum l cp vt = vertexNum l cp ((s.nv : Int) - 1)) := by
  constructor
  · intro h
    rw [vertexNum_eq l cp vt 0 s hs (by rw [wrapVt, if_pos ho, if_pos h]),
      vertexNum_eq l cp 0 0 s hs (wrap_in s 0 (by omega) (by omega))]
  · intro h
    rw [vertexNum_eq l cp vt ((s.nv : Int) - 1) s hs (by rw [wrapVt, if_pos ho, if_neg (by omega), if_pos (by omega)]),
      vertexNum_eq l cp _ _ s hs (wrap_in s ((s.nv : Int) - 1) (by omega) (by omega))]

/-- **C45, edges.** `plc_num_edges` counts the vertices that have a next vertex: all vertices of closed
components, all but the last of open ones. -/
theorem C45_edges (l : List Strand) (h : ∀ s ∈ l, 0 < s.nv) :
    numEdges l = ((l.map fun s => ((List.range s.nv).filter fun i => !s.isOpen || decide (i + 1 < s.nv)).length).sum : Nat) ∧
      numEdges l + (l.countP (·.isOpen) : Nat) = numVerts l := by
  induction l with
  | nil => exact ⟨rfl, rfl⟩
  | cons s t ih =>
    obtain ⟨i1, i2⟩ := ih (fun x hx => h x (by simp [hx]))
    have hs := h s (by simp)
    rw [List.countP_cons, numEdges, numVerts, List.map_cons, List.sum_cons]
    cases ho : s.isOpen
    · have : (List.range s.nv).filter (fun i => !false || decide (i + 1 < s.nv)) = List.range s.nv := by simp
      rw [this, List.length_range]
      simp only [Bool.false_eq_true, if_false]
      omega
    · obtain ⟨k, hk⟩ : ∃ k, s.nv = k + 1 := ⟨s.nv - 1, by omega⟩
      have : (List.range s.nv).filter (fun i => !true || decide (i + 1 < s.nv)) = List.range k := by
        rw [hk, List.range_succ, List.filter_append]
        have e1 : (List.range k).filter (fun i => !true || decide (i + 1 < k + 1)) = List.range k := by
          rw [List.filter_eq_self]
          intro a ha
          simpa using ha
        rw [e1]
        simp
      rw [this, List.length_range]
      simp only [if_true]
      omega

/-- An open component of 4 vertices, a closed one of 3 and an open one of 2. -/
example : vertexNum [⟨4, true⟩, ⟨3, false⟩, ⟨2, true⟩] 1 (-1) = .ok 6 ∧ vertexNum [⟨4, true⟩, ⟨3, false⟩, ⟨2, true⟩] 2 9 = .ok 8 ∧
    cpNum [⟨4, true⟩, ⟨3, false⟩, ⟨2, true⟩] 6 = .ok 1 ∧ vtNum [⟨4, true⟩, ⟨3, false⟩, ⟨2, true⟩] 6 = .ok 2 ∧
    numVerts [⟨4, true⟩, ⟨3, false⟩, ⟨2, true⟩] = 9 ∧ numEdges [⟨4, true⟩, ⟨3, false⟩, ⟨2, true⟩] = 7 := by decide

end Plc
