import Verif.Proofs.EmbedB

/-! # Polygons from lengths and dihedral angles -/

namespace Plc.Embed

open Plc.Core Plc.FindCrossings Plc.RandomPolygon Plc.Equilateral Plc.Motions Plc.Measure Plc.Tri

/-- **C94** For a triangulation of the polygon, lengths of edges and diagonals which are those of triangles, and any angles, the polygon
is made: it has as many vertices as edges, and edges and diagonals have the lengths given. -/
theorem C94_embed {T : Triangulation} {el dl da : List ℝ} (hT : Proper T) (hL : Sized T el dl) (hda : da.length = T.diags.length)
    (htri : ∀ t ∈ T.triangles, Closes el dl t) :
    ∃ vt : List V3, embed T el dl da = .ok (some vt) ∧ vt.length = T.edges.length ∧
      (∀ (i : Nat) (p q : V3), vt[i]? = some p → vt[(i + 1) % T.edges.length]? = some q → el[i]? = some (apart p q)) ∧
      ∀ (k a b : Nat), T.diags[k]? = some (a, b) → ∃ p q : V3, vt[a]? = some p ∧ vt[b]? = some q ∧ dl[k]? = some (apart p q) := by
  obtain ⟨t, a, b, c, k, xs, ys, cs, ds, ht, hp, hk, h0, h1, hnd, hall, hcs, hev⟩ := hT.tree
  have hcl := (closes_iff (el := el) (dl := dl) hT.count ht hp h0 h1 hnd hall hcs).mpr htri
  rcases embed_ok hL hda hT.count ht hp hk h0 h1 hnd hall with ⟨_, h⟩ | ⟨vt, e1, e2, e3, _⟩
  · exact absurd hcl h
  refine ⟨vt, e1, e2, ?_, ?_⟩
  · intro i p q hp hq
    have hi : i < T.edges.length := by rw [← e2]; exact (List.getElem?_eq_some_iff.mp hp).1
    have he : ends T ⟨false, i⟩ = some (i, (i + 1) % T.edges.length) := hT.edges i hi
    obtain ⟨x, y, g1, g2, g3⟩ := e3 _ (hev _ _ he) _ _ he
    rw [hp] at g1; cases g1
    rw [hq] at g2; cases g2
    rw [g3]
    rw [← hL.edges] at hi
    simp [lengthOf, List.getElem?_eq_getElem hi]
  · intro k a b hd
    have hi := (List.getElem?_eq_some_iff.mp hd).1
    have he : ends T ⟨true, k⟩ = some (a, b) := hd
    obtain ⟨x, y, g1, g2, g3⟩ := e3 _ (hev _ _ he) _ _ he
    refine ⟨x, y, g1, g2, ?_⟩
    rw [g3]
    rw [← hL.diags] at hi
    simp [lengthOf, List.getElem?_eq_getElem hi]

/-- **C94** The result is NULL exactly if there is a triangle whose sides do not obey the triangle inequalities. -/
theorem C94_no_polygon {T : Triangulation} {el dl da : List ℝ} (hT : Proper T) (hL : Sized T el dl) (hda : da.length = T.diags.length) :
    embed T el dl da = .ok none ↔ ∃ t ∈ T.triangles, ¬ Closes el dl t := by
  obtain ⟨t, a, b, c, k, xs, ys, cs, ds, ht, hp, hk, h0, h1, hnd, hall, hcs, hev⟩ := hT.tree
  have hcl := closes_iff (el := el) (dl := dl) hT.count ht hp h0 h1 hnd hall hcs
  rcases embed_ok hL hda hT.count ht hp hk h0 h1 hnd hall with ⟨e, h⟩ | ⟨vt, e1, _, _, _, h⟩
  · rw [hcl] at h
    push Not at h
    exact ⟨fun _ => h, fun _ => e⟩
  · refine ⟨fun h => ?_, fun ⟨t', x1, x2⟩ => absurd (hcl.mp h t' x1) x2⟩
    rw [e1] at h
    cases h

theorem computeLengths_ok {vt : List V3} : ∀ (chords : List Chord) (ls : List ℝ), chords.length = ls.length →
    (∀ (k a b : Nat), chords[k]? = some (a, b) → ∃ p q : V3, vt[a]? = some p ∧ vt[b]? = some q ∧ ls[k]? = some (apart p q)) → computeLengths vt chords = .ok ls
  | [], ls, hl, _ => by
    cases ls with
    | nil => rfl
    | cons => simp at hl
  | (a, b) :: cs, ls, hl, h => by
    cases ls with
    | nil => simp at hl
    | cons l ls =>
      obtain ⟨p, q, h1, h2, h3⟩ := h 0 a b rfl
      have ih := computeLengths_ok (vt := vt) cs ls (by simpa using hl) (fun k a b hk => by
        obtain ⟨p, q, g1, g2, g3⟩ := h (k + 1) a b (by simpa using hk)
        exact ⟨p, q, g1, g2, by simpa using g3⟩)
      unfold computeLengths
      rw [rd_eq_ok.mpr h1, rd_eq_ok.mpr h2, ok_bind, ok_bind, ih, ok_bind, dist3_eq]
      have : l = apart p q := by simpa using h3
      rw [this]

/-- **C94** The lengths computed from the polygon are those it was made from. -/
theorem C94_lengths_back {T : Triangulation} {el dl da : List ℝ} (hT : Proper T) (hL : Sized T el dl) (hda : da.length = T.diags.length) {vt : List V3}
    (h : embed T el dl da = .ok (some vt)) : computeLengths vt T.edges = .ok el ∧ computeLengths vt T.diags = .ok dl := by
  have htri : ∀ t ∈ T.triangles, Closes el dl t := by
    by_contra hc
    push Not at hc
    rw [(C94_no_polygon hT hL hda).mpr hc] at h
    cases h
  obtain ⟨vt', e1, e2, e3, e4⟩ := C94_embed hT hL hda htri
  rw [h] at e1
  cases e1
  refine ⟨computeLengths_ok _ _ hL.edges.symm ?_, computeLengths_ok _ _ hL.diags.symm e4⟩
  intro k a b hk
  have hi := (List.getElem?_eq_some_iff.mp hk).1
  rw [hT.edges k hi] at hk
  simp only [Option.some.injEq, Prod.mk.injEq] at hk
  obtain ⟨rfl, rfl⟩ := hk
  have hi1 : k < vt.length := by rw [e2]; exact hi
  have hi2 : (k + 1) % T.edges.length < vt.length := by rw [e2]; exact Nat.mod_lt _ (by omega)
  exact ⟨_, _, List.getElem?_eq_getElem hi1, List.getElem?_eq_getElem hi2, e3 k _ _ (List.getElem?_eq_getElem hi1) (List.getElem?_eq_getElem hi2)⟩

/-- **C94** The dihedral angle: if both triangles have some area, and the diagonal is not very short, the angle is defined, at least 0 and less than 2π,
and it is the angle by which the second triangle has to be turned around the diagonal to come to the side of the first one. -/
theorem C94_dihedral_angle {A B C D : V3} (hd : 1e-8 ≤ apart C A) (h1 : eps ^ 2 ≤ area4 (apart B C) (apart C A) (apart B A))
    (h2 : eps ^ 2 ≤ area4 (apart C D) (apart D A) (apart C A)) : ∃ theta, dihedralAngle A B C D = .ok (theta, true) ∧ FoldedBy A B C D theta := by
  rw [← area_cross (p0 := B) (p1 := A) (q := C) rfl rfl rfl] at h1
  rw [← area_cross (p0 := C) (p1 := A) (q := D) rfl rfl rfl] at h2
  have unit : ∀ {v : V3}, eps ^ 2 ≤ v.dot v → ∃ h n, eps ≤ h ∧ n.dot n = 1 ∧ v = V3.scale h n := by
    intro v hv
    have h0 : 0 ≤ v.dot v := le_trans (by positivity) hv
    have he : eps ≤ Real.sqrt (v.dot v) := Real.le_sqrt_of_sq_le hv
    have hpos := lt_of_lt_of_le eps_pos he
    refine ⟨Real.sqrt (v.dot v), V3.scale (1 / Real.sqrt (v.dot v)) v, he, (normalizeF_ok he (Real.sq_sqrt h0).symm).2, ?_⟩
    rw [scale_scale, mul_one_div, div_self hpos.ne', scale_one]
  obtain ⟨a1, n, b1, hn, c1⟩ := unit h1
  obtain ⟨a2, m, b2, hm, c2⟩ := unit h2
  have d0 : 0 < apart C A := lt_of_lt_of_le (by norm_num) hd
  obtain ⟨th, t1, t2, t3, t4⟩ := dihedral_core hn hm b1 b2 hd c1 c2 ((apart_sq_dot d0.le).mp rfl)
  have p1 := lt_of_lt_of_le eps_pos b1
  have p2 := lt_of_lt_of_le eps_pos b2
  refine ⟨th, t1, folded_by hn hm p1 p2 d0 c1 c2 rfl t2 t3 ?_ ?_ t4⟩
  · have h := cross_dot_right (B.sub A) (C.sub A)
    rw [c1] at h
    have : (V3.scale a1 n).dot (C.sub A) = a1 * n.dot (C.sub A) := by simp only [V3.dot, V3.scale]; ring
    rw [this] at h
    exact (mul_eq_zero.mp h).resolve_left p1.ne'
  · have h := cross_dot_left (C.sub A) (D.sub A)
    rw [c2] at h
    have : (V3.scale a2 m).dot (C.sub A) = a2 * m.dot (C.sub A) := by simp only [V3.dot, V3.scale]; ring
    rw [this] at h
    exact (mul_eq_zero.mp h).resolve_left p2.ne'

theorem normalizeF_small {v : V3} (h : v.dot v < eps ^ 2) : ∀ u, normalizeF v ≠ .ok (u, true) := by
  intro u hu
  have h0 : 0 ≤ v.dot v := by simp only [V3.dot]; nlinarith [sq_nonneg v.x, sq_nonneg v.y, sq_nonneg v.z]
  have hn : norm3 v < eps := by rw [norm3_dot, ← Real.sqrt_sq eps_pos.le]; exact Real.sqrt_lt_sqrt h0 h
  have hn0 : 0 ≤ norm3 v := Real.sqrt_nonneg _
  unfold normalizeF at hu
  obtain ⟨w, h1, h2⟩ := bind_ok_iff.mp hu
  have : decide (norm3 v < eps ∧ -norm3 v < eps) = true := by rw [decide_eq_true_iff]; exact ⟨hn, by linarith [eps_pos]⟩
  rw [this] at h2
  cases h2

/-- **C94** The angle is not defined if one of the triangles has nearly no area or the diagonal is very short. -/
theorem C94_dihedral_undefined {A B C D : V3} (h : apart C A < 1e-8 ∨ area4 (apart B C) (apart C A) (apart B A) < eps ^ 2 ∨
    area4 (apart C D) (apart D A) (apart C A) < eps ^ 2) : dihedralAngle A B C D = .ok (0, false) := by
  rw [← area_cross (p0 := B) (p1 := A) (q := C) rfl rfl rfl, ← area_cross (p0 := C) (p1 := A) (q := D) rfl rfl rfl] at h
  unfold dihedralAngle
  split
  · rename_i n1 n2 e1 e2
    rcases h with h | h | h
    · dsimp only
      rw [if_pos]
      rw [norm3_dot, ← apart_dot]; exact h
    · exact absurd e1 (normalizeF_small h n1)
    · exact absurd e2 (normalizeF_small h n2)
  · rfl

/-- **C94** The dihedral angles computed from the polygon are those it was made from, if they are in [0, 2π) and no triangle is too thin. -/
theorem C94_dihedrals_back {T : Triangulation} {el dl da : List ℝ} (hT : Proper T) (hL : Sized T el dl) (hda : da.length = T.diags.length) {vt : List V3}
    (hturn : ∀ x ∈ da, 0 ≤ x ∧ x < 2 * Real.pi)
    (hfat : ∀ t ∈ T.triangles, eps ^ 2 ≤ area4 (lengthOf el dl t.d0) (lengthOf el dl t.d1) (lengthOf el dl t.parent))
    (h : embed T el dl da = .ok (some vt)) : computeDihedrals T vt = .ok (da.map (fun x => (x, true))) := by
  obtain ⟨t, a, b, c, k, xs, ys, cs, ds, ht, hp, hk, h0, h1, hnd, hall, hcs, hev⟩ := hT.tree
  rcases embed_ok hL hda hT.count ht hp hk h0 h1 hnd hall with ⟨e, _⟩ | ⟨vt', e1, _, e3, e4, _⟩
  · rw [e] at h; cases h
  · rw [e1] at h
    cases h
    exact computeDihedrals_ok hL hda hfat hturn hT.count ht hp hk h0 h1 hnd hall hcs hev e3 e4

/-! ## A square folded along a diagonal -/

/-- The square with the diagonal from 0 to 2. -/
def square : Triangulation where
  triangles := [⟨⟨false, 3⟩, ⟨true, 0⟩, ⟨false, 2⟩, some 1, none⟩, ⟨⟨true, 0⟩, ⟨false, 0⟩, ⟨false, 1⟩, none, none⟩]
  diags := [(0, 2)]
  edges := [(0, 1), (1, 2), (2, 3), (3, 0)]

theorem square_proper : Proper square := by
  have b1 : Behind square ⟨true, 0⟩ (some 1) 0 2 ([] ++ 1 :: []) (⟨true, 0⟩ :: ([⟨false, 0⟩] ++ [⟨false, 1⟩])) :=
    .diag 0 0 1 2 1 ⟨⟨true, 0⟩, ⟨false, 0⟩, ⟨false, 1⟩, none, none⟩ [] [] _ _ rfl rfl rfl (.edge 0 0 1 rfl) (.edge 1 1 2 rfl)
  refine ⟨?_, rfl, ⟨_, 3, 0, 2, 3, _, _, _, _, rfl, rfl, rfl, b1, .edge 2 2 3 rfl, by decide, ?_, by decide, ?_⟩⟩
  · intro i hi
    have : i < 4 := hi
    interval_cases i <;> rfl
  · intro i
    have : square.edges.length = 4 := rfl
    rw [this]
    constructor
    · intro h
      simp at h
      omega
    · intro h
      interval_cases i <;> simp
  · intro c p h
    obtain ⟨d, n⟩ := c
    cases d
    · have := (List.getElem?_eq_some_iff.mp (h : square.edges[n]? = some p)).1
      have h4 : n < 4 := this
      interval_cases n <;> simp
    · have := (List.getElem?_eq_some_iff.mp (h : square.diags[n]? = some p)).1
      have h4 : n < 1 := this
      interval_cases n <;> simp

theorem square_sized (x : ℝ) (hx : 1e-8 ≤ x) : Sized square [1, 1, 1, 1] [x] := by
  refine ⟨rfl, rfl, ?_⟩
  rintro y (hy | hy)
  · simp at hy; rw [hy]; norm_num
  · simp at hy; rw [hy]; exact hx

/-- Two equilateral triangles folded along the diagonal by any angle: lengths and angle are recovered. -/
example (theta : ℝ) (h0 : 0 ≤ theta) (h1 : theta < 2 * Real.pi) : ∃ vt : List V3, embed square [1, 1, 1, 1] [1] [theta] = .ok (some vt) ∧
    computeLengths vt square.diags = .ok [1] ∧ computeDihedrals square vt = .ok [(theta, true)] := by
  have hs := square_sized 1 (by norm_num)
  have htri : ∀ t ∈ square.triangles, Closes [1, 1, 1, 1] [1] t := by
    intro t ht
    simp only [square, List.mem_cons, List.not_mem_nil, or_false] at ht
    rcases ht with rfl | rfl <;> (unfold Closes lengthOf; simp <;> norm_num)
  obtain ⟨vt, e, _⟩ := C94_embed (da := [theta]) square_proper hs rfl htri
  refine ⟨vt, e, (C94_lengths_back square_proper hs rfl e).2, C94_dihedrals_back square_proper hs rfl ?_ ?_ e⟩
  · intro x hx; simp at hx; rw [hx]; exact ⟨h0, h1⟩
  · intro t ht
    simp only [square, List.mem_cons, List.not_mem_nil, or_false] at ht
    rcases ht with rfl | rfl <;> (unfold area4 lengthOf eps; simp; norm_num)

/-- With a diagonal of length 3 there is no such square. -/
example (theta : ℝ) : embed square [1, 1, 1, 1] [3] [theta] = .ok none := by
  refine (C94_no_polygon square_proper (square_sized 3 (by norm_num)) rfl).mpr ⟨_, List.mem_cons_self, ?_⟩
  unfold Closes lengthOf
  simp
  norm_num

/-- **C94** A diagonal of length 0 obeys all triangle inequalities, and the code says that any normal will do then; but the direction of
the diagonal is used all the same, and it is no number. -/
theorem C94_zero_diagonal (theta : ℝ) : (∀ t ∈ square.triangles, Closes [1, 1, 1, 1] [0] t) ∧ embed square [1, 1, 1, 1] [0] [theta] = .error .ub := by
  constructor
  · intro t ht
    simp only [square, List.mem_cons, List.not_mem_nil, or_false] at ht
    rcases ht with rfl | rfl <;> (unfold Closes lengthOf; simp)
  · have f0 : fromLengths 0 1 1 = some (⟨0, 0, 0⟩, ⟨1, 0, 0⟩, ⟨1, 0, 0⟩) := by unfold fromLengths; norm_num
    have hz : (V3.mk 1 0 0).sub ⟨1, 0, 0⟩ = ⟨0, 0, 0⟩ := by simp [V3.sub]
    have hn : normalizeF ⟨0, 0, 0⟩ = .error .ub := by
      unfold normalizeF Equilateral.normalize divC
      rw [if_pos (by simp [norm3])]
      rfl
    have hp : place square [1, 1, 1, 1] [0] [theta] ⟨⟨true, 0⟩, ⟨false, 0⟩, ⟨false, 1⟩, none, none⟩ ⟨0, 0, 1⟩
        [⟨1, 0, 0⟩, ⟨0, 0, 0⟩, ⟨1, 0, 0⟩, ⟨0, 0, 0⟩] = .error .ub := by
      unfold place
      rw [if_neg (by rw [norm3_one (by simp [V3.dot])]; norm_num)]
      show (do let (f1, ok) ← normalizeF ((V3.mk 1 0 0).sub ⟨1, 0, 0⟩); _) = _
      rw [hz, hn]
      rfl
    have hw : worker square [1, 1, 1, 1] [0] [theta] 2 1 ⟨0, 0, 1⟩ [⟨1, 0, 0⟩, ⟨0, 0, 0⟩, ⟨1, 0, 0⟩, ⟨0, 0, 0⟩] = .error .ub := by
      unfold worker
      rw [show rd square.triangles 1 = .ok ⟨⟨true, 0⟩, ⟨false, 0⟩, ⟨false, 1⟩, none, none⟩ from rfl, ok_bind, hp]
      rfl
    show (match fromLengths 0 1 1 with | none => _ | some (pa, pb, pc) => _) = _
    rw [f0]
    show (do let r ← worker square [1, 1, 1, 1] [0] [theta] 2 1 ⟨0, 0, 1⟩ [⟨1, 0, 0⟩, ⟨0, 0, 0⟩, ⟨1, 0, 0⟩, ⟨0, 0, 0⟩]; _) = _
    rw [hw]
    rfl

end Plc.Embed
