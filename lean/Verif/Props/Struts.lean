import Verif.Proofs.StrutTurn

/-! # C87: the struts of a curve are found -/

namespace Plc.Struts

open Plc.Core Plc.FindCrossings Plc.RandomPolygon Plc.Equilateral Plc.Motions Plc.Measure Plc.Poca
open Plc.Nearest (toInt)

theorem valid_of_tree {cp : List Comp} {es : List Varr} {boxes : List Box} (hE : Edged cp) (hes : EdgesOf cp es) : ∀ (f p : Nat),
    TreeAt cp es boxes f p → Valid cp es boxes f p
  | 0, _, h => h
  | f + 1, p, ⟨B, h1, h2, h3, h4⟩ => by
    refine ⟨B, h1, h2, ?_, ?_⟩
    · intro j e c e0 e1 e2 j1 j2 he hk
      obtain ⟨k, f0, f1, f2, F⟩ := full hE hes (List.mem_of_getElem? he)
      obtain ⟨rfl, rfl, rfl, rfl⟩ := hk.same F.known
      exact h3 j e c e1 e2 j1 j2 he F.known.comp F.edge
    · rcases h4 with h | ⟨h, h'⟩
      · left
        unfold leaf
        rw [List.all_eq_true]
        intro o ho
        rw [h o ho]; rfl
      · exact .inr ⟨h, fun q hq => valid_of_tree hE hes f q (h' q hq)⟩

theorem SameEdges_symm : Std.Symm (fun x y : Strut => ¬ SameEdges x y) where
  symm := by
    intro x y h h'
    apply h
    rcases h' with ⟨a, b⟩ | ⟨a, b⟩
    · exact .inl ⟨a.symm, b.symm⟩
    · exact .inr ⟨b.symm, a.symm⟩

/-- A strut of the curve is a candidate, one way round or the other. -/
theorem strut_cand {cp : List Comp} {es : List Varr} {pi : Int} {x : Strut} (hE : Edged cp) (hes : EdgesOf cp es) (hpi : 1 ≤ pi)
    (hx : StrutOf cp x) (hf : FarAlong cp pi x) (ht : Transversal cp x) :
    x ∈ allCands cp es pi (es.length - 1) ∨ Plc.flip x ∈ allCands cp es pi (es.length - 1) := by
  have hx' := hx
  obtain ⟨c, c', a, b, a', b', g1, g2, g3, g4, _⟩ := hx'
  obtain ⟨me, hme, m1, m2⟩ := hes.all _ _ _ _ _ g1 g3
  obtain ⟨e, he, e1, e2⟩ := hes.all _ _ _ _ _ g2 g4
  obtain ⟨i, hi, ii⟩ := List.getElem_of_mem hme
  obtain ⟨j, hj, jj⟩ := List.getElem_of_mem he
  have hi' : es[i]? = some me := List.getElem?_eq_some_iff.mpr ⟨hi, ii⟩
  have hj' : es[j]? = some e := List.getElem?_eq_some_iff.mpr ⟨hj, jj⟩
  have hne : i ≠ j := by
    rintro rfl
    rw [hi'] at hj'
    simp only [Option.some.injEq] at hj'
    subst hj'
    obtain ⟨k, _, h2, _⟩ := hf (by rw [← m1, ← e1])
    rw [← m2, ← e2, sub_self, abs_zero] at h2
    omega
  rcases Nat.lt_or_gt_of_ne hne with h | h
  · right
    rw [mem_allCands]
    exact ⟨j, i, e, me, by omega, h, hj', hi', cand_complete hE hes he hme e1 e2 m1 m2 hx.flip hf.flip ht.flip⟩
  · left
    rw [mem_allCands]
    exact ⟨i, j, me, e, by omega, h, hi', hj', cand_complete hE hes hme he m1 m2 e1 e2 hx hf ht⟩

theorem allCands_sound {cp : List Comp} {es : List Varr} {pi : Int} {x : Strut} (hE : Edged cp) (hes : EdgesOf cp es) (hc : ClearCut cp)
    (h : x ∈ allCands cp es pi (es.length - 1)) : StrutOf cp x ∧ FarAlong cp pi x := by
  obtain ⟨k, m, me, e, _, _, h3, h4, h5⟩ := (mem_allCands _).mp h
  exact cand_sound hE hes hc (List.mem_of_getElem? h3) (List.mem_of_getElem? h4) h5

theorem toInt_cast {k : ℤ} {r : Int} (h : toInt (k : ℝ) = .ok r) : r = k := by
  unfold toInt at h
  simp only [Int.floor_intCast, Int.ceil_intCast, ite_self] at h
  split at h
  · simp only [Except.ok.injEq] at h
    exact h.symm
  · simp at h

theorem piCount_ok {cp : List Comp} {k : Int} (hE : Edged cp) (h : piCount cp = .ok k) : ∃ m, 0 < m ∧ k = max 2 ⌊Real.pi / m⌋ ∧
    (∀ c ∈ cp, ∀ t, TurnAt c t → t ≤ m) ∧ ∃ c ∈ cp, TurnAt c m := by
  obtain ⟨m, e, h1, h2, h3⟩ := maxTurn_ok cp hE 0
  unfold piCount at h
  rw [e, ok_bind] at h
  split at h
  · simp at h
  rename_i hm
  obtain ⟨r, hr, h⟩ := bind_ok_iff.mp h
  have hk := toInt_cast hr
  simp only [Except.ok.injEq] at h
  refine ⟨m, lt_of_le_of_ne h1 (Ne.symm hm), ?_, fun c hc t ht => h2 t ⟨c, hc, ht⟩, ?_⟩
  · rw [← h, hk]
    split <;> omega
  · rcases h3 with h3 | h3
    · exact absurd h3 hm
    · exact h3

/-- What the search is given: a curve whose edges have a length, all of its edges, an octree of them, and a curve which turns. -/
structure Given (cp : List Comp) (es : List Varr) (boxes : List Box) (depth root : Nat) (eps : ℝ) (k : Int) : Prop where
  edged : Edged cp
  edges : EdgesOf cp es
  tree : OctreeOf cp es boxes depth root
  pi : piCount cp = .ok k
  eps : 0 ≤ eps

theorem Given.two {cp : List Comp} {es : List Varr} {boxes : List Box} {depth root : Nat} {eps : ℝ} {k : Int} (h : Given cp es boxes depth root eps k) : 2 ≤ k := by
  obtain ⟨m, _, e, _⟩ := piCount_ok h.edged h.pi
  omega

theorem Given.ok {cp : List Comp} {es : List Varr} {boxes : List Box} {depth root : Nat} {eps : ℝ} {k : Int} (h : Given cp es boxes depth root eps k)
    (big cutoff : ℝ) (size : Nat) :
    ∃ sh l, searchStruts big cp es boxes depth root cutoff eps size = .ok (sh, l) ∧ sh ≤ big ∧
      (∀ x ∈ allCands cp es k (es.length - 1), (0 < cutoff → x.len ≤ cutoff) → sh ≤ x.len) ∧
      (sh = big ∨ ∃ x ∈ allCands cp es k (es.length - 1), sh = x.len ∧ (0 < cutoff → x.len ≤ cutoff)) ∧
      l.Subperm (allCands cp es k (es.length - 1)) ∧ (∀ x ∈ l, x.len ≤ upBound cutoff eps sh) ∧ l.length ≤ size ∧
      (Room cutoff size [] (allCands cp es k (es.length - 1)) → l.Perm ((allCands cp es k (es.length - 1)).filter (good (upBound cutoff eps sh)))) := by
  obtain ⟨t, B, b1, b2, b3⟩ := h.tree
  exact search_ok (allKnown h.edged h.edges) (valid_of_tree h.edged h.edges _ _ t) b1 b2 b3 h.eps h.pi

/-- **C87a.** The search succeeds. No strut between edges which are not nearly parallel, and which are far enough apart along the curve, is
shorter than the length reported. That length is the length of a strut, unless none was found shorter than the start value. -/
theorem C87_shortest {cp : List Comp} {es : List Varr} {boxes : List Box} {depth root : Nat} {eps : ℝ} {k : Int} (h : Given cp es boxes depth root eps k)
    (hc : ClearCut cp) (big cutoff : ℝ) (size : Nat) :
    ∃ sh l, searchStruts big cp es boxes depth root cutoff eps size = .ok (sh, l) ∧ sh ≤ big ∧
      (∀ x, StrutOf cp x → FarAlong cp k x → Transversal cp x → (0 < cutoff → x.len ≤ cutoff) → sh ≤ x.len) ∧
      (sh = big ∨ ∃ x, StrutOf cp x ∧ FarAlong cp k x ∧ x.len = sh ∧ (0 < cutoff → sh ≤ cutoff)) := by
  obtain ⟨sh, l, r, h1, h2, h3, _⟩ := h.ok big cutoff size
  have h2k := h.two
  refine ⟨sh, l, r, h1, ?_, ?_⟩
  · intro x hx hf ht hcut
    rcases strut_cand h.edged h.edges (by omega) hx hf ht with m | m
    · exact h2 x m hcut
    · have := h2 _ m hcut
      exact this
  · rcases h3 with h3 | ⟨x, m, e, hcut⟩
    · exact .inl h3
    · obtain ⟨s, f⟩ := allCands_sound h.edged h.edges hc m
      exact .inr ⟨x, s, f, e.symm, e ▸ hcut⟩

/-- **C87b.** Whatever is listed is a strut between edges far enough apart along the curve, no longer than the cutoff, or than the shortest
by more than `eps`. The list never holds more than there is room for, and no two of its struts are of the same two edges. -/
theorem C87_list_sound {cp : List Comp} {es : List Varr} {boxes : List Box} {depth root : Nat} {eps : ℝ} {k : Int} (h : Given cp es boxes depth root eps k)
    (hc : ClearCut cp) {big cutoff : ℝ} {size : Nat} {sh : ℝ} {l : List Strut} (hr : searchStruts big cp es boxes depth root cutoff eps size = .ok (sh, l)) :
    (∀ x ∈ l, StrutOf cp x ∧ FarAlong cp k x ∧ x.len ≤ lengthBound cutoff eps sh) ∧ l.length ≤ size ∧ l.Pairwise (fun x y => ¬ SameEdges x y) := by
  obtain ⟨sh', l', r, _, _, _, h4, h5, h6, _⟩ := h.ok big cutoff size
  rw [r] at hr
  simp only [Except.ok.injEq, Prod.mk.injEq] at hr
  obtain ⟨rfl, rfl⟩ := hr
  refine ⟨?_, h6, ?_⟩
  · intro x hx
    obtain ⟨s, f⟩ := allCands_sound h.edged h.edges hc (h4.subset hx)
    exact ⟨s, f, h5 x hx⟩
  · obtain ⟨l2, p, s⟩ := h4
    have := (allCands_pairwise (cp := cp) (pi := k) h.edges.once (es.length - 1)).sublist s
    exact (p.pairwise_iff (fun {a b} h => SameEdges_symm.symm a b h)).mp this

/-- **C87c.** If there is room for all pairs of edges, or a cutoff and room for all struts within it, then all struts within the bound
between edges which are not nearly parallel are listed, one way round or the other. -/
theorem C87_list_complete {cp : List Comp} {es : List Varr} {boxes : List Box} {depth root : Nat} {eps : ℝ} {k : Int} (h : Given cp es boxes depth root eps k)
    (hc : ClearCut cp) {big cutoff : ℝ} {size : Nat} {sh : ℝ} {l : List Strut} (hr : searchStruts big cp es boxes depth root cutoff eps size = .ok (sh, l))
    (hroom : es.length * (es.length - 1) ≤ 2 * size ∨ (0 < cutoff ∧ ∀ L : List Strut, L.Pairwise (fun x y => ¬ SameEdges x y) →
      (∀ x ∈ L, StrutOf cp x ∧ FarAlong cp k x ∧ x.len ≤ cutoff) → L.length ≤ size)) :
    ∀ x, StrutOf cp x → FarAlong cp k x → Transversal cp x → x.len ≤ lengthBound cutoff eps sh → x ∈ l ∨ Plc.flip x ∈ l := by
  obtain ⟨sh', l', r, _, _, _, _, _, _, h7⟩ := h.ok big cutoff size
  rw [r] at hr
  simp only [Except.ok.injEq, Prod.mk.injEq] at hr
  obtain ⟨rfl, rfl⟩ := hr
  have h2k := h.two
  have room : Room cutoff size [] (allCands cp es k (es.length - 1)) := by
    rcases hroom with hr | ⟨h0, hr⟩
    · left
      have a := allCands_length (cp := cp) (es := es) (pi := k) (es.length - 1)
      rcases Nat.eq_zero_or_pos es.length with z | z
      · rw [z] at a ⊢
        simp only [List.length_nil] at *
        omega
      · rw [show es.length - 1 + 1 = es.length by omega, Nat.mul_comm] at a
        rw [Nat.mul_comm] at hr
        simp only [List.length_nil]
        omega
    · right
      refine ⟨h0, ?_⟩
      rw [List.nil_append]
      refine hr _ ((allCands_pairwise h.edges.once _).sublist List.filter_sublist) ?_
      intro x hx
      obtain ⟨m, g⟩ := List.mem_filter.mp hx
      obtain ⟨s, f⟩ := allCands_sound h.edged h.edges hc m
      exact ⟨s, f, by simpa [good] using g⟩
  have hp := h7 room
  intro x hx hf ht hb
  rcases strut_cand h.edged h.edges (by omega) hx hf ht with m | m
  · exact .inl (hp.mem_iff.mpr (List.mem_filter.mpr ⟨m, decide_eq_true hb⟩))
  · exact .inr (hp.mem_iff.mpr (List.mem_filter.mpr ⟨m, decide_eq_true hb⟩))

/-- **C87d.** The number of edges which are skipped: two at least, and otherwise as many as cannot turn by more than half a circle together. -/
theorem C87_pi_count {cp : List Comp} {k : Int} (hE : Edged cp) (h : piCount cp = .ok k) :
    2 ≤ k ∧ (k = 2 ∨ ∀ c ∈ cp, ∀ t, TurnAt c t → k * t ≤ Real.pi) ∧ ∃ c ∈ cp, ∃ t, TurnAt c t ∧ Real.pi < (k + 1) * t := by
  obtain ⟨m, m0, hk, h1, c, hc, h2⟩ := piCount_ok hE h
  refine ⟨by omega, ?_, c, hc, m, h2, ?_⟩
  · rcases le_or_gt ⌊Real.pi / m⌋ 2 with x | x
    · left; omega
    · right
      intro c hc t ht
      have e : k = ⌊Real.pi / m⌋ := by omega
      have a : (k : ℝ) ≤ Real.pi / m := by rw [e]; exact Int.floor_le _
      rw [le_div_iff₀ m0] at a
      have hk0 : (0 : ℝ) ≤ k := by
        have : 0 ≤ k := by omega
        exact_mod_cast this
      nlinarith [h1 c hc t ht]
  · have a : Real.pi / m < ⌊Real.pi / m⌋ + 1 := Int.lt_floor_add_one _
    have b : ((⌊Real.pi / m⌋ : ℤ) : ℝ) ≤ k := by
      have : ⌊Real.pi / m⌋ ≤ k := by omega
      exact_mod_cast this
    rw [div_lt_iff₀ m0] at a
    nlinarith

/-- **C87e.** If nothing turns, or by too little, the number of edges to be skipped does not fit an `int`: undefined, whatever the edges
and the octree. If something turns by more than that, it is defined. -/
theorem C87_straight {cp : List Comp} (hE : Edged cp) :
    ((∀ c ∈ cp, ∀ t, TurnAt c t → 2 ^ 31 * t ≤ Real.pi) → ∀ (big : ℝ) (es : List Varr) (boxes : List Box) (depth root : Nat) (cutoff eps : ℝ) (size : Nat),
      searchStruts big cp es boxes depth root cutoff eps size = .error .ub) ∧
    ((∃ c ∈ cp, ∃ t, TurnAt c t ∧ Real.pi < 2 ^ 31 * t) → ∃ k, piCount cp = .ok k) := by
  obtain ⟨m, e, h1, h2, h3⟩ := maxTurn_ok cp hE 0
  constructor
  · intro h big es boxes depth root cutoff eps size
    have hp : piCount cp = .error .ub := by
      unfold piCount
      rw [e, ok_bind]
      by_cases hm : m = 0
      · rw [if_pos hm]
      · rw [if_neg hm]
        have m0 : 0 < m := lt_of_le_of_ne h1 (Ne.symm hm)
        rcases h3 with x | ⟨c, hc, x⟩
        · exact absurd x hm
        · have a := h c hc m x
          rw [← le_div_iff₀ m0] at a
          have b : (2 ^ 31 : ℤ) ≤ ⌊Real.pi / m⌋ := Int.le_floor.mpr (by push_cast; linarith)
          rw [Nearest.toInt_ub (by exact_mod_cast b), error_bind]
    unfold searchStruts
    rw [hp, error_bind]
  · rintro ⟨c, hc, t, ht, hlt⟩
    have hm := h2 t ⟨c, hc, ht⟩
    have m0 : 0 < m := by
      have := Real.pi_pos
      nlinarith
    unfold piCount
    rw [e, ok_bind, if_neg m0.ne']
    have a : Real.pi / m < 2 ^ 31 := by rw [div_lt_iff₀ m0]; nlinarith
    have b : (0 : ℝ) ≤ Real.pi / m := by positivity
    rw [Nearest.toInt_ok (by exact_mod_cast Int.floor_nonneg.mpr b) (lt_of_le_of_lt (Int.floor_le _) a), ok_bind]
    exact ⟨_, rfl⟩

/-! ## An example: an arc with a right angle, and an edge above it -/

/-- The arc through `(0, 0, 0)`, `(2, 0, 0)`, `(2, 0, -2)`. -/
noncomputable def bent : Comp := ⟨true, [⟨0, 0, 0⟩, ⟨2, 0, 0⟩, ⟨2, 0, -2⟩]⟩

/-- The edge from `(1, -1, 1)` to `(1, 1, 1)`. -/
noncomputable def above : Comp := ⟨true, [⟨1, -1, 1⟩, ⟨1, 1, 1⟩]⟩

/-- Their edges. -/
noncomputable def exEdges : List Varr := [⟨⟨1, 0, 0⟩, 2, 0, 0, 0, 0⟩, ⟨⟨2, 0, -1⟩, 2, 0, 1, 0, 0⟩, ⟨⟨1, 0, 1⟩, 2, 1, 0, 0, 0⟩]

/-- One box. -/
noncomputable def exBox : Box := ⟨⟨0, -1, -2⟩, ⟨2, 1, 1⟩, [], 3, 0⟩

theorem exEdge {i : Nat} {c : Comp} {v : Nat} {a b : V3} (h : [bent, above][i]? = some c) (he : EdgeAt c v a b) :
    (i = 0 ∧ c = bent ∧ v = 0 ∧ a = ⟨0, 0, 0⟩ ∧ b = ⟨2, 0, 0⟩) ∨ (i = 0 ∧ c = bent ∧ v = 1 ∧ a = ⟨2, 0, 0⟩ ∧ b = ⟨2, 0, -2⟩) ∨
    (i = 1 ∧ c = above ∧ v = 0 ∧ a = ⟨1, -1, 1⟩ ∧ b = ⟨1, 1, 1⟩) := by
  rcases i with _ | _ | i
  · simp only [List.getElem?_cons_zero, Option.some.injEq] at h
    subst h
    obtain ⟨h1, h2⟩ := he
    rcases v with _ | _ | v
    · simp [bent] at h1 h2; simp [h1, h2]
    · simp [bent] at h1 h2; simp [h1, h2]
    · simp [bent] at h2
  · simp only [zero_add, List.getElem?_cons_succ, List.getElem?_cons_zero, Option.some.injEq] at h
    subst h
    obtain ⟨h1, h2⟩ := he
    rcases v with _ | v
    · simp [above] at h1 h2; simp [h1, h2]
    · simp [above] at h2
  · simp at h

theorem exEdged : Edged [bent, above] := by
  intro c hc
  obtain ⟨i, hi, rfl⟩ := List.getElem_of_mem hc
  refine ⟨?_, ?_, ?_⟩
  · rcases i with _ | _ | i
    · simp [bent]
    · simp [above]
    · simp at hi
  · rcases i with _ | _ | i
    · intro h; simp [bent] at h
    · intro h; simp [above] at h
    · simp at hi
  · intro v a b h
    rcases exEdge (List.getElem?_eq_getElem hi) h with ⟨_, _, _, rfl, rfl⟩ | ⟨_, _, _, rfl, rfl⟩ | ⟨_, _, _, rfl, rfl⟩ <;>
      simp [V3.mk.injEq] <;> norm_num

theorem exEdgesOf : EdgesOf [bent, above] exEdges where
  real := by
    intro e he
    simp only [exEdges, List.mem_cons, List.not_mem_nil, or_false] at he
    rcases he with rfl | rfl | rfl
    · refine ⟨bent, ⟨0, 0, 0⟩, ⟨2, 0, 0⟩, rfl, ⟨rfl, rfl⟩, ?_, ?_⟩
      · norm_num [along]
      · rw [show apart ⟨0, 0, 0⟩ ⟨2, 0, 0⟩ = Real.sqrt (2 ^ 2) from by unfold apart distSq; norm_num, Real.sqrt_sq (by norm_num)]
    · refine ⟨bent, ⟨2, 0, 0⟩, ⟨2, 0, -2⟩, rfl, ⟨rfl, rfl⟩, ?_, ?_⟩
      · norm_num [along]
      · rw [show apart ⟨2, 0, 0⟩ ⟨2, 0, -2⟩ = Real.sqrt (2 ^ 2) from by unfold apart distSq; norm_num, Real.sqrt_sq (by norm_num)]
    · refine ⟨above, ⟨1, -1, 1⟩, ⟨1, 1, 1⟩, rfl, ⟨rfl, rfl⟩, ?_, ?_⟩
      · norm_num [along]
      · rw [show apart ⟨1, -1, 1⟩ ⟨1, 1, 1⟩ = Real.sqrt (2 ^ 2) from by unfold apart distSq; norm_num, Real.sqrt_sq (by norm_num)]
  all := by
    intro i c v a b h he
    rcases exEdge h he with ⟨rfl, _, rfl, _⟩ | ⟨rfl, _, rfl, _⟩ | ⟨rfl, _, rfl, _⟩ <;> simp [exEdges]
  once := by simp [exEdges]

theorem exTree : OctreeOf [bent, above] exEdges [exBox] 1 0 := by
  refine ⟨⟨exBox, rfl, by simp [exBox, exEdges], ?_, .inl (by simp [exBox])⟩, exBox, rfl, rfl, rfl⟩
  intro j e c a b _ _ _ h he
  rcases exEdge h he with ⟨_, _, _, rfl, rfl⟩ | ⟨_, _, _, rfl, rfl⟩ | ⟨_, _, _, rfl, rfl⟩ <;> norm_num [InBox, exBox]

theorem exTurn {c : Comp} (hc : c ∈ [bent, above]) {t : ℝ} (h : TurnAt c t) : t = Real.pi / 2 := by
  obtain ⟨i, hi, rfl⟩ := List.getElem_of_mem hc
  obtain ⟨u, v, a, b, d, h1, h2, h3, h4⟩ := h
  have e := List.getElem?_eq_getElem hi
  obtain ⟨C, hC⟩ : ∃ C, C = [bent, above][i] := ⟨_, rfl⟩
  rw [← hC] at e h1 h2 h3
  rcases exEdge e h1 with ⟨_, rfl, rfl, rfl, rfl⟩ | ⟨_, rfl, rfl, rfl, rfl⟩ | ⟨_, rfl, rfl, rfl, rfl⟩ <;>
    rcases exEdge e h2 with ⟨_, q, rfl, g, rfl⟩ | ⟨_, q, rfl, g, rfl⟩ | ⟨_, q, rfl, g, rfl⟩ <;> norm_num [V3.mk.injEq] at g
  have hz := h4.cosine
  have p1 : apart (V3.sub ⟨2, 0, 0⟩ ⟨0, 0, 0⟩) ⟨0, 0, 0⟩ = 2 := by
    rw [show apart (V3.sub ⟨2, 0, 0⟩ ⟨0, 0, 0⟩) ⟨0, 0, 0⟩ = Real.sqrt (2 ^ 2) from by unfold apart distSq V3.sub; norm_num, Real.sqrt_sq (by norm_num)]
  have p2 : apart (V3.sub ⟨2, 0, -2⟩ ⟨2, 0, 0⟩) ⟨0, 0, 0⟩ = 2 := by
    rw [show apart (V3.sub ⟨2, 0, -2⟩ ⟨2, 0, 0⟩) ⟨0, 0, 0⟩ = Real.sqrt (2 ^ 2) from by unfold apart distSq V3.sub; norm_num, Real.sqrt_sq (by norm_num)]
  rw [p1, p2] at hz
  have hcos : Real.cos t = Real.cos (Real.pi / 2) := by
    rw [Real.cos_pi_div_two]
    norm_num [dotOf, V3.sub] at hz
    exact hz
  exact Real.injOn_cos ⟨h4.nonneg, h4.le_pi⟩ ⟨by positivity, by linarith [Real.pi_pos]⟩ hcos

theorem exTurns : TurnAt bent (Real.pi / 2) := by
  refine ⟨0, 1, ⟨0, 0, 0⟩, ⟨2, 0, 0⟩, ⟨2, 0, -2⟩, ⟨rfl, rfl⟩, ⟨rfl, rfl⟩, rfl, by positivity, by linarith [Real.pi_pos], ?_⟩
  rw [Real.cos_pi_div_two]
  norm_num [dotOf, V3.sub]

theorem exPi : piCount [bent, above] = .ok 2 := by
  obtain ⟨m, e, h1, h2, h3⟩ := maxTurn_ok _ exEdged 0
  have hp := Real.pi_pos
  have hm : m = Real.pi / 2 := by
    rcases h3 with h | ⟨c, hc, h⟩
    · have := h2 _ ⟨bent, List.mem_cons_self, exTurns⟩
      linarith
    · exact exTurn hc h
  unfold piCount
  rw [e, ok_bind, if_neg (by rw [hm]; positivity), hm, show Real.pi / (Real.pi / 2) = ((2 : ℤ) : ℝ) from by field_simp; norm_num, Int.floor_intCast,
    Nearest.toInt_ok (by norm_num) (by norm_num), ok_bind, Int.floor_intCast]
  rfl

/-- The example meets what is asked for. -/
theorem exGiven : Given [bent, above] exEdges [exBox] 1 0 0 2 := ⟨exEdged, exEdgesOf, exTree, exPi, le_refl _⟩

theorem exClear : ClearCut [bent, above] := by
  intro i j c c' v w a b a' b' h h' e e'
  rcases exEdge h e with ⟨_, _, _, rfl, rfl⟩ | ⟨_, _, _, rfl, rfl⟩ | ⟨_, _, _, rfl, rfl⟩ <;>
    rcases exEdge h' e' with ⟨_, _, _, rfl, rfl⟩ | ⟨_, _, _, rfl, rfl⟩ | ⟨_, _, _, rfl, rfl⟩ <;>
    first
      | (left; unfold area apart; rw [Real.sqrt_eq_zero']; norm_num [distSq, crossOf, V3.sub]; done)
      | (right; unfold area apart; rw [Real.sq_sqrt (by norm_num [distSq, crossOf, V3.sub])]; norm_num [distSq, crossOf, V3.sub]; done)

/-- The strut of the example, straight up from the middle of the first edge to the middle of the third. -/
noncomputable def exStrut : Strut := ⟨0, 1, 0, 0, 1 / 2, 1 / 2, 1⟩

theorem exIs : StrutOf [bent, above] exStrut ∧ FarAlong [bent, above] 2 exStrut ∧ Transversal [bent, above] exStrut := by
  have e1 : along ⟨0, 0, 0⟩ ⟨2, 0, 0⟩ (1 / 2) = ⟨1, 0, 0⟩ := by norm_num [along]
  have e2 : along ⟨1, -1, 1⟩ ⟨1, 1, 1⟩ (1 / 2) = ⟨1, 0, 1⟩ := by norm_num [along]
  refine ⟨⟨bent, above, ⟨0, 0, 0⟩, ⟨2, 0, 0⟩, ⟨1, -1, 1⟩, ⟨1, 1, 1⟩, rfl, rfl, ⟨rfl, rfl⟩, ⟨rfl, rfl⟩, ?_, ?_, ?_, ?_, ?_⟩, ?_, ?_⟩
  · exact ⟨by norm_num [exStrut], .inl (by norm_num [exStrut])⟩
  · exact ⟨by norm_num [exStrut], .inl (by norm_num [exStrut])⟩
  · show (1 : ℝ) = apart (along ⟨0, 0, 0⟩ ⟨2, 0, 0⟩ (1 / 2)) (along ⟨1, -1, 1⟩ ⟨1, 1, 1⟩ (1 / 2))
    rw [e1, e2]
    rw [show apart ⟨1, 0, 0⟩ ⟨1, 0, 1⟩ = Real.sqrt (1 ^ 2) from by unfold apart distSq; norm_num, Real.sqrt_sq (by norm_num)]
  · refine ⟨?_, fun h => by norm_num [exStrut] at h⟩
    intro t _ _
    show apart (along ⟨1, -1, 1⟩ ⟨1, 1, 1⟩ (1 / 2)) (along ⟨0, 0, 0⟩ ⟨2, 0, 0⟩ (1 / 2)) ≤ _
    rw [show exStrut.pos1 = 1 / 2 from rfl, e1, e2]
    unfold apart
    apply Real.sqrt_le_sqrt
    unfold distSq along
    simp only
    nlinarith [sq_nonneg (1 - 2 * t)]
  · refine ⟨?_, fun h => by norm_num [exStrut] at h⟩
    intro t _ _
    show apart (along ⟨0, 0, 0⟩ ⟨2, 0, 0⟩ (1 / 2)) (along ⟨1, -1, 1⟩ ⟨1, 1, 1⟩ (1 / 2)) ≤ _
    rw [show exStrut.pos0 = 1 / 2 from rfl, e1, e2]
    unfold apart
    apply Real.sqrt_le_sqrt
    unfold distSq along
    simp only
    nlinarith [sq_nonneg (1 - 2 * t)]
  · intro h; simp [exStrut] at h
  · refine ⟨bent, above, ⟨0, 0, 0⟩, ⟨2, 0, 0⟩, ⟨1, -1, 1⟩, ⟨1, 1, 1⟩, rfl, rfl, ⟨rfl, rfl⟩, ⟨rfl, rfl⟩, ?_⟩
    unfold area apart
    rw [Real.sq_sqrt (by norm_num [distSq, crossOf, V3.sub])]
    norm_num [distSq, crossOf, V3.sub]

/-- So its strut is found: with room for three, no cutoff, starting from 100. -/
example : ∃ sh l, searchStruts 100 [bent, above] exEdges [exBox] 1 0 0 0 3 = .ok (sh, l) ∧ sh ≤ 1 ∧
    (1 ≤ sh → exStrut ∈ l ∨ Plc.flip exStrut ∈ l) := by
  obtain ⟨sh, l, h1, h2, h3, h4⟩ := C87_shortest exGiven exClear 100 0 3
  have := h3 exStrut exIs.1 exIs.2.1 exIs.2.2 (by simp)
  refine ⟨sh, l, h1, this, fun h => ?_⟩
  refine C87_list_complete exGiven exClear h1 (.inl (by simp [exEdges])) exStrut exIs.1 exIs.2.1 exIs.2.2 ?_
  unfold lengthBound
  rw [if_neg (lt_irrefl _), add_zero]
  exact h

/-- A straight arc. -/
example : (2 : ℝ) ^ 31 * 0 ≤ Real.pi ∧ Edged [above] := by
  refine ⟨by simpa using Real.pi_pos.le, fun c hc => exEdged c (List.mem_cons_of_mem _ hc)⟩

end Plc.Struts
