import Verif.Proofs.SplitDiagram
import Verif.Proofs.Neat
import Verif.Proofs.EraseFull
import Verif.Props.Split

/-! All pieces of `pd_split_diagram`. -/

namespace Plc.Split

open Plc.Core Plc.Cmp Plc.Buffers Plc.Moves Plc.BigonDel Plc.Comps Plc.PermM Plc.Planar Plc.Isotopy Plc.Ok List

variable {pd : Io.Pd}

/-- How many crossings, edges and components have label `i`. -/
structure Counts (pd : Io.Pd) (code : List Nat) (i : Nat) (o : Out) : Prop where
  cross : ncross o = (List.range pd.cross.length).countP (fun c => decide ((slot pd.cross c 0).bind (code[·]?) = some i))
  edge : nedges o = code.countP (fun x => decide (some x = some i))
  comp : ncomps o = pd.comp.countP (fun k => decide (code[k.edge.headD 0]? = some i))

/-- A loose edge is a piece by itself. -/
theorem free_alone (hL : Loose pd.cross pd.edge) {e : Nat} (he : pd.edge[e]? = some freeEdge) {b : Nat} (h : Linked pd.cross e b) : b = e := by
  rcases Relation.ReflTransGen.cases_head h with h | ⟨x, ⟨c, p, q, h1, h2⟩, -⟩
  · exact h.symm
  · obtain ⟨r, r1, r2, -⟩ := free_no_slot hL h1
    rw [he] at r1
    exact absurd (Option.some.inj r1).symm r2

theorem compsAt_onSide (hS : Scattered pd) {code : List Nat} (hL : Labels pd code) (i : Nat) :
    compsAt pd code i = onSide (fun e => code[e]? = some i) pd.comp := by
  unfold compsAt onSide
  apply List.filter_congr
  intro k hk
  rw [decide_eq_decide]
  constructor
  · intro h e he
    exact (hL.comp_iff hS hk he).mpr h
  · intro h
    exact h _ (headD_mem (hS.nonempty k hk))

theorem piece_ok (qs : QSort) (hS : Scattered pd) {code : List Nat} (hL : Labels pd code) {caps : Io.Caps}
    (hcap : pd.edge.length ≤ caps.edges) (hsmall : 2 * pd.edge.length < 2 ^ 31) {i : Nat} (hi : i ∈ code) :
    ∃ o, piece qs caps pd code i = .ok o ∧ Part pd (fun e => code[e]? = some i) o ∧ Counts pd code i o := by
  obtain ⟨e, he⟩ := List.mem_iff_getElem?.mp hi
  have hel : e < pd.edge.length := by
    rw [← hL.len]
    exact (List.getElem?_eq_some_iff.mp he).1
  have hlo := hS.loose
  have hcnt : code.countP (fun x => decide (some x = some i)) = code.count i := by
    rw [List.count_eq_countP]
    apply List.countP_congr
    intro x _
    simp
  obtain ⟨r, hr⟩ : ∃ r, pd.edge[e]? = some r := ⟨_, List.getElem?_eq_getElem hel⟩
  by_cases hfree : r = freeEdge
  · subst hfree
    have honly : ∀ x, code[x]? = some i → x = e := by
      intro x hx
      exact free_alone hlo hr ((hL.iff e x i i he hx).mp rfl)
    have hcount : code.count i = 1 := by
      rw [count_range, List.countP_eq_length_filter]
      have : (List.range code.length).filter (fun x => decide (code[x]? = some i)) = [e] := by
        apply List.perm_singleton.mp
        rw [List.perm_ext_iff_of_nodup (List.nodup_range.filter _) (by simp)]
        intro x
        rw [List.mem_filter, List.mem_range, decide_eq_true_eq, List.mem_singleton]
        constructor
        · exact fun h => honly x h.2
        · rintro rfl
          exact ⟨by rw [hL.len]; exact hel, he⟩
      rw [this]
      rfl
    obtain ⟨k, hk, hke⟩ := List.mem_flatMap.mp (hS.all.mem_iff.mpr (List.mem_range.mpr hel))
    have hkE := hS.free k hk e hke hr
    have hall : ∀ k' ∈ compsAt pd code i, k' = k := by
      intro k' hk'
      obtain ⟨a, b⟩ := List.mem_filter.mp hk'
      have b' := honly _ (of_decide_eq_true b)
      have hmem := headD_mem (hS.nonempty k' a)
      rw [b'] at hmem
      by_contra hne
      have hnd : (pd.comp.flatMap (·.edge)).Nodup := hS.all.nodup_iff.mpr List.nodup_range
      haveI : Std.Symm (Function.onFun List.Disjoint (fun k : Comp => k.edge)) := ⟨fun _ _ h => List.Disjoint.symm h⟩
      exact (List.nodup_flatMap.mp hnd).2.forall a hk hne hmem hke
    have hone : compsAt pd code i = [k] := by
      have hmem : k ∈ compsAt pd code i := List.mem_filter.mpr ⟨hk, by
        rw [hkE]
        simpa using he⟩
      have hnd : (compsAt pd code i).Nodup := List.Nodup.filter _ (List.Nodup.of_map _ hS.tags)
      apply List.perm_singleton.mp
      rw [List.perm_ext_iff_of_nodup hnd (by simp)]
      intro x
      rw [List.mem_singleton]
      constructor
      · exact hall x
      · rintro rfl
        exact hmem
    refine ⟨.unknot k.tag, ?_, Or.inl ⟨k, hk, e, hkE, hr, ?_, rfl⟩, ?_, ?_, ?_⟩
    · unfold piece
      simp only [hcount, if_true]
      rw [pick_ok code i pd.comp hS.nonempty (fun k hk a ha => by rw [hL.len]; exact edge_lt hS hk ha), ok_bind]
      change Except.ok (Out.unknot (match (compsAt pd code i).getLast? with | some k => k.tag | none => 65)) = _
      rw [hone]
      rfl
    · intro x _
      exact ⟨honly x, fun h => by rw [h]; exact he⟩
    · symm
      change _ = 0
      rw [List.countP_eq_zero]
      intro c hc
      rw [List.mem_range] at hc
      rw [decide_eq_true_eq]
      intro h
      have h0 := slot_of_lt hc (k := 0) (by decide)
      rw [h0, Option.bind_some] at h
      obtain ⟨r, r1, r2, -⟩ := free_no_slot hlo h0
      rw [honly _ h, hr] at r1
      exact r2 (Option.some.inj r1).symm
    · rw [hcnt, hcount]
      rfl
    · rw [List.countP_eq_length_filter]
      change _ = (compsAt pd code i).length
      rw [hone]
      rfl
  · obtain ⟨cross1, edge1, comps1, X, G, τ, σ, h1, C, hP, hK, h5, h6, h7, h8, h9⟩ :=
      rawChild_ok qs hS hL hcap (by omega) hr hfree he
    have hlen := C.count
    have hne : 0 < cross1.length := List.length_pos_iff.mpr hP.nonempty
    have hmv : code.count i / 2 = cross1.length := by omega
    have hle : code.count i ≤ code.length := List.count_le_length
    rw [hL.len] at hle
    have hside := compsAt_onSide hS hL i
    obtain ⟨cross2, edge2, σ', ρ', g1, g2, g3, g4, g5, g6, g7, g8⟩ := C.erased.regen qs hP.consistent hP.oriented (by omega) hK
    obtain ⟨cross3, edge3, σ2, ρ2, b1, R, -⟩ := regenCrossings_renamed qs hP.consistent (by omega)
    rw [g1] at b1
    cases b1
    have hP2 : PlaneDiagram cross2 edge2 := hP.renamed R Regenerate.along_false
    have hcl : cross2.length = cross1.length := R.len
    have hmem : ∀ c' ∈ comps1, ∃ c ∈ compsAt pd code i, c.tag = c'.tag := fun c' hc' => by
      obtain ⟨c, a, b, -⟩ := h9 c' hc'
      exact ⟨c, a, b⟩
    obtain ⟨pd', w1, w2, w3, w4, w5, -⟩ := withFaces_ok qs (maxfaces := (Io.capsNew cross1.length).faces) (uid := 0) hP2 g7 g8 g6 (by omega)
      (by
        change _ ≤ max cross1.length 2 + 2
        omega)
      (h7.nodup_iff.mpr ((List.filter_sublist.map _).nodup hS.tags))
      (by
        intro k hk hlt k' hk'
        obtain ⟨c, c1, c2⟩ := hmem k hk
        obtain ⟨c', c1', c2'⟩ := hmem k' hk'
        obtain ⟨m1, m2⟩ := List.mem_filter.mp c1
        obtain ⟨m1', m2'⟩ := List.mem_filter.mp c1'
        rw [← c2, ← c2']
        refine hS.letters c m1 c' m1' ⟨_, headD_mem (hS.nonempty c m1), _, headD_mem (hS.nonempty c' m1'), ?_⟩ (by rw [c2]; exact hlt)
        exact (hL.iff _ _ i i (by simpa using m2) (by simpa using m2')).mp rfl)
    have hcomps : comps1.length = (compsAt pd code i).length := by
      have := h7.length_eq
      simpa using this
    have hok : ∀ q : QSort, pdOk q (Io.capsNew cross1.length) pd' = .ok true := fun q => w2.ok q (by
      rw [w4, g5]
      change _ ≤ 2 * max cross1.length 2 + 1
      omega) (by
      rw [w5]
      change _ ≤ max cross1.length 2 / 2 + 2
      omega) (by
      rw [w2.tidy.goodFaces.count, w3, hcl]
      change _ ≤ max cross1.length 2 + 2
      omega)
    refine ⟨.code (Io.capsNew cross1.length) pd', ?_, Or.inr ⟨_, pd', X, G, τ, σ', ρ', rfl, w2, hok, C.hX, C.hG, ?_, ?_, ?_⟩, ?_, ?_, ?_⟩
    · unfold piece
      have hn1 : code.count i ≠ 1 := by omega
      simp only [if_neg hn1]
      rw [assertC_ok (by rw [decide_eq_true_eq]; omega), ok_bind, h1, ok_bind]
      simp only [g1, ok_bind, hmv, w1, hok qs, assertC_ok]
    · rw [w3, w4]
      exact g2
    · rw [w5, ← hside]
      exact h7
    · intro c' hc'
      rw [w5] at hc'
      obtain ⟨c, a, b, d⟩ := h9 c' hc'
      refine ⟨c, (List.mem_filter.mp a).1, b, fun f hf => d f ?_⟩
      rw [w4, g5] at hf
      exact hf
    · change pd'.cross.length = _
      rw [w3, hcl, h6]
    · change pd'.edge.length = _
      rw [w4, g5, h5, hcnt]
    · change pd'.comp.length = _
      rw [w5, hcomps, List.countP_eq_length_filter]
      rfl

theorem sum_ite (j : Nat) : ∀ n, ((List.range n).map (fun i => if i = j then 1 else 0)).sum = if j < n then 1 else 0
  | 0 => by simp
  | n + 1 => by
    rw [List.range_succ, List.map_append, List.sum_append, sum_ite j n]
    by_cases h1 : j < n
    · have : ¬ n = j := by omega
      simp [h1, this, Nat.lt_succ_of_lt h1]
    · by_cases h2 : n = j
      · simp [h2]
      · have : ¬ j < n + 1 := by omega
        simp [h1, h2, this]

theorem sum_fibers {α : Type} (g : α → Option Nat) (n : Nat) : ∀ (l : List α), (∀ x ∈ l, ∃ i < n, g x = some i) →
    ((List.range n).map (fun i => l.countP (fun x => decide (g x = some i)))).sum = l.length
  | [], _ => by simp
  | x :: l, h => by
    obtain ⟨j, hj, hx⟩ := h x (by simp)
    have ih := sum_fibers g n l (fun y hy => h y (by simp [hy]))
    have : ((List.range n).map (fun i => (x :: l).countP (fun x => decide (g x = some i)))).sum =
        ((List.range n).map (fun i => l.countP (fun x => decide (g x = some i)))).sum + ((List.range n).map (fun i => if i = j then 1 else 0)).sum := by
      rw [← List.sum_map_add]
      congr 1
      apply List.map_congr_left
      intro i _
      rw [List.countP_cons, hx]
      by_cases hij : i = j
      · simp [hij]
      · have : ¬ j = i := fun h => hij h.symm
        simp [hij, this]
    rw [this, ih, List.length_cons]
    congr 1
    rw [sum_ite, if_pos hj]

/-- The loop over pieces. -/
theorem pieces_ok (qs : QSort) {code : List Nat} {caps : Io.Caps} {P : Nat → Out → Prop} : ∀ (n i : Nat),
    (∀ j, i ≤ j → j < i + n → ∃ o, piece qs caps pd code j = .ok o ∧ P j o) →
    ∃ outs, pieces qs caps pd code n i = .ok outs ∧ outs.length = n ∧ ∀ (j : Nat) (o : Out), outs[j]? = some o → P (i + j) o
  | 0, i, _ => ⟨[], rfl, rfl, by simp⟩
  | n + 1, i, h => by
    obtain ⟨o, o1, o2⟩ := h i (Nat.le_refl _) (by omega)
    obtain ⟨outs, p1, p2, p3⟩ := pieces_ok qs n (i + 1) (fun j h1 h2 => h j (by omega) (by omega))
    refine ⟨o :: outs, ?_, by simp [p2], ?_⟩
    · unfold pieces
      rw [o1, ok_bind, p1, ok_bind]
    · intro j o' hj
      cases j with
      | zero =>
        cases hj
        exact o2
      | succ j =>
        have := p3 j o' (by simpa using hj)
        have e : i + (j + 1) = i + 1 + j := by omega
        rw [e]
        exact this

theorem map_counts {outs : List Out} {n : Nat} (hn : outs.length = n) {f : Out → Nat} {g : Nat → Nat}
    (h : ∀ (j : Nat) (o : Out), outs[j]? = some o → f o = g j) : outs.map f = (List.range n).map g := by
  apply List.ext_getElem?
  intro j
  rw [List.getElem?_map, List.getElem?_map]
  by_cases hj : j < n
  · rw [List.getElem?_range hj, List.getElem?_eq_getElem (by omega), Option.map_some, Option.map_some, h j _ (List.getElem?_eq_getElem (by omega))]
  · rw [List.getElem?_eq_none (by omega), List.getElem?_eq_none (by simpa using hj)]
    rfl

/-- `pd_split_diagram` as a whole. -/
theorem splitDiagram_ok (qs : QSort) (hS : Scattered pd) {caps : Io.Caps} (hcap : pd.edge.length ≤ caps.edges)
    (hsmall : 2 * pd.edge.length < 2 ^ 31) :
    ∃ outs code, splitDiagram qs caps pd = .ok outs ∧ Labels pd code ∧ (∀ k, k < outs.length ↔ k ∈ code) ∧
      ∀ (k : Nat) (o : Out), outs[k]? = some o → Part pd (fun e => code[e]? = some k) o := by
  obtain ⟨code, n, h1, h2, h3, h4⟩ := C35_split_labels hS.loose (by
    unfold UNSET_IDX
    omega)
  have hL : Labels pd code := ⟨h2, h3⟩
  obtain ⟨outs, p1, p2, p3⟩ := pieces_ok qs (pd := pd) (code := code) (caps := caps)
    (P := fun i o => Part pd (fun e => code[e]? = some i) o ∧ Counts pd code i o) n 0 (fun j _ hj => by
      obtain ⟨o, a, b, c⟩ := piece_ok qs hS hL hcap hsmall ((h4 j).mp (by omega))
      exact ⟨o, a, b, c⟩)
  have p3' : ∀ (j : Nat) (o : Out), outs[j]? = some o → Part pd (fun e => code[e]? = some j) o ∧ Counts pd code j o := by
    intro j o hj
    have := p3 j o hj
    rw [Nat.zero_add] at this
    exact this
  have hlab : ∀ e, e < pd.edge.length → ∃ i < n, code[e]? = some i := by
    intro e he
    have := List.getElem?_eq_getElem (by omega : e < code.length)
    exact ⟨_, (h4 _).mpr (List.mem_of_getElem? this), this⟩
  refine ⟨outs, code, ?_, hL, fun k => by rw [p2, h4], fun k o hk => (p3' k o hk).1⟩
  unfold splitDiagram
  rw [h1, ok_bind]
  simp only
  rw [p1, ok_bind]
  have s1 : (outs.map ncross).sum = pd.cross.length := by
    rw [map_counts p2 (fun j o hj => (p3' j o hj).2.cross), sum_fibers, List.length_range]
    intro c hc
    rw [List.mem_range] at hc
    have h0 := slot_of_lt hc (k := 0) (by decide)
    rw [h0, Option.bind_some]
    obtain ⟨r, r1, -⟩ := hS.loose.slots _ _ _ h0
    exact hlab _ (List.getElem?_eq_some_iff.mp r1).1
  have s2 : (outs.map nedges).sum = pd.edge.length := by
    rw [map_counts p2 (fun j o hj => (p3' j o hj).2.edge), sum_fibers (fun x => some x), h2]
    intro x hx
    exact ⟨x, (h4 x).mpr hx, rfl⟩
  have s3 : (outs.map ncomps).sum = pd.comp.length := by
    rw [map_counts p2 (fun j o hj => (p3' j o hj).2.comp), sum_fibers (fun k : Comp => code[k.edge.headD 0]?)]
    intro k hk
    exact hlab _ (edge_lt hS hk (headD_mem (hS.nonempty k hk)))
  rw [assertC_ok (by simpa using s1), ok_bind, assertC_ok (by simpa using s2), ok_bind, assertC_ok (by simpa using s3), ok_bind]

end Plc.Split
