import Verif.Model.DeleteArc
import Verif.Props.Components

/-! # C83: deleting an arc of a curve -/

namespace Plc.Vect

open Plc.Core Plc.Io Plc.Cst

variable {N : NumFmt}

/-- A component as a polygon: whether it is open, and its vertices. -/
def polygon (s : Strand N) : Bool × List (V3 N) := (s.isOpen, s.vt)

/-- The open polygons with these vertices, those without vertices left out. -/
def pieces (l : List (List (V3 N))) : List (Bool × List (V3 N)) := (l.filter fun v => !v.isEmpty).map fun v => (true, v)

theorem fixWrap_polygon (s : Strand N) : polygon (fixWrap s) = (s.isOpen || decide (s.vt.length < 3), s.vt) := by
  unfold fixWrap polygon
  simp only
  split <;> rename_i h
  · rw [h]
  · simp only
    have : (s.isOpen || decide (s.vt.length < 3)) = false := by simpa using h
    rw [this]
    cases h' : s.isOpen with
    | true => rw [h'] at this; simp at this
    | false => rfl

theorem settled_polygon {s : Strand N} (h : Settled s) : polygon (fixWrap s) = polygon s := by rw [fixWrap_settled h]

theorem map_settled_polygon {l : List (Strand N)} (h : ∀ s ∈ l, Settled s) : (l.map fixWrap).map polygon = l.map polygon := by
  rw [map_settled h]

theorem readAt_ok (s : Strand N) : ∀ (is : List Int) (vs : List (V3 N)), is.length = vs.length →
    (∀ (j : Nat) (i : Int) (v : V3 N), is[j]? = some i → vs[j]? = some v → vertAt s i = .ok v) → readAt s is = .ok vs
  | [], [], _, _ => rfl
  | [], _ :: _, h, _ => by simp at h
  | _ :: _, [], h, _ => by simp at h
  | i :: is, v :: vs, h, hr => by
    rw [readAt, hr 0 i v rfl rfl, ok_bind, readAt_ok s is vs (by simpa using h) (fun j i' v' hi hv => hr (j + 1) i' v' (by simpa using hi) (by simpa using hv)),
      ok_bind]

theorem vertAt_ok (s : Strand N) (j : Nat) (v : V3 N) (h : s.vt[j]? = some v) : vertAt s (j : Int) = .ok v := by
  have hj := (List.getElem?_eq_some_iff.mp h).1
  unfold vertAt
  rw [if_neg (by omega), if_neg (by omega), if_neg (by omega), Int.toNat_natCast]
  exact rd_eq_ok.mpr h

theorem vertAt_hi (s : Strand N) : vertAt s (s.vt.length : Int) = .ok s.hi := by
  unfold vertAt
  rw [if_neg (by omega), if_pos rfl]

/-- What `replaceComp` makes of the polygons. -/
theorem replace_polygons (L : Curve N) (i : Nat) (s t : Strand N) (hi : L.cp[i]? = some s) (hL : ∀ s ∈ L.cp, Settled s) (ht : t.isOpen = true) :
    (replaceComp L i t).cp.map polygon = (L.cp.map polygon).take i ++ (true, t.vt) :: (L.cp.map polygon).drop (i + 1) := by
  have hl := (List.getElem?_eq_some_iff.mp hi).1
  unfold replaceComp fixWrapAll
  simp only
  rw [List.set_eq_take_append_cons_drop, if_pos hl, List.map_append, List.map_append, List.map_cons, List.map_cons, fixWrap_polygon, ht,
    map_settled_polygon (fun s hs => hL s (List.mem_of_mem_take hs)), map_settled_polygon (fun s hs => hL s (List.mem_of_mem_drop hs)), List.map_take,
    List.map_drop]
  rfl

theorem cutTo_ok (s : Strand N) (new kept : List (V3 N)) (h1 : new.length ≤ s.vt.length + 1) (h2 : kept ≠ []) (h3 : kept.length ≤ s.vt.length)
    (h4 : (new ++ (s.vt ++ [s.hi]).drop new.length).take kept.length = kept) :
    ∃ t, cutTo s new kept.length true = .ok t ∧ t.isOpen = true ∧ t.vt = kept ∧ t.clr = s.clr := by
  have hp : 0 < kept.length := List.length_pos_of_ne_nil h2
  unfold cutTo
  rw [if_neg (by omega)]
  exact ⟨_, rfl, rfl, by simp only [Int.toNat_natCast]; exact h4, rfl⟩

theorem fixWrap_same (s : Strand N) : (fixWrap s).clr = s.clr ∧ (fixWrap s).vt = s.vt := by
  unfold fixWrap
  simp only
  split <;> exact ⟨rfl, rfl⟩

theorem replace_get (L : Curve N) (i : Nat) (hl : i < L.cp.length) (t : Strand N) :
    ∃ u, (replaceComp L i t).cp[i]? = some u ∧ u.vt = t.vt ∧ u.clr = t.clr := by
  refine ⟨fixWrap t, ?_, (fixWrap_same t).2, (fixWrap_same t).1⟩
  unfold replaceComp fixWrapAll
  simp only
  rw [List.getElem?_map, List.getElem?_set_self hl]
  rfl

theorem take_own (new rest : List (V3 N)) (n : Nat) (h : n ≤ new.length) : (new ++ rest).take n = new.take n := by
  rw [List.take_append_of_le_length h]

/-- **C83, open components.** `plc_delete_arc` removes the vertices from `a` to `b`, both included: what is before and what is after them
remain as open components at the place of the old one. All other components are as before; all constraints are gone. -/
theorem C83_open (L : Curve N) (hp : Proper L) (hL : ∀ s ∈ L.cp, Settled s) (i a b : Nat) (s : Strand N) (hi : L.cp[i]? = some s)
    (ho : s.isOpen = true) (hab : a ≤ b) (hb : b < s.vt.length) :
    ∃ L', deleteArc L i a b = .ok L' ∧ L'.cst = [] ∧
      L'.cp.map polygon = (L.cp.map polygon).take i ++ pieces [s.vt.take a, s.vt.drop (b + 1)] ++ (L.cp.map polygon).drop (i + 1) := by
  have hl := (List.getElem?_eq_some_iff.mp hi).1
  have h1 := (hp.verts s (List.mem_of_getElem? hi)).1
  unfold deleteArc
  rw [C68_copy L hp, ok_bind]
  simp only
  rw [if_neg (by omega), Int.toNat_natCast, rd_eq_ok.mpr hi, ok_bind]
  simp only [ho, if_true]
  rw [if_neg (by omega)]
  have hdrop : b + 1 < s.vt.length → s.vt.drop (b + 1) ≠ [] := by
    intro h e
    have := congrArg List.length e
    rw [List.length_drop, List.length_nil] at this
    omega
  by_cases ha : a = 0
  · subst ha
    rw [if_pos (by simp)]
    by_cases hb' : b + 1 = s.vt.length
    · rw [if_pos (by omega)]
      unfold dropComponent
      simp only
      rw [assertC_ok (by simp), ok_bind, assertC_ok (by simp; omega), ok_bind, Int.toNat_natCast, ok_bind]
      refine ⟨_, rfl, rfl, ?_⟩
      unfold fixWrapAll
      simp only
      rw [map_settled_polygon (fun s hs => hL s (List.mem_of_mem_eraseIdx hs)), List.eraseIdx_eq_take_drop_succ, List.map_append, List.map_take,
        List.map_drop]
      simp [pieces, hb']
    · rw [if_neg (by omega)]
      have hr : readAt s ((List.range ((s.vt.length : Int) - (b : Int)).toNat).map fun (vt : Nat) => (vt : Int) + (b : Int) + 1) = .ok (s.vt.drop (b + 1) ++ [s.hi]) := by
        refine readAt_ok s _ _ (by simp; omega) fun j i' v hi' hv => ?_
        rw [List.getElem?_map, List.getElem?_range] at hi'
        · simp only [Option.map_some, Option.some.injEq] at hi'
          subst hi'
          rcases Nat.lt_or_ge j (s.vt.drop (b + 1)).length with hj | hj
          · rw [List.getElem?_append_left hj, List.getElem?_drop] at hv
            rw [← vertAt_ok s _ v hv]; congr 1; omega
          · rw [List.getElem?_append_right hj] at hv
            have hj0 : j - (s.vt.drop (b + 1)).length = 0 := by
              have := (List.getElem?_eq_some_iff.mp hv).1
              simpa using this
            rw [hj0] at hv
            simp only [List.getElem?_cons_zero, Option.some.injEq] at hv
            subst hv
            rw [List.length_drop] at hj hj0
            rw [← vertAt_hi s]; congr 1; omega
        · obtain ⟨x, hx, -⟩ := Option.map_eq_some_iff.mp hi'
          have := (List.getElem?_eq_some_iff.mp hx).1
          simpa using this
      rw [hr, ok_bind]
      obtain ⟨t, ht, h2, h3, -⟩ := cutTo_ok s (s.vt.drop (b + 1) ++ [s.hi]) (s.vt.drop (b + 1)) (by simp) (hdrop (by omega)) (by simp)
        (by rw [take_own _ _ _ (by simp), List.take_append_of_le_length (le_refl _), List.take_length])
      rw [List.length_drop] at ht
      rw [show (s.vt.length : Int) - ((b : Int) + 1) = ((s.vt.length - (b + 1) : Nat) : Int) by omega, ht, ok_bind]
      refine ⟨_, rfl, rfl, ?_⟩
      rw [replace_polygons _ i s t (by exact hi) (by exact hL) h2, h3]
      have : (s.vt.drop (b + 1)).isEmpty = false := by
        cases h : s.vt.drop (b + 1) with
        | nil => exact absurd h (hdrop (by omega))
        | cons x l => rfl
      simp [pieces, this]
  · rw [if_neg (by omega)]
    have htake : s.vt.take a ≠ [] := by
      intro e
      have := congrArg List.length e
      rw [List.length_take, List.length_nil] at this
      omega
    have hte : (s.vt.take a).isEmpty = false := by
      cases h : s.vt.take a with
      | nil => exact absurd h htake
      | cons x l => rfl
    obtain ⟨t, ht, h2, h3, -⟩ := cutTo_ok s [] (s.vt.take a) (by simp) htake (by simp)
      (by rw [List.nil_append, List.length_nil, List.drop_zero, List.length_take, List.take_append_of_le_length (by omega), Nat.min_eq_left (by omega)])
    rw [List.length_take, Nat.min_eq_left (by omega)] at ht
    by_cases hb' : b + 1 = s.vt.length
    · rw [if_pos (by omega), ht, ok_bind]
      refine ⟨_, rfl, rfl, ?_⟩
      rw [replace_polygons _ i s t (by exact hi) (by exact hL) h2, h3]
      simp [pieces, hte, hb']
    · rw [if_neg (by omega)]
      obtain ⟨L1, n, e1, e2, e3, e4, e5, e6, e7, e8, e9, e10⟩ := C68_add { L with cst := [] } hL (i + 1) (s.vt.length - (b + 1)) 0 true (s.vt.drop (b + 1)) none
        (by simp only; omega) (by omega) (by rw [List.length_drop]) (by simp)
      have e1' : addComponent { L with cst := [] } ((i : Int) + 1) ((s.vt.length : Int) - ((b : Int) + 1)) true 0 (s.vt.drop (b + 1)) none = .ok L1 := by
        rw [← e1]; congr 1; omega
      rw [show ((b : Int) + 1).toNat = b + 1 by omega, e1', ok_bind, ht, ok_bind]
      have hcp : L1.cp = L.cp.take (i + 1) ++ n :: L.cp.drop (i + 1) := by
        refine List.ext_getElem? fun k => ?_
        have hlen : (L.cp.take (i + 1)).length = i + 1 := by rw [List.length_take]; omega
        rcases Nat.lt_trichotomy k (i + 1) with h | rfl | h
        · rw [e9 k h, List.getElem?_append_left (by omega), List.getElem?_take, if_pos h]
        · rw [e4, List.getElem?_append_right (by omega), hlen, Nat.sub_self]; rfl
        · obtain ⟨k, rfl⟩ : ∃ k', k = k' + 1 := ⟨k - 1, by omega⟩
          rw [e10 k (by omega), List.getElem?_append_right (by omega), hlen, show k + 1 - (i + 1) = (k - (i + 1)) + 1 by omega, List.getElem?_cons_succ,
            List.getElem?_drop]
          simp only
          congr 1; omega
      have hL1 : ∀ s ∈ L1.cp, Settled s := by
        intro x hx
        rw [hcp] at hx
        rcases List.mem_append.mp hx with hx | hx
        · exact hL x (List.mem_of_mem_take hx)
        · rcases List.mem_cons.mp hx with rfl | hx
          · exact e7
          · exact hL x (List.mem_of_mem_drop hx)
      refine ⟨_, rfl, by show L1.cst = []; rw [e2], ?_⟩
      rw [replace_polygons L1 i s t (by rw [e9 i (by omega)]; exact hi) hL1 h2, h3]
      have hn : polygon n = (true, s.vt.drop (b + 1)) := by
        unfold polygon
        rw [e8, e5, Bool.true_or, List.take_of_length_le (by rw [List.length_drop])]
      have hde : (s.vt.drop (b + 1)).isEmpty = false := by
        cases h : s.vt.drop (b + 1) with
        | nil => exact absurd h (hdrop (by omega))
        | cons x l => rfl
      have hm : L1.cp.map polygon = (L.cp.map polygon).take (i + 1) ++ (true, s.vt.drop (b + 1)) :: (L.cp.map polygon).drop (i + 1) := by
        rw [hcp, List.map_append, List.map_cons, hn, List.map_take, List.map_drop]
      have hlen : ((L.cp.map polygon).take (i + 1)).length = i + 1 := by rw [List.length_take, List.length_map]; omega
      rw [hm, List.take_append_of_le_length (by omega), List.take_take, Nat.min_eq_left (by omega), List.drop_append, hlen, Nat.sub_self, List.drop_zero,
        List.drop_of_length_le (by omega), List.nil_append]
      simp [pieces, hte, hde]

/-- **C83, open components.** If the second vertex comes before the first one, only the constraints are removed. -/
theorem C83_open_null (L : Curve N) (hp : Proper L) (i : Nat) (s : Strand N) (hi : L.cp[i]? = some s) (ho : s.isOpen = true) (a b : Int) (h : b < a) :
    deleteArc L i a b = .ok { L with cst := [] } := by
  unfold deleteArc
  rw [C68_copy L hp, ok_bind]
  simp only
  rw [if_neg (by omega), Int.toNat_natCast, rd_eq_ok.mpr hi, ok_bind]
  simp only [ho, if_true]
  rw [if_pos h]

/-- What is left of a closed component when the vertices from `a` on to `b`, around if need be, are taken away: the others in order,
beginning after `b`. -/
def leftOver (vt : List (V3 N)) (a b : Nat) : List (V3 N) :=
  if a ≤ b then vt.drop (b + 1) ++ vt.take a else (vt.drop (b + 1)).take (a - (b + 1))

theorem leftOver_length (vt : List (V3 N)) (a b : Nat) (ha : a < vt.length) (hb : b < vt.length) :
    (leftOver vt a b).length = if a ≤ b then vt.length - (b + 1 - a) else a - (b + 1) := by
  unfold leftOver
  split
  · rw [List.length_append, List.length_drop, List.length_take]; omega
  · rw [List.length_take, List.length_drop]; omega

theorem leftOver_get (vt : List (V3 N)) (a b : Nat) (ha : a < vt.length) (hb : b < vt.length) (j : Nat) (v : V3 N) (h : (leftOver vt a b)[j]? = some v) :
    vt[(j + b + 1) % vt.length]? = some v := by
  have hj := (List.getElem?_eq_some_iff.mp h).1
  rw [leftOver_length vt a b ha hb] at hj
  unfold leftOver at h
  split at h <;> rename_i hab
  · rw [if_pos hab] at hj
    rcases Nat.lt_or_ge j (vt.drop (b + 1)).length with h' | h'
    · rw [List.getElem?_append_left h', List.getElem?_drop] at h
      rw [List.length_drop] at h'
      rw [Nat.mod_eq_of_lt (by omega), ← h]; congr 1; omega
    · rw [List.getElem?_append_right h'] at h
      rw [List.length_drop] at h' h
      rw [List.getElem?_take, if_pos (by omega)] at h
      rw [Nat.mod_eq_sub_mod (by omega), Nat.mod_eq_of_lt (by omega), ← h]; congr 1; omega
  · rw [if_neg hab] at hj
    rw [List.getElem?_take, if_pos hj, List.getElem?_drop] at h
    rw [Nat.mod_eq_of_lt (by omega), ← h]; congr 1; omega

theorem read_around (s : Strand N) (a b : Nat) (ha : a < s.vt.length) (hb : b < s.vt.length) (k : Int) (hk : k = ((leftOver s.vt a b).length : Int)) :
    readAt s (keptAround k b s.vt.length) = .ok (leftOver s.vt a b) := by
  subst hk
  refine readAt_ok s _ _ (by simp [keptAround]) fun j i v hi hv => ?_
  unfold keptAround at hi
  have hj := (List.getElem?_eq_some_iff.mp hv).1
  rw [List.getElem?_map, List.getElem?_range (by rw [Int.toNat_natCast]; exact hj), Option.map_some, Option.some.injEq] at hi
  subst hi
  rw [← vertAt_ok s _ v (leftOver_get s.vt a b ha hb j v hv)]
  congr 1

/-- **C83, closed components.** `plc_delete_arc` removes the vertices from `a` on to `b`, both included, around if `b` comes before `a`;
the others remain as one open component which begins after `b`, and if there are none, the component is gone. The colours of what
remains are all colours of the component. -/
theorem C83_closed (L : Curve N) (hp : Proper L) (hL : ∀ s ∈ L.cp, Settled s) (i a b : Nat) (s : Strand N) (hi : L.cp[i]? = some s)
    (ho : s.isOpen = false) (ha : a < s.vt.length) (hb : b < s.vt.length) :
    ∃ L', deleteArc L i a b = .ok L' ∧ L'.cst = [] ∧
      L'.cp.map polygon = (L.cp.map polygon).take i ++ pieces [leftOver s.vt a b] ++ (L.cp.map polygon).drop (i + 1) ∧
      (leftOver s.vt a b ≠ [] → ∃ t, L'.cp[i]? = some t ∧ t.vt = leftOver s.vt a b ∧ t.clr = s.clr) := by
  have hl := (List.getElem?_eq_some_iff.mp hi).1
  have hlen := leftOver_length s.vt a b ha hb
  unfold deleteArc
  rw [C68_copy L hp, ok_bind]
  simp only
  rw [if_neg (by omega), Int.toNat_natCast, rd_eq_ok.mpr hi, ok_bind]
  simp only [ho, Bool.false_eq_true, if_false]
  have hkeep : leftOver s.vt a b ≠ [] → ∀ k : Int, k = ((leftOver s.vt a b).length : Int) → ∃ L', (do
        let new ← readAt s (keptAround k b s.vt.length)
        let t ← cutTo s new k true
        Except.ok (replaceComp { L with cst := [] } i t)) = Except.ok L' ∧ L'.cst = [] ∧
      L'.cp.map polygon = (L.cp.map polygon).take i ++ pieces [leftOver s.vt a b] ++ (L.cp.map polygon).drop (i + 1) ∧
      (leftOver s.vt a b ≠ [] → ∃ t, L'.cp[i]? = some t ∧ t.vt = leftOver s.vt a b ∧ t.clr = s.clr) := by
    intro hne k hk
    have hle : (leftOver s.vt a b).length ≤ s.vt.length := by rw [hlen]; split <;> omega
    rw [read_around s a b ha hb k hk, ok_bind, hk]
    obtain ⟨t, ht, h2, h3, h4⟩ := cutTo_ok s (leftOver s.vt a b) (leftOver s.vt a b) (by omega) hne hle
      (by rw [take_own _ _ _ (le_refl _), List.take_length])
    rw [ht, ok_bind]
    refine ⟨_, rfl, rfl, ?_, fun _ => ?_⟩
    swap
    · obtain ⟨u, hu, h5, h6⟩ := replace_get { L with cst := [] } i hl t
      exact ⟨u, hu, h5.trans h3, h6.trans h4⟩
    rw [replace_polygons _ i s t (by exact hi) (by exact hL) h2, h3]
    have : (leftOver s.vt a b).isEmpty = false := by
      cases h : leftOver s.vt a b with
      | nil => exact absurd h hne
      | cons x l => rfl
    simp [pieces, this]
  by_cases h : ((a : Int) = (b : Int) + 1 ∨ (a : Int) ≤ 0 ∧ (b : Int) ≥ (s.vt.length : Int) - 1)
  · rw [if_pos h]
    have hnil : leftOver s.vt a b = [] := by
      refine List.length_eq_zero_iff.mp ?_
      rw [hlen]; split <;> omega
    unfold dropComponent
    simp only
    rw [assertC_ok (by simp), ok_bind, assertC_ok (by simp; omega), ok_bind, Int.toNat_natCast, ok_bind]
    refine ⟨_, rfl, rfl, ?_, fun h => absurd hnil h⟩
    unfold fixWrapAll
    simp only
    rw [map_settled_polygon (fun s hs => hL s (List.mem_of_mem_eraseIdx hs)), List.eraseIdx_eq_take_drop_succ, List.map_append, List.map_take,
      List.map_drop, hnil]
    simp [pieces]
  · rw [if_neg h]
    have hne : leftOver s.vt a b ≠ [] := by
      intro e
      rw [e, List.length_nil] at hlen
      split at hlen <;> omega
    split
    · exact hkeep hne _ (by rw [hlen, if_pos (by omega)]; omega)
    · exact hkeep hne _ (by rw [hlen, if_neg (by omega)]; omega)

/-- **C83, outside of the component.** On a closed component, an arc as long as the component or longer leaves no vertex, and memory
outside of the component is accessed, unless it begins at or before 0 and ends at or after the last vertex. -/
theorem C83_closed_outside (L : Curve N) (hp : Proper L) (i : Nat) (s : Strand N) (hi : L.cp[i]? = some s) (ho : s.isOpen = false) (a b : Int)
    (ha : 0 < a) (h : (s.vt.length : Int) ≤ b - a + 1) : deleteArc L i a b = .error .ub := by
  have h1 := (hp.verts s (List.mem_of_getElem? hi)).1
  unfold deleteArc
  rw [C68_copy L hp, ok_bind]
  simp only
  rw [if_neg (by omega), Int.toNat_natCast, rd_eq_ok.mpr hi, ok_bind]
  simp only [ho, Bool.false_eq_true, if_false]
  rw [if_neg (by omega), if_pos (by omega)]
  unfold keptAround
  rw [show ((s.vt.length : Int) - (b - a + 1)).toNat = 0 by omega]
  show (cutTo s [] _ true >>= _) = _
  unfold cutTo
  rw [if_pos (by omega)]
  rfl

theorem newOk_false : ∀ (l : List (Strand N)) (t : Strand N), t ∈ l → t.vt.length < t.clr.length →
    newOk (l.map fun s => s.vt.length) (l.map fun s => (s.clr.length : Int)) = false
  | [], t, h, _ => by cases h
  | s :: l, t, h, hc => by
    rw [List.map_cons, List.map_cons, newOk]
    rcases List.mem_cons.mp h with rfl | h
    · rw [decide_eq_false (show ¬ (t.clr.length : Int) ≤ (t.vt.length : Int) by omega)]
      simp
    · rw [newOk_false l t h hc, Bool.and_false]

/-- **C83, twice.** If a closed component has one colour for every vertex and a part of it is deleted, it has more colours than vertices
afterwards, and deleting any arc of the result, as copying it, ends the program. -/
theorem C83_colours_twice (L : Curve N) (hp : Proper L) (hL : ∀ s ∈ L.cp, Settled s) (i a b : Nat) (s : Strand N) (hi : L.cp[i]? = some s)
    (ho : s.isOpen = false) (ha : a < s.vt.length) (hb : b < s.vt.length) (hc : s.clr.length = s.vt.length) (hne : leftOver s.vt a b ≠ []) :
    ∃ L', deleteArc L i a b = .ok L' ∧ copy L' = .error .die ∧ ∀ cp vt1 vt2, deleteArc L' cp vt1 vt2 = .error .die := by
  obtain ⟨L', h1, -, -, h2⟩ := C83_closed L hp hL i a b s hi ho ha hb
  obtain ⟨t, ht, h3, h4⟩ := h2 hne
  have hlen := leftOver_length s.vt a b ha hb
  have hcopy : copy L' = .error .die := by
    unfold copy
    have hl := (List.getElem?_eq_some_iff.mp ht).1
    rw [assertC_ok (by simp; omega), ok_bind, newOk_false L'.cp t (List.mem_of_getElem? ht) (by rw [h3, h4, hc, hlen]; split <;> omega)]
    rfl
  refine ⟨L', h1, hcopy, fun cp vt1 vt2 => ?_⟩
  unfold deleteArc
  rw [hcopy]
  rfl

/-- Vertex 1 of the closed triangle of the sample is deleted: vertices 2 and 0 remain, in this order. -/
example : ∃ L', deleteArc sample 0 1 1 = .ok L' ∧ ∃ s t, sample.cp[0]? = some s ∧ L'.cp[0]? = some t ∧ t.vt = s.vt.drop 2 ++ s.vt.take 1 := by
  obtain ⟨L', h1, -, -, h2⟩ := C83_closed sample sample_proper sample_settled 0 1 1 _ rfl rfl (by decide) (by decide)
  obtain ⟨t, ht, h3, -⟩ := h2 (by simp [leftOver])
  exact ⟨L', h1, _, t, rfl, ht, h3⟩

end Plc.Vect
