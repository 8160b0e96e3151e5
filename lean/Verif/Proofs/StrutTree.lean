import Verif.Proofs.StrutList

/-! # The struts of a curve: the tree -/

namespace Plc.Struts

open Plc.Core Plc.FindCrossings Plc.RandomPolygon Plc.Equilateral Plc.Motions Plc.Measure Plc.Poca

/-- The component of an edge, and the vertices before, at and after it. -/
structure Known (cp : List Comp) (e : Varr) (c : Comp) (e0 e1 e2 : V3) : Prop where
  comp : cp[e.comp]? = some c
  v0 : vtAt c ((e.vert : Int) - 1) = .ok e0
  v1 : vtAt c (e.vert : Int) = .ok e1
  v2 : vtAt c ((e.vert : Int) + 1) = .ok e2
  mid : e.v = along e1 e2 (1 / 2)
  len : e.len = apart e1 e2
  ne : e1 ≠ e2

theorem Known.same {cp : List Comp} {e : Varr} {c c' : Comp} {e0 e1 e2 f0 f1 f2 : V3} (h : Known cp e c e0 e1 e2) (h' : Known cp e c' f0 f1 f2) :
    c = c' ∧ e0 = f0 ∧ e1 = f1 ∧ e2 = f2 := by
  have hc : c = c' := by have := h.comp.symm.trans h'.comp; simpa using this
  subst hc
  have a := h.v0.symm.trans h'.v0
  have b := h.v1.symm.trans h'.v1
  have d := h.v2.symm.trans h'.v2
  simp only [Except.ok.injEq] at a b d
  exact ⟨rfl, a, b, d⟩

/-- All edges are edges of the curve. -/
def AllKnown (cp : List Comp) (es : List Varr) : Prop := ∀ e ∈ es, ∃ c e0 e1 e2, Known cp e c e0 e1 e2

/-- The strut of two edges, whatever its length. -/
def IsCand (cp : List Comp) (pi : Int) (me e : Varr) (x : Strut) : Prop :=
  ∃ c v0 v1 v2 c' e0 e1 e2 s t d, Known cp me c v0 v1 v2 ∧ Known cp e c' e0 e1 e2 ∧ apartEnough c' pi me e = true ∧
    findPoca v1 v2 e1 e2 = some (s, t, d) ∧ passes v0 v1 v2 e0 e1 e2 (finalPv c (me.vert + 1)) (finalPv c' (e.vert + 1)) s t ∧
    x = ⟨me.comp, e.comp, me.vert, e.vert, s, t, d⟩

theorem IsCand.unique {cp : List Comp} {pi : Int} {me e : Varr} {x y : Strut} (hx : IsCand cp pi me e x) (hy : IsCand cp pi me e y) : x = y := by
  obtain ⟨c, v0, v1, v2, c', e0, e1, e2, s, t, d, a1, a2, a3, a4, a5, rfl⟩ := hx
  obtain ⟨k, w0, w1, w2, k', f0, f1, f2, s', t', d', b1, b2, b3, b4, b5, rfl⟩ := hy
  obtain ⟨rfl, rfl, rfl, rfl⟩ := a1.same b1
  obtain ⟨rfl, rfl, rfl, rfl⟩ := a2.same b2
  rw [a4] at b4
  simp only [Option.some.injEq, Prod.mk.injEq] at b4
  obtain ⟨rfl, rfl, rfl⟩ := b4
  rfl

open Classical in
noncomputable def cand (cp : List Comp) (pi : Int) (me e : Varr) : Option Strut := if h : ∃ x, IsCand cp pi me e x then some h.choose else none

theorem cand_iff {cp : List Comp} {pi : Int} {me e : Varr} {x : Strut} : cand cp pi me e = some x ↔ IsCand cp pi me e x := by
  unfold cand
  constructor
  · intro h
    split at h
    · rename_i hx
      simp only [Option.some.injEq] at h
      rw [← h]; exact hx.choose_spec
    · simp at h
  · intro h
    have hx : ∃ x, IsCand cp pi me e x := ⟨x, h⟩
    rw [dif_pos hx]
    exact congrArg some (hx.choose_spec.unique h)

theorem cand_none {cp : List Comp} {pi : Int} {me e : Varr} (h : ∀ x, ¬ IsCand cp pi me e x) : cand cp pi me e = none := by
  unfold cand
  rw [dif_neg]
  rintro ⟨x, hx⟩
  exact h x hx

/-- The struts of edge `i` to the edges before it among `k` ones from `j` on. -/
noncomputable def candsIn (cp : List Comp) (es : List Varr) (pi : Int) (i : Nat) (me : Varr) : Nat → Nat → List Strut
  | 0, _ => []
  | k + 1, j => (if j < i then (match es[j]? with
      | some e => (cand cp pi me e).toList
      | none => []) else []) ++ candsIn cp es pi i me k (j + 1)

theorem candsIn_late {cp : List Comp} {es : List Varr} {pi : Int} {i : Nat} {me : Varr} : ∀ (k j : Nat), i ≤ j → candsIn cp es pi i me k j = []
  | 0, _, _ => rfl
  | k + 1, j, h => by
    unfold candsIn
    rw [if_neg (by omega), candsIn_late k (j + 1) (by omega)]
    rfl

theorem candsIn_append {cp : List Comp} {es : List Varr} {pi : Int} {i : Nat} {me : Varr} : ∀ (k l j : Nat),
    candsIn cp es pi i me (k + l) j = candsIn cp es pi i me k j ++ candsIn cp es pi i me l (j + k)
  | 0, l, j => by simp [candsIn]
  | k + 1, l, j => by
    rw [show k + 1 + l = (k + l) + 1 by omega]
    unfold candsIn
    rw [candsIn_append k l (j + 1), List.append_assoc, show j + 1 + k = j + (k + 1) by omega]
    congr 2
    cases l <;> rfl

theorem mem_candsIn {cp : List Comp} {es : List Varr} {pi : Int} {i : Nat} {me : Varr} {x : Strut} : ∀ (k j : Nat), x ∈ candsIn cp es pi i me k j ↔
    ∃ (m : Nat) (e : Varr), j ≤ m ∧ m < j + k ∧ m < i ∧ es[m]? = some e ∧ IsCand cp pi me e x
  | 0, j => by
    simp only [candsIn, List.not_mem_nil, false_iff]
    rintro ⟨m, e, h1, h2, _⟩; omega
  | k + 1, j => by
    unfold candsIn
    rw [List.mem_append, mem_candsIn k (j + 1)]
    constructor
    · rintro (h | ⟨m, e, h1, h2, h3⟩)
      · split at h
        · split at h
          · rename_i hj _ e he
            refine ⟨j, e, le_refl _, by omega, hj, he, ?_⟩
            rw [Option.mem_toList] at h
            exact cand_iff.mp h
          · simp at h
        · simp at h
      · exact ⟨m, e, by omega, by omega, h3⟩
    · rintro ⟨m, e, h1, h2, h3, h4, h5⟩
      rcases Nat.eq_or_lt_of_le h1 with rfl | hlt
      · left
        rw [if_pos h3, h4]
        simp only [Option.mem_toList]
        exact cand_iff.mpr h5
      · exact .inr ⟨m, e, by omega, by omega, h3, h4, h5⟩

/-- One pair. -/
theorem pairStep_eq {cp : List Comp} {cutoff eps : ℝ} {size : Nat} {pi : Int} {me e : Varr} {c c' : Comp} {v0 v1 v2 e0 e1 e2 : V3} {before : Bool} {st : St}
    (hm : Known cp me c v0 v1 v2) (he : Known cp e c' e0 e1 e2) :
    pairStep cp cutoff eps size pi me e v0 v1 v2 (finalPv c (me.vert + 1)) before st =
      offers cutoff eps size (if before = true then (cand cp pi me e).toList else []) st := by
  unfold pairStep
  rw [rd_ok he.comp, ok_bind, he.v1, ok_bind, he.v2, ok_bind]
  by_cases hb : before = true
  swap
  · rw [if_neg (fun h => hb h.1), if_neg hb]; rfl
  rw [if_pos hb]
  by_cases ha : apartEnough c' pi me e = true
  swap
  · rw [if_neg (fun h => ha h.2), cand_none]
    · rfl
    · rintro x ⟨k, w0, w1, w2, k', f0, f1, f2, s, t, d, b1, b2, b3, _⟩
      obtain ⟨rfl, rfl, rfl, rfl⟩ := he.same b2
      exact ha b3
  rw [if_pos ⟨hb, ha⟩, he.v0, ok_bind]
  unfold judge
  rcases hf : findPoca v1 v2 e1 e2 with _ | ⟨s, t, d⟩
  · rw [cand_none]
    · rfl
    · rintro x ⟨k, w0, w1, w2, k', f0, f1, f2, s, t, d, b1, b2, b3, b4, _⟩
      obtain ⟨rfl, rfl, rfl, rfl⟩ := hm.same b1
      obtain ⟨rfl, rfl, rfl, rfl⟩ := he.same b2
      rw [hf] at b4; simp at b4
  · simp only
    by_cases hp : passes v0 v1 v2 e0 e1 e2 (finalPv c (me.vert + 1)) (finalPv c' (e.vert + 1)) s t
    · have : cand cp pi me e = some ⟨me.comp, e.comp, me.vert, e.vert, s, t, d⟩ :=
        cand_iff.mpr ⟨c, v0, v1, v2, c', e0, e1, e2, s, t, d, hm, he, ha, hf, hp, rfl⟩
      rw [this]
      simp only [Option.toList_some, offers, offer]
      by_cases hd : d ≤ upBound cutoff eps st.shortest
      · rw [if_pos hd, if_pos ⟨hd, hp⟩]
        rcases enter cutoff eps size ⟨me.comp, e.comp, me.vert, e.vert, s, t, d⟩ st with _ | _ <;> rfl
      · rw [if_neg hd, if_neg (fun h => hd h.1)]
        rfl
    · rw [if_neg (fun h => hp h.2), cand_none]
      · rfl
      · rintro x ⟨k, w0, w1, w2, k', f0, f1, f2, s, t, d, b1, b2, b3, b4, b5, _⟩
        obtain ⟨rfl, rfl, rfl, rfl⟩ := hm.same b1
        obtain ⟨rfl, rfl, rfl, rfl⟩ := he.same b2
        rw [hf] at b4
        simp only [Option.some.injEq, Prod.mk.injEq] at b4
        obtain ⟨rfl, rfl, rfl⟩ := b4
        exact hp b5

theorem edgeLoop_eq {cp : List Comp} {es : List Varr} {cutoff eps : ℝ} {size : Nat} {pi : Int} {i : Nat} {me : Varr} {c : Comp} {v0 v1 v2 : V3}
    (hm : Known cp me c v0 v1 v2) (hk : AllKnown cp es) : ∀ (k j : Nat) (st : St), j + k ≤ es.length →
    edgeLoop cp es cutoff eps size pi i me v0 v1 v2 (finalPv c (me.vert + 1)) k j st = offers cutoff eps size (candsIn cp es pi i me k j) st
  | 0, j, st, _ => rfl
  | k + 1, j, st, h => by
    have hj : j < es.length := by omega
    unfold edgeLoop candsIn
    obtain ⟨c', e0, e1, e2, he⟩ := hk es[j] (List.getElem_mem hj)
    rw [rd_lt hj, ok_bind, pairStep_eq hm he, offers_append]
    congr 1
    · simp only [decide_eq_true_eq]
      rw [List.getElem?_eq_getElem hj]
    · funext st'
      exact edgeLoop_eq hm hk k (j + 1) st' (by omega)

/-- A tree of boxes of depth at most `f`. -/
def Valid (cp : List Comp) (es : List Varr) (boxes : List Box) : Nat → Nat → Prop
  | 0, _ => False
  | f + 1, p => ∃ B, boxes[p]? = some B ∧ B.first + B.num ≤ es.length ∧
      (∀ (j : Nat) (e : Varr) (c : Comp) (e0 e1 e2 : V3), B.first ≤ j → j < B.first + B.num → es[j]? = some e → Known cp e c e0 e1 e2 →
        InBox B e1 ∧ InBox B e2) ∧
      (leaf B = true ∨ (Follow boxes B.subs B.first B.num ∧ ∀ q, some q ∈ B.subs → Valid cp es boxes f q))

open Classical in
/-- A box which is not searched has no strut of interest. -/
theorem not_worth {big cutoff eps : ℝ} {size : Nat} {cp : List Comp} {es : List Varr} {pi : Int} {i : Nat} {me : Varr} {c : Comp} {v0 v1 v2 : V3} {B : Box}
    (hm : Known cp me c v0 v1 v2)
    (hin : ∀ (j : Nat) (e : Varr) (c : Comp) (e0 e1 e2 : V3), B.first ≤ j → j < B.first + B.num → es[j]? = some e → Known cp e c e0 e1 e2 →
        InBox B e1 ∧ InBox B e2) (st : St) (h : worth big cutoff eps me v0 v1 v2 (finalPv c (me.vert + 1)) B st.shortest ≠ true) :
    offers cutoff eps size (candsIn cp es pi i me B.num B.first) st = .ok st := by
  refine offers_long cutoff eps size st _ ?_
  intro x hx
  by_contra hc
  apply h
  obtain ⟨m, e, h1, h2, h3, h4, k, w0, w1, w2, k', f0, f1, f2, s, t, d, b1, b2, b3, b4, b5, rfl⟩ := (mem_candsIn _ _).mp hx
  obtain ⟨rfl, rfl, rfl, rfl⟩ := hm.same b1
  obtain ⟨i1, i2⟩ := hin m e k' f0 f1 f2 h1 h2 h4 b2
  unfold worth
  rw [Bool.and_eq_true, decide_eq_true_eq]
  exact ⟨close_sound i1 i2 hm.mid hm.len hm.ne b4 (not_lt.mp hc), ramp_sound i1 i2 b4 b5⟩

theorem subLoop_eq {big cutoff eps : ℝ} {size : Nat} {cp : List Comp} {es : List Varr} {boxes : List Box} {pi : Int} {i : Nat} {me : Varr} {c : Comp}
    {v0 v1 v2 : V3} {f : Nat} {search : Nat → St → Res St} (hm : Known cp me c v0 v1 v2)
    (hs : ∀ (q : Nat) (B : Box) (st : St), Valid cp es boxes f q → boxes[q]? = some B →
      search q st = offers cutoff eps size (candsIn cp es pi i me B.num B.first) st) :
    ∀ (subs : List (Option Nat)) (first num : Nat) (st : St), Follow boxes subs first num → (∀ q, some q ∈ subs → Valid cp es boxes f q) →
    subLoop boxes i (worth big cutoff eps me v0 v1 v2 (finalPv c (me.vert + 1))) search subs st = offers cutoff eps size (candsIn cp es pi i me num first) st
  | [], first, num, st, ht, _ => by
    have : num = 0 := ht
    subst this; rfl
  | none :: r, first, num, st, ht, hv => by
    unfold subLoop
    exact subLoop_eq hm hs r first num st ht (fun q hq => hv q (List.mem_cons_of_mem _ hq))
  | some q :: r, first, num, st, ht, hv => by
    obtain ⟨B, hB, h1, h2, h3⟩ := ht
    unfold subLoop
    rw [rd_ok hB, ok_bind]
    by_cases hi : B.first < i
    swap
    · rw [if_neg hi, candsIn_late num first (by omega)]
      rfl
    rw [if_pos hi, show num = B.num + (num - B.num) by omega, candsIn_append, offers_append, ← h1]
    have hq := hv q List.mem_cons_self
    have hstep : (if worth big cutoff eps me v0 v1 v2 (finalPv c (me.vert + 1)) B st.shortest = true then search q st else .ok st) =
        offers cutoff eps size (candsIn cp es pi i me B.num B.first) st := by
      split
      · exact hs q B st hq hB
      · rename_i hw
        symm
        have hq' := hq
        rcases f with _ | f
        · exact absurd hq id
        · obtain ⟨B', hB', _, hin, _⟩ := hq'
          rw [hB] at hB'
          simp only [Option.some.injEq] at hB'
          subst hB'
          exact not_worth hm hin st hw
    have hdo : ∀ k : St → Res St, (if worth big cutoff eps me v0 v1 v2 (finalPv c (me.vert + 1)) B st.shortest = true then search q st >>= k else Except.ok st >>= k) =
        (offers cutoff eps size (candsIn cp es pi i me B.num B.first) st >>= k) := by
      intro k
      rw [← hstep]
      split <;> rfl
    refine (hdo _).trans ?_
    congr 1
    funext st'
    have := subLoop_eq (big := big) hm hs r (first + B.num) (num - B.num) st' h3 (fun q hq => hv q (List.mem_cons_of_mem _ hq))
    refine this.trans ?_
    rw [h1]

/-- The search of a box offers what a search through all its edges offers. -/
theorem checkBoxes_eq {big cutoff eps : ℝ} {size : Nat} {cp : List Comp} {es : List Varr} {boxes : List Box} {pi : Int} {i : Nat} {me : Varr} {c : Comp}
    {v0 v1 v2 : V3} (hm : Known cp me c v0 v1 v2) (hk : AllKnown cp es) : ∀ (f p : Nat) (B : Box) (st : St), Valid cp es boxes f p → boxes[p]? = some B →
    checkBoxes big cp es boxes cutoff eps size pi i me v0 v1 v2 (finalPv c (me.vert + 1)) f p st =
      offers cutoff eps size (candsIn cp es pi i me B.num B.first) st
  | 0, p, B, st, h, _ => absurd h id
  | f + 1, p, B, st, h, hB => by
    obtain ⟨B', hB', hlen, hin, hsub⟩ := h
    rw [hB] at hB'
    simp only [Option.some.injEq] at hB'
    subst hB'
    unfold checkBoxes
    rw [rd_ok hB, ok_bind]
    by_cases hl : leaf B = true
    · rw [if_pos hl]
      exact edgeLoop_eq hm hk _ _ st hlen
    · rw [if_neg hl]
      rcases hsub with h | ⟨ht, hv⟩
      · exact absurd h hl
      · exact subLoop_eq (f := f) hm (fun q B st hq hB => checkBoxes_eq hm hk f q B st hq hB) B.subs B.first B.num st ht hv

/-- All struts, whatever their length: of edges up to `i` with edges before. -/
noncomputable def allCands (cp : List Comp) (es : List Varr) (pi : Int) : Nat → List Strut
  | 0 => []
  | i + 1 => (match es[i + 1]? with
    | some me => candsIn cp es pi (i + 1) me es.length 0
    | none => []) ++ allCands cp es pi i

theorem mem_allCands {cp : List Comp} {es : List Varr} {pi : Int} {x : Strut} : ∀ (i : Nat), x ∈ allCands cp es pi i ↔
    ∃ (k m : Nat) (me e : Varr), k ≤ i ∧ m < k ∧ es[k]? = some me ∧ es[m]? = some e ∧ IsCand cp pi me e x
  | 0 => by
    simp only [allCands, List.not_mem_nil, false_iff]
    rintro ⟨k, m, me, e, h1, h2, _⟩; omega
  | i + 1 => by
    unfold allCands
    rw [List.mem_append, mem_allCands i]
    constructor
    · rintro (h | ⟨k, m, me, e, h1, h2⟩)
      · split at h
        · rename_i me hme
          obtain ⟨m, e, h1, h2, h3, h4, h5⟩ := (mem_candsIn _ _).mp h
          exact ⟨i + 1, m, me, e, le_refl _, h3, hme, h4, h5⟩
        · simp at h
      · exact ⟨k, m, me, e, by omega, h2⟩
    · rintro ⟨k, m, me, e, h1, h2, h3, h4, h5⟩
      rcases Nat.eq_or_lt_of_le h1 with rfl | hlt
      · left
        rw [h3]
        refine (mem_candsIn _ _).mpr ⟨m, e, by omega, ?_, h2, h4, h5⟩
        have := (List.getElem?_eq_some_iff.mp h4).1
        omega
      · exact .inr ⟨k, m, me, e, by omega, h2, h3, h4, h5⟩

theorem mainLoop_eq {big cutoff eps : ℝ} {size : Nat} {cp : List Comp} {es : List Varr} {boxes : List Box} {depth root : Nat} {pi : Int} {B : Box}
    (hk : AllKnown cp es) (hv : Valid cp es boxes depth root) (hB : boxes[root]? = some B) (h0 : B.first = 0) (hn : B.num = es.length) :
    ∀ (i : Nat) (st : St), i < es.length ∨ i = 0 → mainLoop big cp es boxes depth root cutoff eps size pi i st = offers cutoff eps size (allCands cp es pi i) st
  | 0, st, _ => rfl
  | i + 1, st, h => by
    have hi : i + 1 < es.length := by omega
    unfold mainLoop allCands
    obtain ⟨c, e0, e1, e2, he⟩ := hk es[i + 1] (List.getElem_mem hi)
    rw [rd_lt hi, ok_bind, rd_ok he.comp, ok_bind, he.v0, ok_bind, he.v1, ok_bind, he.v2, ok_bind, checkBoxes_eq he hk depth root B st hv hB,
      offers_append, List.getElem?_eq_getElem hi, h0, hn]
    congr 1
    funext st'
    exact mainLoop_eq hk hv hB h0 hn i st' (by omega)

/-- What the search answers. -/
theorem search_ok {big cutoff eps : ℝ} {size : Nat} {cp : List Comp} {es : List Varr} {boxes : List Box} {depth root : Nat} {pi : Int} {B : Box}
    (hk : AllKnown cp es) (hv : Valid cp es boxes depth root) (hB : boxes[root]? = some B) (h0 : B.first = 0) (hn : B.num = es.length) (he : 0 ≤ eps)
    (hpi : piCount cp = .ok pi) :
    ∃ sh l, searchStruts big cp es boxes depth root cutoff eps size = .ok (sh, l) ∧ sh ≤ big ∧
      (∀ x ∈ allCands cp es pi (es.length - 1), (0 < cutoff → x.len ≤ cutoff) → sh ≤ x.len) ∧
      (sh = big ∨ ∃ x ∈ allCands cp es pi (es.length - 1), sh = x.len ∧ (0 < cutoff → x.len ≤ cutoff)) ∧
      l.Subperm (allCands cp es pi (es.length - 1)) ∧ (∀ x ∈ l, x.len ≤ upBound cutoff eps sh) ∧ l.length ≤ size ∧
      (Room cutoff size [] (allCands cp es pi (es.length - 1)) → l.Perm ((allCands cp es pi (es.length - 1)).filter (good (upBound cutoff eps sh)))) := by
  unfold searchStruts
  rw [hpi, ok_bind, mainLoop_eq hk hv hB h0 hn (es.length - 1) _ (by omega)]
  obtain ⟨st', b1, b2, b3, b4, b5, b6, b7, b8⟩ := offers_ok cutoff eps size he (allCands cp es pi (es.length - 1)) ⟨big, []⟩ (by simp)
  rw [b1, ok_bind]
  have b7' := b7 (by simp)
  split
  · obtain ⟨l', h1, h2⟩ := cleanup_ok (upBound cutoff eps st'.shortest) st'.struts
    rw [h1, ok_bind]
    refine ⟨st'.shortest, l', rfl, b2, b4, b5, ?_, ?_, ?_, ?_⟩
    · exact (h2.subperm.trans List.filter_sublist.subperm).trans b6
    · intro x hx
      obtain ⟨m, g⟩ := List.mem_filter.mp (h2.mem_iff.mp hx)
      simpa [good] using g
    · rw [h2.length_eq]; exact le_trans (List.length_filter_le _ _) b7'
    · intro hr
      have := b8 hr
      rw [List.nil_append] at this
      exact h2.trans this
  · rename_i hc
    have hnil : st'.struts = [] := by
      rcases Nat.eq_zero_or_pos st'.struts.length with h | h
      · exact List.length_eq_zero_iff.mp h
      · exfalso; exact hc ⟨by omega, h⟩
    refine ⟨st'.shortest, st'.struts, rfl, b2, b4, b5, b6, by simp [hnil], b7', ?_⟩
    intro hr
    have := b8 hr
    rw [List.nil_append, hnil] at this
    rw [hnil]
    exact this

end Plc.Struts
