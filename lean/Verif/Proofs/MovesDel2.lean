import Verif.Proofs.CompactComps
import Verif.Proofs.Linking

namespace Plc

open Plc.Core Plc.Cmp Plc.Buffers List Plc.Comps

theorem Follows.unique {cross : List Cross} {edge : List Edge} {a b b' : Nat} (h : Follows cross edge a b)
    (h' : Follows cross edge a b') : b = b' := by
  obtain ⟨r, h1, h2⟩ := h
  obtain ⟨r', h1', h2'⟩ := h'
  rw [h1] at h1'
  cases h1'
  rw [h2] at h2'
  exact Option.some.inj h2'

theorem Follows.inj {cross : List Cross} {edge : List Edge} (hC : Consistent cross edge) (hO : Oriented cross edge)
    {a a' b : Nat} (h : Follows cross edge a b) (h' : Follows cross edge a' b) : a = a' := by
  rw [follows_iff hC] at h h'
  exact (injOn_nx hC hO).inj a (Finset.mem_range.mpr h.1) a' (Finset.mem_range.mpr h'.1) (h.2.trans h'.2.symm)

theorem LoopRemoved.follows {cross cross' : List Cross} {edge edge' : List Edge} {c e0 e1 e2 : Nat} {τ σ ρ : Nat → Nat}
    (h : LoopRemoved cross edge c e0 e1 e2 cross' edge' τ σ ρ) {f g : Nat} (hf : f < edge'.length)
    (hg : g < edge'.length) (hfl : Follows cross edge (if τ f = e0 then e2 else τ f) (τ g)) :
    Follows cross' edge' f g := by
  obtain ⟨s, s1, s2⟩ := hfl
  obtain ⟨_, _, _, _, r, hh, k1, k2, _, _, k5, k6⟩ := h.edge f edge'[f] (List.getElem?_eq_getElem hf)
  rw [k2] at s1
  cases s1
  refine ⟨_, List.getElem?_eq_getElem hf, ?_⟩
  refine h.slot_eq (g := τ g) (by assumption) (Nat.mod_lt _ (by decide)) ?_ hg (by rw [if_neg (h.tlt g hg).2.2])
  rw [k5, show ((edge'[f].headpos + 2) % 4 + ρ edge'[f].head) % 4 = (s.headpos + 2) % 4 by omega]
  exact s2

namespace Moves

open Plc.Strands

variable {cross : List Cross} {edge : List Edge} {comps : List Comp} {c e0 e1 e2 : Nat} {r0 r1 r2 : Edge}

theorem LoopAt.follows (h : LoopAt cross edge c e0 e1 e2 r0 r1 r2) (hC : Consistent cross edge) :
    Follows cross edge e0 e1 ∧ Follows cross edge e1 e2 := by
  refine ⟨⟨r0, h.g0, ?_⟩, ⟨r1, h.g1, ?_⟩⟩
  · have := hC.tail _ _ h.g1
    have hlt := (slot_lt this).2
    rw [h.h0, h.p0, show ((r1.tailpos + 2) % 4 + 2) % 4 = r1.tailpos by omega, ← h.t1]
    exact this
  · rw [h.h1, ← h.p2, ← h.t2]
    exact hC.tail _ _ h.g2

theorem rotate_to_front {a : Nat} {l : List Nat} (h : a ∈ l) : ∃ t, l ~r a :: t := by
  obtain ⟨s, t, rfl⟩ := List.append_of_mem h
  exact ⟨t ++ s, List.isRotated_append.trans (by rw [List.cons_append])⟩

/-- A component through the loop starts, after rotation, with the three edges. -/
theorem comp_through (h : LoopAt cross edge c e0 e1 e2 r0 r1 r2) (hC : Consistent cross edge) (h02 : e0 ≠ e2)
    {l : List Nat} (hcyc : Cyclic (Follows cross edge) l) (hm : e0 ∈ l) : ∃ m, l ~r e0 :: e1 :: e2 :: m := by
  obtain ⟨f1, f2⟩ := h.follows hC
  obtain ⟨t, ht⟩ := rotate_to_front hm
  have hc := hcyc.of_isRotated ht
  obtain ⟨x, x1, x2⟩ := hc 0 e0 rfl
  have hx := f1.unique x2
  subst hx
  match t, ht, hc, x1 with
  | [], _, _, x1 => simp at x1; exact absurd x1 h.ne01
  | b :: t, ht, hc, x1 =>
    have hb : b = e1 := by
      rw [List.length_cons, List.length_cons, Nat.mod_eq_of_lt (by omega)] at x1
      simpa using x1
    subst hb
    obtain ⟨y, y1, y2⟩ := hc 1 b rfl
    have hy := f2.unique y2
    subst hy
    match t, ht, y1 with
    | [], _, y1 => simp at y1; exact absurd y1 h02
    | b' :: t, ht, y1 =>
      have hb : b' = e2 := by
        rw [List.length_cons, List.length_cons, List.length_cons, Nat.mod_eq_of_lt (by omega)] at y1
        simpa using y1
      subst hb
      exact ⟨t, ht⟩

theorem comp_pred (hC : Consistent cross edge) (hO : Oriented cross edge) {a b : Nat} (hab : Follows cross edge a b)
    {l : List Nat} (hcyc : Cyclic (Follows cross edge) l) (hm : b ∈ l) : a ∈ l := by
  obtain ⟨t, ht⟩ := rotate_to_front hm
  have hc := hcyc.of_isRotated ht
  have hlast : (b :: t)[t.length]? = some ((b :: t)[t.length]'(by simp)) := List.getElem?_eq_getElem (by simp)
  obtain ⟨x, x1, x2⟩ := hc _ _ hlast
  rw [List.length_cons, Nat.mod_self] at x1
  simp only [List.getElem?_cons_zero, Option.some.injEq] at x1
  subst x1
  rw [hab.inj hC hO x2]
  exact ht.mem_iff.mpr (List.mem_of_getElem? hlast)

/-- Components as cyclic lists are components as closed sets. -/
theorem compsOf_of_cyclic (hall : (comps.flatMap (·.edge)).Perm (range edge.length))
    (hcyc : ∀ c ∈ comps, Cyclic (Follows cross edge) c.edge) : CompsOf cross edge comps := by
  refine ⟨hall, fun c hc e e' he hf => ?_⟩
  obtain ⟨j, hj⟩ := List.mem_iff_getElem?.mp he
  obtain ⟨x, x1, x2⟩ := hcyc c hc j e hj
  rw [hf.unique x2]
  exact List.mem_of_getElem? x1

theorem filter_filterMap_map {α : Type} (l : List α) (g : α → Option Nat) (f : α → Nat) (p : α → Bool) (U : Nat)
    (h : ∀ a ∈ l, g a = some (if p a then f a else U)) (hU : ∀ a ∈ l, p a → f a ≠ U) :
    (l.filterMap g).filter (fun t => decide (t ≠ U)) = (l.filter p).map f := by
  induction l with
  | nil => rfl
  | cons a l ih =>
    have ih := ih (fun x hx => h x (by simp [hx])) (fun x hx => hU x (by simp [hx]))
    rw [List.filterMap_cons, h a (by simp), List.filter_cons, List.filter_cons, ih]
    have := hU a (by simp)
    by_cases hp : p a <;> simp [hp]
    exact this hp

/-- Components after the loop is gone. -/
theorem comps_after (hC : Consistent cross edge) (hO : Oriented cross edge)
    (h : LoopAt cross edge c e0 e1 e2 r0 r1 r2) (h02 : e0 ≠ e2) (hsmall : edge.length < 2 ^ 31)
    (hall : (comps.flatMap (·.edge)).Perm (range edge.length))
    (hcyc : ∀ c ∈ comps, Cyclic (Follows cross edge) c.edge)
    {cross1 : List Cross} {edge1 : List Edge} {eidx : List Nat} {τ σ ρ ν : Nat → Nat}
    (L : LoopRemoved cross edge c e0 e1 e2 cross1 edge1 τ σ ρ) (T : Survive edge.length [e1, e2] edge1.length τ ν)
    (hidx : ∀ i, i < edge.length → eidx[i]? = some (if i ∈ [e1, e2] then UNSET_IDX else ν i)) :
    (∀ c ∈ comps, newEdges eidx c.edge = (c.edge.filter (fun e => decide (e ∉ [e1, e2]))).map ν) ∧
    (comps.flatMap (fun c => newEdges eidx c.edge)).Perm (range edge1.length) ∧
    (∀ c ∈ comps, Cyclic (Follows cross1 edge1) (newEdges eidx c.edge)) := by
  have hmem : ∀ c ∈ comps, ∀ e ∈ c.edge, e < edge.length := by
    intro c hc e he
    have : e ∈ range edge.length := hall.subset (List.mem_flatMap.mpr ⟨c, hc, he⟩)
    simpa using this
  have hnew : ∀ l : List Nat, (∀ e ∈ l, e < edge.length) →
      newEdges eidx l = (l.filter (fun e => decide (e ∉ [e1, e2]))).map ν := by
    intro l hl
    unfold newEdges
    apply filter_filterMap_map
    · intro a ha
      rw [hidx a (hl a ha)]
      by_cases hp : a ∈ [e1, e2] <;> simp [hp]
    · intro a ha hp
      have := (T.down a (hl a ha) (by simpa using hp)).1
      have hle := L.elen
      unfold UNSET_IDX
      omega
  obtain ⟨f1, f2⟩ := h.follows hC
  refine ⟨fun c hc => hnew _ (hmem c hc), ?_, ?_⟩
  · have e : (comps.flatMap (fun c => newEdges eidx c.edge)) =
        ((comps.flatMap (·.edge)).filter (fun e => decide (e ∉ [e1, e2]))).map ν := by
      rw [List.filter_flatMap, List.map_flatMap]
      apply List.flatMap_congr
      intro c hc
      exact hnew _ (hmem c hc)
    rw [e]
    refine ((hall.filter _).map ν).trans ?_
    rw [List.perm_ext_iff_of_nodup _ List.nodup_range]
    · intro a
      rw [List.mem_map, List.mem_range]
      constructor
      · rintro ⟨b, hb, rfl⟩
        rw [List.mem_filter, List.mem_range] at hb
        exact (T.down b hb.1 (by simpa using hb.2)).1
      · intro ha
        refine ⟨τ a, ?_, T.left a ha⟩
        have := T.up a ha
        rw [List.mem_filter, List.mem_range]
        exact ⟨this.1, by simpa using this.2⟩
    · refine List.Nodup.map_on ?_ (List.nodup_range.filter _)
      intro x hx y hy hxy
      rw [List.mem_filter, List.mem_range] at hx hy
      have a := (T.down x hx.1 (by simpa using hx.2)).2
      have b := (T.down y hy.1 (by simpa using hy.2)).2
      rw [← a, hxy, b]
  · intro c' hc'
    rw [hnew _ (hmem c' hc')]
    have hcy := hcyc c' hc'
    have hlt := hmem c' hc'
    have hnd : c'.edge.Nodup := by
      have hn : (comps.flatMap (·.edge)).Nodup := (hall.nodup_iff).mpr List.nodup_range
      rw [List.nodup_flatMap] at hn
      exact hn.1 c' hc'
    -- one step
    have step : ∀ a b, a < edge.length → b < edge.length → a ∉ [e1, e2] → b ∉ [e1, e2] →
        Follows cross edge (if a = e0 then e2 else a) b → Follows cross1 edge1 (ν a) (ν b) := by
      intro a b ha hb na nb hf
      have da := T.down a ha na
      have db := T.down b hb nb
      refine L.follows da.1 db.1 ?_
      rw [da.2, db.2]
      exact hf
    by_cases h0 : e0 ∈ c'.edge
    · obtain ⟨m, hm⟩ := comp_through h hC h02 hcy h0
      have hnd' : (e0 :: e1 :: e2 :: m).Nodup := (hm.nodup_iff).mp hnd
      simp only [List.nodup_cons, List.mem_cons, not_or] at hnd'
      have hlt' : ∀ e ∈ e0 :: e1 :: e2 :: m, e < edge.length := fun e he => hlt e (hm.mem_iff.mpr he)
      have hmk : ∀ x ∈ m, x ∉ [e1, e2] := by
        intro x hx he
        simp only [List.mem_cons, List.not_mem_nil, or_false] at he
        rcases he with rfl | rfl
        · exact hnd'.2.1.2 hx
        · exact hnd'.2.2.1 hx
      have hfil : (e0 :: e1 :: e2 :: m).filter (fun e => decide (e ∉ [e1, e2])) = e0 :: m := by
        rw [List.filter_cons, List.filter_cons, List.filter_cons]
        have : m.filter (fun e => decide (e ∉ [e1, e2])) = m := by
          rw [List.filter_eq_self]
          intro a ha
          simpa using hmk a ha
        rw [this]
        simp [h.ne01, h02]
      have hr : (c'.edge.filter (fun e => decide (e ∉ [e1, e2]))) ~r e0 :: m := by
        rw [← hfil]; exact filter_isRotated hm _
      refine Cyclic.of_isRotated (l := (e0 :: m).map ν) ?_ (hr.symm.map ν)
      apply Cyclic.map
      have hk : ∀ y ∈ e0 :: m, y < edge.length ∧ y ∉ [e1, e2] := by
        intro y hy
        rw [List.mem_cons] at hy
        rcases hy with rfl | hy
        · exact ⟨hlt' _ (by simp), by simp [h.ne01, h02]⟩
        · exact ⟨hlt' y (by simp [hy]), hmk y hy⟩
      refine Cyclic.skip (R := Follows cross edge) (hcy.of_isRotated hm) (fun x hx he => hnd'.1.2.2 (he ▸ hx)) h02 ?_ ?_
      · intro y hy hf
        exact step e0 y (hk e0 (by simp)).1 (hk y hy).1 (hk e0 (by simp)).2 (hk y hy).2 (by rw [if_pos rfl]; exact hf)
      · intro x y hx hy hf
        have hx' := hk x (by simp [hx])
        refine step x y hx'.1 (hk y hy).1 hx'.2 (hk y hy).2 ?_
        rw [if_neg (fun he : x = e0 => hnd'.1.2.2 (he ▸ hx))]
        exact hf
    · have n1 : e1 ∉ c'.edge := fun hm => h0 (comp_pred hC hO f1 hcy hm)
      have n2 : e2 ∉ c'.edge := fun hm => n1 (comp_pred hC hO f2 hcy hm)
      have hno : ∀ x ∈ c'.edge, x ∉ [e1, e2] := by
        intro x hx he
        simp only [List.mem_cons, List.not_mem_nil, or_false] at he
        rcases he with rfl | rfl
        · exact n1 hx
        · exact n2 hx
      have : c'.edge.filter (fun e => decide (e ∉ [e1, e2])) = c'.edge := by
        rw [List.filter_eq_self]
        intro a ha
        simpa using hno a ha
      rw [this]
      apply Cyclic.map
      refine hcy.imp ?_
      intro a b ha hb hf
      refine step a b (hlt a ha) (hlt b hb) (hno a ha) (hno b hb) ?_
      rw [if_neg (fun he : a = e0 => h0 (he ▸ ha))]
      exact hf

end Moves

end Plc
