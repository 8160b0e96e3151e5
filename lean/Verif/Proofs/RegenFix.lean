import Verif.Proofs.Core

/-! `pd_regenerate_crossings` does nothing to crossings in canonical order. -/

namespace Plc.Core

open Plc.Cmp PermM

/-- The crossing starts with its lowest edge, and an edge that occurs twice side by side
starts it. -/
def CanonCross (c : Cross) : Prop := c.e0 ≤ c.e1 ∧ c.e0 ≤ c.e2 ∧ c.e0 < c.e3

instance (c : Cross) : Decidable (CanonCross c) := by unfold CanonCross; infer_instance

theorem rdist_canon {c : Cross} (h : CanonCross c) : rdist c = 0 := by
  obtain ⟨h1, h2, h3⟩ := h
  obtain ⟨e0, e1, e2, e3, s⟩ := c
  simp only at h1 h2 h3
  have a1 : rdistStep ⟨e0, e1, e2, e3, s⟩ 1 (0, e0) = (0, e0) := by
    simp [rdistStep, Cross.at]; omega
  have a2 : rdistStep ⟨e0, e1, e2, e3, s⟩ 2 (0, e0) = (0, e0) := by
    simp [rdistStep, Cross.at]; omega
  have a3 : rdistStep ⟨e0, e1, e2, e3, s⟩ 3 (0, e0) = (0, e0) := by
    simp [rdistStep, Cross.at]; omega
  have a0 : Cross.at ⟨e0, e1, e2, e3, s⟩ 0 = e0 := rfl
  unfold rdist
  simp only [a0, a1, a2, a3]
  simp [Cross.at]
  omega

theorem permute_range {α : Type} (l : List α) : permute l (List.range l.length) = .ok l := by
  obtain ⟨m, h1, h2, h3⟩ := permute_ok l (List.range l.length) (fun i hi => List.mem_range.mp hi)
  rw [h1]
  congr 1
  apply List.ext_getElem?
  intro i
  rw [List.length_range] at h2 h3
  by_cases hi : i < l.length
  · rw [h3 i hi, ap]
    simp [hi]
  · rw [List.getElem?_eq_none (by omega), List.getElem?_eq_none (by omega)]

theorem regen_fix (qs : QSort) {cross : List Cross} {edge : List Edge}
    (hb : ∀ r ∈ edge, r.head < cross.length ∧ r.tail < cross.length ∧ r.headpos < 4 ∧ r.tailpos < 4)
    (hsm : ∀ c ∈ cross, Small (edges c)) (hcan : ∀ c ∈ cross, CanonCross c)
    (hsort : cross.Pairwise (fun a b => ([a.e0, a.e1, a.e2, a.e3] : List Nat) < [b.e0, b.e1, b.e2, b.e3])) :
    regenCrossings qs cross edge = .ok (cross, edge) := by
  have hrot : cross.map (fun c => rotL c (rdist c)) = cross := by
    conv => rhs; rw [← List.map_id cross]
    apply List.map_congr_left
    intro c hc
    rw [rdist_canon (hcan c hc), rotL_zero]
    rfl
  have hr0 : ∀ i, i < cross.length → ap (cross.map rdist) i = 0 := by
    intro i hi
    have : rdist cross[i] = 0 := rdist_canon (hcan _ (List.getElem_mem hi))
    simp [ap, hi, this]
  have hcm : ∀ a b : Cross, Small (edges a) → Small (edges b) → crossCmp a b ≤ 0 ∨ crossCmp b a ≤ 0 := by
    have := (order_of_key (P := fun c => Small (edges c)) (same := fun a b => edges a = edges b)
      edges (cmp := crossCmp) (fun a b ha hb => lexU_spec _ _ rfl ha hb) (by intros; rfl)).swap
    intro a b ha hb
    have := this a b ha hb
    omega
  have htr := (order_of_key (P := fun c => Small (edges c)) (same := fun a b => edges a = edges b)
      edges (cmp := crossCmp) (fun a b ha hb => lexU_spec _ _ rfl ha hb) (by intros; rfl)).trans
  have hsw := (order_of_key (P := fun c => Small (edges c)) (same := fun a b => edges a = edges b)
      edges (cmp := crossCmp) (fun a b ha hb => lexU_spec _ _ rfl ha hb) (by intros; rfl)).swap
  have hget : ∀ i (hi : i < cross.length), cross[i]? = some cross[i] := by
    intro i hi
    simp [hi]
  have hsm' : ∀ i (hi : i < cross.length), Small (edges cross[i]) := fun i hi => hsm _ (List.getElem_mem hi)
  have hlt : ∀ i j (hi : i < cross.length) (hj : j < cross.length), i < j → crossCmp cross[i] cross[j] < 0 := by
    intro i j hi hj hij
    have h := List.pairwise_iff_getElem.mp hsort i j hi hj hij
    exact (lexU_spec (edges cross[i]) (edges cross[j]) rfl (hsm' i hi) (hsm' j hj)).1.mpr h
  have hperm := qs.perm (crossLe cross) (List.range cross.length)
  have hsorted := qs.sorted (crossLe cross) (List.range cross.length)
    (by
      intro a b ha hb
      rw [List.mem_range] at ha hb
      unfold crossLe
      rw [hget a ha, hget b hb]
      have := hcm _ _ (hsm' a ha) (hsm' b hb)
      simpa using this)
    (by
      intro a b c ha hb hc
      rw [List.mem_range] at ha hb hc
      unfold crossLe
      rw [hget a ha, hget b hb, hget c hc]
      simp only [decide_eq_true_eq]
      exact htr _ _ _ (hsm' a ha) (hsm' b hb) (hsm' c hc))
  have hP : qs.sort (crossLe cross) (List.range cross.length) = List.range cross.length := by
    refine List.Perm.eq_of_pairwise (le := fun a b => a < cross.length → b < cross.length → crossLe cross a b = true) ?_ ?_ ?_ hperm
    · intro a b ha hb h1 h2
      have ha' := List.mem_range.mp (hperm.mem_iff.mp ha)
      have hb' := List.mem_range.mp hb
      have h1 := h1 ha' hb'
      have h2 := h2 hb' ha'
      unfold crossLe at h1 h2
      rw [hget a ha', hget b hb'] at h1 h2
      simp only [decide_eq_true_eq] at h1 h2
      rcases Nat.lt_trichotomy a b with h | h | h
      · have := hlt a b ha' hb' h
        have := hsw cross[a] cross[b] (hsm' a ha') (hsm' b hb')
        omega
      · exact h
      · have := hlt b a hb' ha' h
        have := hsw cross[b] cross[a] (hsm' b hb') (hsm' a ha')
        omega
    · exact hsorted.imp (fun h _ _ => h)
    · refine List.pairwise_lt_range.imp ?_
      intro a b hab ha hb
      unfold crossLe
      rw [hget a ha, hget b hb]
      have := hlt a b ha hb hab
      simp only [decide_eq_true_eq]
      omega
  unfold regenCrossings
  simp only
  rw [hrot, shiftEdges_ok _ _ (fun r hr => by simpa using ⟨(hb r hr).1, (hb r hr).2.1⟩), ok_bind, hP]
  obtain ⟨B, b1, b2, b3, b4⟩ := invLoop_any (List.Perm.refl (List.range cross.length)) (List.replicate cross.length 0) (by simp)
  have hapB : ∀ i, i < cross.length → ap B i = i := by
    intro i hi
    have := b3 i hi
    have e : ap (List.range cross.length) i = i := by simp [ap, hi]
    rwa [e] at this
  rw [b1, ok_bind, renameEnds_ok, ok_bind, permute_range, ok_bind]
  · congr 2
    rw [List.map_map]
    conv => rhs; rw [← List.map_id edge]
    apply List.map_congr_left
    intro r hr
    obtain ⟨r1, r2, r3, r4⟩ := hb r hr
    obtain ⟨h, hp, t, tp⟩ := r
    simp only at r1 r2 r3 r4
    simp only [Function.comp, hr0 _ r1, hr0 _ r2, hapB _ r1, hapB _ r2, id]
    congr 1 <;> omega
  · intro r hr
    obtain ⟨r', hr', rfl⟩ := List.mem_map.mp hr
    rw [b2]
    exact ⟨(hb r' hr').1, (hb r' hr').2.1⟩

end Plc.Core
