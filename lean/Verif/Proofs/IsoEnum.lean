import Verif.Model.IsoSearch
import Verif.Props.Multidx
import Verif.Props.Cmp
import Verif.Proofs.Reorient
import Verif.Proofs.Cycles
import Mathlib.Data.Nat.Factorial.Basic
import Mathlib.Tactic.SplitIfs
import Mathlib.Tactic.ByContra

/-! # Running through a multi-index, and sorting without repetitions -/

namespace Plc.IsoSearch

open Plc.Cmp Plc.PermM Plc.Emap Plc.Isos Plc.Multidx List

theorem enumLoop_ok {σ α : Type} (ops : Ops σ) (body : List σ → Res α) (state : Nat → Multi σ) (g : Nat → α)
    (hs : ∀ N, incMultidx ops (state N) = .ok (state (N + 1))) : ∀ (n i : Nat),
    (∀ N, i ≤ N → N < i + n → body (state N).obj = .ok (g N)) →
    enumLoop ops body n (state i) = .ok ((List.range' i n).map g)
  | 0, _, _ => rfl
  | n + 1, i, hb => by
    rw [enumLoop, hb i (by omega) (by omega), ok_bind, hs, ok_bind,
      enumLoop_ok ops body state g hs n (i + 1) (fun N h1 h2 => hb N (by omega) (by omega)), ok_bind, List.range'_succ,
      List.map_cons]

/-- What a loop over a multi-index collects: one value for each choice of the objects, different ones for
different choices if the body tells them apart. -/
theorem enum_spec {σ α : Type} (ops : Ops σ) (objs : List σ) (ks : List Nat) (visit : Nat → Nat → σ)
    (hlen : objs.length = ks.length)
    (hcyc : ∀ (p : Nat) s k, objs[p]? = some s → ks[p]? = some k → Cycles ops s k (visit p))
    (hsmall : ks.prod < 2 ^ 32) (body : List σ → Res α) (g : List σ → α)
    (hbody : ∀ t : List σ, t.length = objs.length →
      (∀ (p : Nat) k, ks[p]? = some k → ∃ d, d < k ∧ t[p]? = some (visit p d)) → body t = .ok (g t)) :
    ∃ (m0 : Multi σ) (L : List (List σ)), newMultidx ops objs = .ok m0 ∧
      enumLoop ops body (multidxNvals m0) m0 = .ok (L.map g) ∧ L.Nodup ∧
      ∀ t, t ∈ L ↔ t.length = objs.length ∧
        ∀ (p : Nat) k, ks[p]? = some k → ∃ d, d < k ∧ t[p]? = some (visit p d) := by
  obtain ⟨m0, state, h1, _, h3, h4, h5, h6, _, h8⟩ := C12_multidx_enumerates ops objs ks visit hlen hcyc
  have hstep : ∀ N, incMultidx ops (state N) = .ok (state (N + 1)) := by
    intro N
    have := h3 (N + 1)
    rw [iterRes, h3 N, ok_bind] at this
    exact this
  have h0 : state 0 = m0 := by
    have := h3 0
    rw [iterRes] at this
    exact (Except.ok.inj this).symm
  refine ⟨m0, (List.range ks.prod).map (fun N => (state N).obj), h1, ?_, ?_, ?_⟩
  · rw [h8 hsmall, ← h0, enumLoop_ok ops body state (fun N => g (state N).obj) hstep _ _
      (fun N _ _ => hbody _ (h6 N).1 (h6 N).2), List.map_map, List.range_eq_range']
    rfl
  · rw [List.nodup_iff_pairwise_ne, List.pairwise_map]
    refine (List.pairwise_lt_range (n := ks.prod)).imp_of_mem ?_
    intro a b _ hb hab
    exact h4 a b hab (List.mem_range.mp hb)
  · intro t
    rw [List.mem_map]
    constructor
    · rintro ⟨N, _, rfl⟩
      exact h6 N
    · rintro ⟨a, b⟩
      obtain ⟨N, hN, e⟩ := h5 t a b
      exact ⟨N, List.mem_range.mpr hN, e⟩

/-! ### Sorting -/

theorem pairsOk_true {α : Type} {cmp : α → α → Res Int} {c : α → α → Int} : ∀ {l : List α},
    (∀ a ∈ l, ∀ b ∈ l, cmp a b = .ok (c a b)) → pairsOk cmp l = true
  | [], _ => rfl
  | a :: l, h => by
    rw [pairsOk, pairsOk_true (fun x hx y hy => h x (by simp [hx]) y (by simp [hy])), Bool.and_true, List.all_eq_true]
    intro b hb
    rw [h a (by simp) b (by simp [hb]), h b (by simp [hb]) a (by simp)]
    rfl

/-- Sorting pairwise different elements with a consistent comparison leaves no equal neighbours. -/
theorem sorted_unique {α : Type} (qs : QSort) {P : α → Prop} {same : α → α → Prop} {cmp : α → α → Res Int}
    (hc : ConsistentOrderR P same cmp) {l : List α} (hP : ∀ a ∈ l, P a) (hne : l ≠ [])
    (hdist : l.Pairwise (fun a b => ¬ same a b)) (hsymm : ∀ a b, same a b → same b a)
    {eq : α → α → Res Bool} (heq : ∀ a b, P a → P b → ∃ s, eq a b = .ok s ∧ (s = true ↔ same a b)) :
    ∃ s, sortR qs cmp l = .ok s ∧ s ~ l ∧ noneSame eq s = .ok true := by
  obtain ⟨c, h1, h2⟩ := hc
  have hok : pairsOk cmp l = true := pairsOk_true (fun a ha b hb => h1 a b (hP a ha) (hP b hb))
  have hp := qs.perm (leOf cmp) l
  refine ⟨qs.sort (leOf cmp) l, by rw [sortR, if_pos hok], hp, ?_⟩
  have hd : (qs.sort (leOf cmp) l).Pairwise (fun a b => ¬ same a b) :=
    (hp.pairwise_iff (fun h h' => h (hsymm _ _ h'))).mpr hdist
  have hne' : qs.sort (leOf cmp) l ≠ [] := by
    intro h
    rw [h] at hp
    exact hne hp.symm.eq_nil
  have hP' : ∀ a ∈ qs.sort (leOf cmp) l, P a := fun a ha => hP a (hp.subset ha)
  generalize qs.sort (leOf cmp) l = s at hd hne' hP'
  clear hp hok hdist hne hP
  induction s with
  | nil => exact absurd rfl hne'
  | cons a s ih =>
    cases s with
    | nil => rfl
    | cons b s =>
      obtain ⟨e, e1, e2⟩ := heq a b (hP' a (by simp)) (hP' b (by simp))
      have : e = false := by
        rw [Bool.eq_false_iff]
        intro h
        rw [List.pairwise_cons] at hd
        exact hd.1 b (by simp) (e2.mp h)
      rw [noneSame, e1, ok_bind, this]
      exact ih (List.pairwise_cons.mp hd).2 (by simp) (fun x hx => hP' x (by simp [hx]))

theorem sameBy_ok {α : Type} {P : α → Prop} {same : α → α → Prop} {cmp : α → α → Res Int}
    (hc : ConsistentOrderR P same cmp) (a b : α) (ha : P a) (hb : P b) :
    ∃ s, sameBy cmp a b = .ok s ∧ (s = true ↔ same a b) := by
  obtain ⟨c, h1, h2⟩ := hc
  refine ⟨decide (c a b = 0), ?_, ?_⟩
  · rw [sameBy, h1 a b ha hb]
    rfl
  · rw [decide_eq_true_iff]
    exact h2.zero a b ha hb

theorem allOk_true {α : Type} {ok : α → Res Bool} : ∀ {l : List α}, (∀ a ∈ l, ok a = .ok true) → allOk ok l = .ok true
  | [], _ => rfl
  | a :: l, h => by
    rw [allOk, h a (by simp), ok_bind, if_pos rfl]
    exact allOk_true (fun x hx => h x (by simp [hx]))

/-! ### Maps built block by block -/

/-- A list of `n` different numbers below `n` is a permutation. -/
theorem perm_range_of {m : List Nat} {n : Nat} (hl : m.length = n) (hlt : ∀ x ∈ m, x < n) (hnd : m.Nodup) :
    m ~ List.range n := by
  have hs : m ⊆ List.range n := fun x hx => List.mem_range.mpr (hlt x hx)
  exact (hnd.subperm hs).perm_of_length_le (by simp [hl])

theorem images_ok {frm dst d : List Nat} : ∀ (k j : Nat) {m : List Nat}, j + k = frm.length → frm.Nodup →
    (∀ x ∈ frm, x < m.length) → d.length = frm.length → (∀ x ∈ d, x < dst.length) →
    ∃ m', images frm dst d k j m = .ok m' ∧ m'.length = m.length ∧
      (∀ i x y z, j ≤ i → frm[i]? = some x → d[i]? = some y → dst[y]? = some z → m'[x]? = some z) ∧
      ∀ x, (∀ i, j ≤ i → frm[i]? ≠ some x) → m'[x]? = m[x]?
  | 0, j, m, h, _, _, _, _ => by
    refine ⟨m, rfl, rfl, ?_, fun _ _ => rfl⟩
    intro i x y z hi hx
    have := (List.getElem?_eq_some_iff.mp hx).1
    omega
  | k + 1, j, m, h, hn, hb, hl, hd => by
    have hj : j < frm.length := by omega
    have hjd : j < d.length := by omega
    have hy := hd _ (List.getElem_mem hjd)
    have hx := hb _ (List.getElem_mem hj)
    obtain ⟨m', h1, h2, h3, h4⟩ := images_ok (dst := dst) k (j + 1) (m := m.set frm[j] dst[d[j]]) (by omega) hn
      (by simpa using hb) hl hd
    refine ⟨m', ?_, by simpa using h2, ?_, ?_⟩
    · rw [images, rd_lt hj, ok_bind, rd_lt hjd, ok_bind, rd_lt hy, ok_bind, wr_lt hx, ok_bind, h1]
    · intro i x y z hi hfx hdy htz
      rcases Nat.lt_or_eq_of_le hi with hi | rfl
      · exact h3 i x y z hi hfx hdy htz
      · rw [List.getElem?_eq_getElem hj, Option.some.injEq] at hfx
        rw [List.getElem?_eq_getElem hjd, Option.some.injEq] at hdy
        subst hfx hdy
        rw [List.getElem?_eq_getElem hy, Option.some.injEq] at htz
        subst htz
        rw [h4 frm[j] ?_]
        · rw [List.getElem?_set_self hx]
        · intro i hi' he
          obtain ⟨a, b⟩ := List.getElem?_eq_some_iff.mp he
          have := (List.Nodup.getElem_inj_iff hn).mp b
          omega
    · intro x hx'
      rw [h4 x (fun i hi => hx' i (by omega))]
      rw [List.getElem?_set_ne]
      intro he
      exact hx' j (by omega) (by rw [List.getElem?_eq_getElem hj, he])

theorem paint_ok (o : Or) : ∀ (l : List Nat) {os : List Or}, (∀ x ∈ l, x < os.length) →
    ∃ os', paint o l os = .ok os' ∧ os'.length = os.length ∧ (∀ x ∈ l, os'[x]? = some o) ∧
      ∀ x, x ∉ l → os'[x]? = os[x]?
  | [], os, _ => ⟨os, rfl, rfl, by simp, fun _ _ => rfl⟩
  | a :: l, os, h => by
    have ha := h a (by simp)
    obtain ⟨os', h1, h2, h3, h4⟩ := paint_ok o l (os := os.set a o) (fun x hx => by simpa using h x (by simp [hx]))
    refine ⟨os', ?_, by simpa using h2, ?_, ?_⟩
    · rw [paint, wr_lt ha, ok_bind, h1]
    · intro x hx
      by_cases hl : x ∈ l
      · exact h3 x hl
      · rw [h4 x hl]
        rcases List.mem_cons.mp hx with rfl | hx
        · rw [List.getElem?_set_self ha]
        · exact absurd hx hl
    · intro x hx
      simp only [List.mem_cons, not_or] at hx
      rw [h4 x hx.2, List.getElem?_set_ne (Ne.symm hx.1)]

/-- A map which sends blocks to different blocks, each one to one, is a permutation. -/
theorem blocks_perm {G H : List (List Nat)} {n : Nat} (hG : G.flatten ~ List.range n) (hH : H.flatten ~ List.range n)
    {κ : Nat → Nat} (hκ : ∀ i j, i < G.length → j < G.length → κ i = κ j → i = j) {m : List Nat} (hm : m.length = n)
    {d : Nat → List Nat}
    (h : ∀ (i : Nat) g, G[i]? = some g → ∃ h, H[κ i]? = some h ∧ (d i).Nodup ∧
      ∀ (j x : Nat), g[j]? = some x → ∃ y z, (d i)[j]? = some y ∧ h[y]? = some z ∧ m[x]? = some z) :
    m ~ List.range n := by
  have hGn : G.flatten.Nodup := hG.nodup_iff.mpr List.nodup_range
  have hHn : H.flatten.Nodup := hH.nodup_iff.mpr List.nodup_range
  have key : ∀ x, x < n → ∃ (i : Nat) (g : List Nat) (j : Nat) (hh : List Nat) (y z : Nat), G[i]? = some g ∧
      g[j]? = some x ∧ H[κ i]? = some hh ∧ (d i)[j]? = some y ∧ hh[y]? = some z ∧ m[x]? = some z ∧ (d i).Nodup := by
    intro x hx
    have hx' : x ∈ G.flatten := hG.mem_iff.mpr (List.mem_range.mpr hx)
    obtain ⟨g, hg, hxg⟩ := List.mem_flatten.mp hx'
    obtain ⟨i, hi⟩ := List.mem_iff_getElem?.mp hg
    obtain ⟨j, hj⟩ := List.mem_iff_getElem?.mp hxg
    obtain ⟨hh, h1, h2, h3⟩ := h i g hi
    obtain ⟨y, z, h4, h5, h6⟩ := h3 j x hj
    exact ⟨i, g, j, hh, y, z, hi, hj, h1, h4, h5, h6, h2⟩
  refine perm_range_of hm ?_ ?_
  · intro v hv
    obtain ⟨x, hx⟩ := List.mem_iff_getElem?.mp hv
    obtain ⟨i, g, j, hh, y, z, _, _, k3, _, k5, k6, _⟩ := key x (by
      have := (List.getElem?_eq_some_iff.mp hx).1
      omega)
    rw [hx] at k6
    cases k6
    exact List.mem_range.mp (hH.mem_iff.mp (List.mem_flatten.mpr ⟨hh, List.mem_of_getElem? k3, List.mem_of_getElem? k5⟩))
  · rw [List.nodup_iff_injective_getElem]
    rintro ⟨x, hx⟩ ⟨x', hx'⟩ he
    simp only at he
    obtain ⟨i, g, j, hh, y, z, k1, k2, k3, k4, k5, k6, k7⟩ := key x (by omega)
    obtain ⟨i', g', j', hh', y', z', l1, l2, l3, l4, l5, l6, _⟩ := key x' (by omega)
    rw [List.getElem?_eq_getElem hx, Option.some.injEq] at k6
    rw [List.getElem?_eq_getElem hx', Option.some.injEq] at l6
    have hz : z = z' := by rw [← k6, ← l6, he]
    subst hz
    have hii : κ i = κ i' := Cycles.flat_unique hHn k3 l3 (List.mem_of_getElem? k5) (List.mem_of_getElem? l5)
    have := hκ i i' (List.getElem?_eq_some_iff.mp k1).1 (List.getElem?_eq_some_iff.mp l1).1 hii
    subst this
    rw [k3] at l3
    cases l3
    have hhn : hh.Nodup := (List.nodup_flatten.mp hHn).1 hh (List.mem_of_getElem? k3)
    obtain ⟨a1, a2⟩ := List.getElem?_eq_some_iff.mp k5
    obtain ⟨b1, b2⟩ := List.getElem?_eq_some_iff.mp l5
    have hy : y = y' := (List.Nodup.getElem_inj_iff hhn).mp (a2.trans b2.symm)
    subst hy
    obtain ⟨a3, a4⟩ := List.getElem?_eq_some_iff.mp k4
    obtain ⟨b3, b4⟩ := List.getElem?_eq_some_iff.mp l4
    have hj : j = j' := (List.Nodup.getElem_inj_iff k7).mp (a4.trans b4.symm)
    subst hj
    rw [k1] at l1
    cases l1
    rw [k2] at l2
    cases l2
    rfl

end Plc.IsoSearch
