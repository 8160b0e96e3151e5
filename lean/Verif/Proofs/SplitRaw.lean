import Verif.Model.SplitDiagram
import Verif.Spec.SplitDiagram
import Verif.Proofs.Split
import Verif.Proofs.EraseFull
import Mathlib.Data.List.Sort
import Mathlib.Data.Finset.Sort

/-! The loops which copy a piece. -/

namespace Plc.Split

open Plc.Core Plc.Cmp Plc.Buffers Plc.Moves Plc.BigonDel List

theorem pick_ok (code : List Nat) (i : Nat) : ∀ (l : List Comp), (∀ k ∈ l, k.edge ≠ []) → (∀ k ∈ l, ∀ e ∈ k.edge, e < code.length) →
    pick code i l = .ok (l.filter (fun k => decide (code[k.edge.headD 0]? = some i)))
  | [], _, _ => rfl
  | k :: l, h1, h2 => by
    obtain ⟨e, m, hk⟩ := List.exists_cons_of_ne_nil (h1 k (by simp))
    have he := h2 k (by simp) e (by rw [hk]; simp)
    unfold pick
    rw [rd_ok (a := e) (by rw [hk]; rfl), ok_bind, rd_lt he, ok_bind,
      pick_ok code i l (fun k hk => h1 k (by simp [hk])) (fun k hk => h2 k (by simp [hk])), ok_bind, List.filter_cons, hk]
    simp only [List.headD_cons, List.getElem?_eq_getElem he, Option.some.injEq]
    by_cases hc : code[e] = i
    · simp [hc]
    · simp [hc]

theorem takeEdges_ok (maxP maxC : Nat) (edge : List Edge) : ∀ (E : List Nat) (n : Nat) (new : List Nat), new.length = maxP →
    (∀ e ∈ E, e < maxP ∧ e < edge.length) → E.Nodup → n + E.length ≤ maxC →
    ∃ new', takeEdges maxP maxC edge E n new = .ok (E.map (fun e => edge[e]!), new') ∧ new'.length = maxP ∧
      (∀ (j e : Nat), E[j]? = some e → new'[e]? = some (n + j)) ∧ ∀ e, e ∉ E → new'[e]? = new[e]?
  | [], n, new, hl, _, _, _ => ⟨new, rfl, hl, by simp, fun _ _ => rfl⟩
  | e :: E, n, new, hl, h1, h2, h3 => by
    obtain ⟨a, b⟩ := h1 e (by simp)
    rw [List.nodup_cons] at h2
    rw [List.length_cons] at h3
    obtain ⟨new', g1, g2, g3, g4⟩ := takeEdges_ok maxP maxC edge E (n + 1) (new.set e n) (by simpa using hl)
      (fun x hx => h1 x (by simp [hx])) h2.2 (by omega)
    refine ⟨new', ?_, g2, ?_, ?_⟩
    · unfold takeEdges
      rw [assertC_ok (by simpa using a), ok_bind, assertC_ok (by simp; omega), ok_bind, wr_lt (by omega), ok_bind, rd_lt b, ok_bind,
        g1, ok_bind, List.map_cons, getElem!_pos edge e b]
    · intro j x hx
      cases j with
      | zero =>
        simp only [List.getElem?_cons_zero, Option.some.injEq] at hx
        subst hx
        rw [g4 _ h2.1, List.getElem?_set_self (by omega)]
        rfl
      | succ j =>
        rw [List.getElem?_cons_succ] at hx
        rw [g3 j x hx]
        congr 1
        omega
    · intro x hx
      simp only [List.mem_cons, not_or] at hx
      rw [g4 x hx.2, List.getElem?_set_ne (Ne.symm hx.1)]

theorem takeComps_ok (maxP maxC : Nat) (edge : List Edge) : ∀ (l : List Comp) (n : Nat) (new : List Nat), new.length = maxP →
    (∀ e ∈ l.flatMap (·.edge), e < maxP ∧ e < edge.length) → (l.flatMap (·.edge)).Nodup → n + (l.flatMap (·.edge)).length ≤ maxC →
    ∃ l' new', takeComps maxP maxC edge l n new = .ok (l', (l.flatMap (·.edge)).map (fun e => edge[e]!), new') ∧ new'.length = maxP ∧
      (∀ (j e : Nat), (l.flatMap (·.edge))[j]? = some e → new'[e]? = some (n + j)) ∧
      (∀ e, e ∉ l.flatMap (·.edge) → new'[e]? = new[e]?) ∧
      l'.flatMap (·.edge) = List.range' n (l.flatMap (·.edge)).length ∧
      Forall₂ (fun k k' : Comp => k'.tag = k.tag ∧ k'.edge.length = k.edge.length ∧
        ∀ (j f : Nat), k'.edge[j]? = some f → n ≤ f ∧ (l.flatMap (·.edge))[f - n]? = k.edge[j]?) l l'
  | [], n, new, hl, _, _, _ => ⟨[], new, rfl, hl, by simp, fun _ _ => rfl, rfl, .nil⟩
  | k :: l, n, new, hl, h1, h2, h3 => by
    rw [List.flatMap_cons] at h1 h2 h3 ⊢
    rw [List.length_append] at h3
    rw [List.nodup_append] at h2
    obtain ⟨n1, n2, n3⟩ := h2
    obtain ⟨new1, a1, a2, a3, a4⟩ := takeEdges_ok maxP maxC edge k.edge n new hl (fun e he => h1 e (by simp [he])) n1 (by omega)
    obtain ⟨l', new', b1, b2, b3, b4, b5, b6⟩ := takeComps_ok maxP maxC edge l (n + k.edge.length) new1 a2
      (fun e he => h1 e (List.mem_append.mpr (.inr he))) n2 (by omega)
    refine ⟨{ k with edge := List.range' n k.edge.length } :: l', new', ?_, b2, ?_, ?_, ?_, ?_⟩
    · unfold takeComps
      rw [a1, ok_bind]
      simp only
      rw [b1, ok_bind, List.map_append]
    · intro j e hj
      by_cases hlt : j < k.edge.length
      · rw [List.getElem?_append_left hlt] at hj
        have hne : e ∉ l.flatMap (·.edge) := fun hc => n3 e (List.mem_of_getElem? hj) e hc rfl
        rw [b4 e hne, a3 j e hj]
      · rw [List.getElem?_append_right (by omega)] at hj
        rw [b3 _ e hj]
        congr 1
        omega
    · intro e he
      rw [List.mem_append, not_or] at he
      rw [b4 e he.2, a4 e he.1]
    · rw [List.flatMap_cons, b5, List.length_append]
      simp only
      rw [List.range'_append_1]
    · refine .cons ⟨rfl, by simp, ?_⟩ (b6.imp ?_)
      · intro j f hf
        simp only at hf
        have hj : j < k.edge.length := by
          have := (List.getElem?_eq_some_iff.mp hf).1
          simpa using this
        rw [List.getElem?_range' hj] at hf
        cases hf
        refine ⟨by omega, ?_⟩
        rw [List.getElem?_append_left (by omega)]
        congr 1
        omega
      · rintro c c' ⟨c1, c2, c3⟩
        refine ⟨c1, c2, fun j f hf => ?_⟩
        obtain ⟨d1, d2⟩ := c3 j f hf
        refine ⟨by omega, ?_⟩
        rw [List.getElem?_append_right (by omega), ← d2]
        congr 1
        omega

theorem takeCross_ok (maxC : Nat) (cross : List Cross) (new : List Nat) : ∀ (cs : List Nat) (d : Nat) (num : List Nat),
    num.length = cross.length → (∀ c ∈ cs, ∃ x, cross[c]? = some x ∧ ∀ k, x.at k < new.length) → cs.Nodup → d + cs.length ≤ maxC →
    ∃ cross1 num', takeCross maxC cross new cs d num = .ok (cross1, num') ∧ cross1.length = cs.length ∧ num'.length = cross.length ∧
      (∀ (j c : Nat), cs[j]? = some c → num'[c]? = some (d + j)) ∧ (∀ c, c ∉ cs → num'[c]? = num[c]?) ∧
      ∀ (j : Nat) (x' : Cross), cross1[j]? = some x' → ∃ c x, cs[j]? = some c ∧ cross[c]? = some x ∧ x'.sign = x.sign ∧
        ∀ k, new[x.at k]? = some (x'.at k)
  | [], d, num, hl, _, _, _ => ⟨[], num, rfl, rfl, hl, by simp, fun _ _ => rfl, by simp⟩
  | c :: cs, d, num, hl, h1, h2, h3 => by
    obtain ⟨x, hx, hn⟩ := h1 c (by simp)
    have hc : c < num.length := by rw [hl]; exact (List.getElem?_eq_some_iff.mp hx).1
    rw [List.nodup_cons] at h2
    rw [List.length_cons] at h3
    obtain ⟨cross1, num', g1, g2, g3, g4, g5, g6⟩ := takeCross_ok maxC cross new cs (d + 1) (num.set c d) (by simpa using hl)
      (fun y hy => h1 y (by simp [hy])) h2.2 (by omega)
    have q0 : x.e0 < new.length := hn 0
    have q1 : x.e1 < new.length := hn 1
    have q2 : x.e2 < new.length := hn 2
    have q3 : x.e3 < new.length := hn 3
    refine ⟨⟨new[x.e0], new[x.e1], new[x.e2], new[x.e3], x.sign⟩ :: cross1, num', ?_, by simp [g2], g3, ?_, ?_, ?_⟩
    · unfold takeCross
      rw [assertC_ok (by simp; omega), ok_bind, rd_ok hx, ok_bind, wr_lt hc, ok_bind, rd_lt q0, ok_bind, rd_lt q1, ok_bind, rd_lt q2,
        ok_bind, rd_lt q3, ok_bind, g1, ok_bind]
    · intro j y hy
      cases j with
      | zero =>
        simp only [List.getElem?_cons_zero, Option.some.injEq] at hy
        subst hy
        rw [g5 _ h2.1, List.getElem?_set_self hc]
        rfl
      | succ j =>
        rw [List.getElem?_cons_succ] at hy
        rw [g4 j y hy]
        congr 1
        omega
    · intro y hy
      simp only [List.mem_cons, not_or] at hy
      rw [g5 y hy.2, List.getElem?_set_ne (Ne.symm hy.1)]
    · intro j x' hx'
      cases j with
      | zero =>
        simp only [List.getElem?_cons_zero, Option.some.injEq] at hx'
        subst hx'
        refine ⟨c, x, by simp, hx, rfl, ?_⟩
        intro k
        have hk : k % 4 < 4 := Nat.mod_lt _ (by decide)
        rw [← Cross.at_mod, ← Cross.at_mod _ k]
        interval_cases k % 4 <;> simp [Cross.at, q0, q1, q2, q3]
      | succ j =>
        rw [List.getElem?_cons_succ] at hx'
        obtain ⟨c', y, y1, y2, y3, y4⟩ := g6 j x' hx'
        exact ⟨c', y, by rw [List.getElem?_cons_succ]; exact y1, y2, y3, y4⟩

theorem everyFourth_rep : ∀ u : List Nat, everyFourth (u.flatMap (fun a => List.replicate 4 a)) = u
  | [] => rfl
  | a :: u => by
    rw [List.flatMap_cons]
    change everyFourth (a :: a :: a :: a :: (u.flatMap (fun a => List.replicate 4 a))) = a :: u
    rw [everyFourth, everyFourth_rep u]

theorem count_rep (x : Nat) : ∀ u : List Nat, (u.flatMap (fun a => List.replicate 4 a)).count x = 4 * u.count x
  | [] => rfl
  | a :: u => by
    rw [List.flatMap_cons, List.count_append, count_rep x u, List.count_replicate, List.count_cons]
    by_cases h : a = x <;> simp [h]
    omega

theorem sorted_rep : ∀ u : List Nat, u.Pairwise (· < ·) → (u.flatMap (fun a => List.replicate 4 a)).Pairwise (· ≤ ·)
  | [], _ => by simp
  | a :: u, h => by
    rw [List.pairwise_cons] at h
    rw [List.flatMap_cons, List.pairwise_append]
    refine ⟨List.pairwise_replicate.mpr (.inr (Nat.le_refl _)), sorted_rep u h.2, ?_⟩
    intro x hx y hy
    obtain ⟨b, hb, hy⟩ := List.mem_flatMap.mp hy
    rw [List.eq_of_mem_replicate hx, List.eq_of_mem_replicate hy]
    have := h.1 b hb
    omega

/-- If everything occurs four times, every fourth entry of the sorted list is everything once, in order. -/
theorem fourth (qs : QSort) (l : List Nat) (h : ∀ x ∈ l, l.count x = 4) :
    (everyFourth (qs.sort (fun a b => decide (idxCmp a b ≤ 0)) l)).Pairwise (· < ·) ∧
      (∀ x, x ∈ everyFourth (qs.sort (fun a b => decide (idxCmp a b ≤ 0)) l) ↔ x ∈ l) ∧
      4 * (everyFourth (qs.sort (fun a b => decide (idxCmp a b ≤ 0)) l)).length = l.length := by
  let u := l.toFinset.sort (· ≤ ·)
  have hu : u.Pairwise (· < ·) := Finset.sortedLT_sort _ |>.pairwise
  have hm : ∀ x, x ∈ u ↔ x ∈ l := by intro x; simp [u]
  have hp : (u.flatMap (fun a => List.replicate 4 a)).Perm l := by
    rw [List.perm_iff_count]
    intro x
    rw [count_rep]
    by_cases hx : x ∈ l
    · rw [h x hx, List.count_eq_one_of_mem (hu.imp (fun h => Nat.ne_of_lt h)) ((hm x).mpr hx)]
    · rw [List.count_eq_zero_of_not_mem hx, List.count_eq_zero_of_not_mem (fun hc => hx ((hm x).mp hc))]
  have hs := qs.sorted (fun a b => decide (idxCmp a b ≤ 0)) l
    (fun a b _ _ => by rw [idxCmp_le, idxCmp_le, Bool.or_eq_true, decide_eq_true_eq, decide_eq_true_eq]; omega)
    (fun a b c _ _ _ => by rw [idxCmp_le, idxCmp_le, idxCmp_le, decide_eq_true_eq, decide_eq_true_eq, decide_eq_true_eq]; omega)
  have hs' : (qs.sort (fun a b => decide (idxCmp a b ≤ 0)) l).Pairwise (· ≤ ·) :=
    hs.imp (fun h => by rw [idxCmp_le, decide_eq_true_eq] at h; exact h)
  have he : qs.sort (fun a b => decide (idxCmp a b ≤ 0)) l = u.flatMap (fun a => List.replicate 4 a) := by
    refine List.Perm.eq_of_pairwise (le := (· ≤ ·)) ?_ hs' (sorted_rep u hu) ((qs.perm _ l).trans hp.symm)
    intro a b _ _ h1 h2
    omega
  rw [he, everyFourth_rep]
  refine ⟨hu, hm, ?_⟩
  rw [← hp.length_eq]
  simp [List.length_flatMap]
  omega

end Plc.Split
