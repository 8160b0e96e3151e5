import Verif.Model.IterOps
import Verif.Spec.Iter
import Verif.Proofs.Multidx
import Verif.Props.Iters
import Verif.Props.Perm

/-! # Property C12: multi-indices (`src/pd_multidx.c`) -/

namespace Plc.Multidx

/-- Starting from `s`, the iterator runs through `k` different values `visit 0, ...,
visit (k-1)` and the `k`-th increment returns to `s`; `nvals` reports `k`. -/
structure Cycles {σ : Type} (ops : Ops σ) (s : σ) (k : Nat) (visit : Nat → σ) : Prop where
  pos : 0 < k
  small : k < 2 ^ 32
  nvals : ops.nvals s = .ok k
  steps : ∀ i, i ≤ k → iterRes ops.incr i s = .ok (visit i)
  distinct : ∀ i j, i < j → j < k → visit i ≠ visit j
  back : visit k = s

theorem Cycles.incr {σ : Type} {ops : Ops σ} {s : σ} {k : Nat} {visit : Nat → σ}
    (h : Cycles ops s k visit) {i : Nat} (hi : i < k) :
    ops.incr (visit i) = .ok (visit ((i + 1) % k)) := by
  have h1 := h.steps (i+1) (by omega)
  rw [iterRes, h.steps i (by omega), ok_bind] at h1
  rw [h1]
  by_cases hl : i + 1 = k
  · rw [hl, Nat.mod_self, h.back]
    have := h.steps 0 (by omega)
    rw [iterRes] at this
    exact this
  · rw [Nat.mod_eq_of_lt (by omega)]

theorem Cycles.zero {σ : Type} {ops : Ops σ} {s : σ} {k : Nat} {visit : Nat → σ}
    (h : Cycles ops s k visit) : visit 0 = s := by
  have := h.steps 0 (by omega)
  rw [iterRes] at this
  exact (Except.ok.inj this).symm

theorem mapM_ok {α β : Type} (f : α → Res β) : ∀ (l : List α) (r : List β), l.length = r.length →
    (∀ (p : Nat) a b, l[p]? = some a → r[p]? = some b → f a = .ok b) → l.mapM f = .ok r
  | [], [], _, _ => rfl
  | [], _ :: _, h, _ => by simp at h
  | _ :: _, [], h, _ => by simp at h
  | a :: l, b :: r, h, hf => by
    have h0 := hf 0 a b (by simp) (by simp)
    have ih := mapM_ok f l r (by simpa using h)
      (fun p x y hx hy => hf (p+1) x y (by simpa using hx) (by simpa using hy))
    rw [List.mapM_cons, h0, ok_bind, ih, ok_bind]
    rfl

/-- **C12.** Take any objects whose iterators cycle through `k_1, ..., k_m` values. Then
`pd_new_multidx` succeeds, `pd_increment_multidx` never faults, the combinations of
object values seen before step `k_1*...*k_m` are pairwise different, every combination
of values occurs among them, nothing else is ever seen, after `k_1*...*k_m` increments the multi-index is back at
its start, and `pd_multidx_nvals` is that product (when it fits in 32 bits). -/
theorem C12_multidx_enumerates {σ : Type} (ops : Ops σ) (objs : List σ) (ks : List Nat)
    (visit : Nat → Nat → σ) (hlen : objs.length = ks.length)
    (hcyc : ∀ (p : Nat) s k, objs[p]? = some s → ks[p]? = some k → Cycles ops s k (visit p)) :
    ∃ (m0 : Multi σ) (state : Nat → Multi σ), newMultidx ops objs = .ok m0 ∧ m0.obj = objs ∧
      (∀ N, iterRes (incMultidx ops) N m0 = .ok (state N)) ∧
      (∀ M N, M < N → N < ks.prod → (state M).obj ≠ (state N).obj) ∧
      (∀ target : List σ, target.length = objs.length →
        (∀ (p : Nat) k, ks[p]? = some k → ∃ d, d < k ∧ target[p]? = some (visit p d)) →
        ∃ N, N < ks.prod ∧ (state N).obj = target) ∧
      (∀ N, (state N).obj.length = objs.length ∧
        ∀ (p : Nat) k, ks[p]? = some k → ∃ d, d < k ∧ (state N).obj[p]? = some (visit p d)) ∧
      state ks.prod = m0 ∧
      (ks.prod < 2 ^ 32 → multidxNvals m0 = ks.prod) := by
  classical
  have hcy : ∀ p (h : p < ks.length), Cycles ops (objs[p]'(by omega)) ks[p] (visit p) := by
    intro p h
    exact hcyc p _ _ (List.getElem?_eq_getElem (by omega)) (List.getElem?_eq_getElem h)
  have hpos : ∀ k ∈ ks, 0 < k := by
    intro k hk
    obtain ⟨p, hp, rfl⟩ := List.getElem_of_mem hk
    exact (hcy p hp).pos
  have hgetD : ∀ p (h : p < ks.length), ks.getD p 1 = ks[p] := by
    intro p h; simp [h]
  let st : Nat → Multi σ := fun N =>
    mk ks.length (fun p => visit p (dg ks N p)) (fun p => dg ks N p) (fun p => ks.getD p 1)
  have hb : (List.range ks.length).map (fun p => ks.getD p 1) = ks := by
    apply List.ext_getElem (by simp)
    intro i h1 h2
    simp [h2]
  have hdg0 : ∀ p, dg ks 0 p = 0 := by intro p; simp [dg]
  have hobj0 : (List.range ks.length).map (fun p => visit p 0) = objs := by
    apply List.ext_getElem (by simp [hlen])
    intro i h1 h2
    simp only [List.getElem_map, List.getElem_range]
    exact (hcy i (by omega)).zero
  have hst0 : st 0 = ⟨objs, List.replicate objs.length 0, ks⟩ := by
    simp only [st, mk, hdg0, hobj0, hb, hlen]
    congr 1
    apply List.ext_getElem (by simp)
    intro i h1 h2
    simp
  have hstep : ∀ N, incMultidx ops (st N) = .ok (st (N + 1)) := by
    intro N
    have hspec := incMultidx_spec ops ks.length (fun p => visit p (dg ks N p))
      (fun p => visit p ((dg ks N p + 1) % ks.getD p 1)) (fun p => dg ks N p)
      (fun p => ks.getD p 1) (by
        intro p hp
        refine ⟨by have := getD_pos hpos p; omega, ?_⟩
        have hd := dg_lt hpos N p
        rw [hgetD p hp] at hd ⊢
        exact (hcy p hp).incr hd)
    simp only [st]
    rw [hspec]
    have hpred : ∀ q, q < ks.length → pred32 (ks.getD q 1) = ks.getD q 1 - 1 := by
      intro q hq
      rw [hgetD q hq]
      have h1 := (hcy q hq).pos
      have h2 := (hcy q hq).small
      unfold pred32
      rw [show ks[q] + (2 ^ 32 - 1) = (ks[q] - 1) + 2 ^ 32 by omega, Nat.add_mod_right,
        Nat.mod_eq_of_lt (by omega)]
    have hcond : ∀ p, p < ks.length →
        ((∀ q, p < q → q < ks.length → dg ks N q = pred32 (ks.getD q 1)) ↔
          N % tailProd ks p = tailProd ks p - 1) := by
      intro p hp
      rw [← ready_iff hpos N (ks.length - p) p (by omega) hp]
      constructor
      · intro h q h1 h2; rw [h q h1 h2, hpred q h2]
      · intro h q h1 h2; rw [h q h1 h2, hpred q h2]
    unfold mk
    congr 2
    · apply map_range_congr
      intro p hp
      rw [dg_succ hpos]
      by_cases hc : N % tailProd ks p = tailProd ks p - 1
      · rw [if_pos hc, if_pos ((hcond p hp).mpr hc)]
      · rw [if_neg hc, if_neg (fun h => hc ((hcond p hp).mp h))]
    · apply map_range_congr
      intro p hp
      rw [dg_succ hpos]
      by_cases hc : N % tailProd ks p = tailProd ks p - 1
      · rw [if_pos hc, if_pos ((hcond p hp).mpr hc)]
      · rw [if_neg hc, if_neg (fun h => hc ((hcond p hp).mp h))]
  refine ⟨⟨objs, List.replicate objs.length 0, ks⟩, st, ?_, rfl, ?_, ?_, ?_, ?_, ?_, ?_⟩
  · unfold newMultidx
    rw [mapM_ok ops.nvals objs ks hlen (fun p a b ha hb => (hcyc p a b ha hb).nvals)]
    rfl
  · intro N
    induction N with
    | zero => rw [iterRes, hst0]
    | succ N ih => rw [iterRes, ih, ok_bind, hstep]
  · intro M N hMN hN heq
    have : M = N := by
      apply dg_inj hpos (by omega) hN
      intro p hp
      have h1 := congrArg (fun l : List σ => l[p]?) heq
      simp only [st, mk, List.getElem?_map, List.getElem?_range hp, Option.map_some,
        Option.some.injEq] at h1
      have hM := dg_lt hpos M p
      have hN := dg_lt hpos N p
      rw [hgetD p hp] at hM hN
      rcases Nat.lt_trichotomy (dg ks M p) (dg ks N p) with h | h | h
      · exact absurd h1 ((hcy p hp).distinct _ _ h hN)
      · exact h
      · exact absurd h1.symm ((hcy p hp).distinct _ _ h hM)
    omega
  · intro target ht hd
    have : ∀ p, ∃ d, p < ks.length → d < ks.getD p 1 ∧ target[p]? = some (visit p d) := by
      intro p
      by_cases hp : p < ks.length
      · obtain ⟨d, h1, h2⟩ := hd p ks[p] (List.getElem?_eq_getElem hp)
        exact ⟨d, fun _ => ⟨by rw [hgetD p hp]; exact h1, h2⟩⟩
      · exact ⟨0, fun h => absurd h hp⟩
    choose d hd' using this
    obtain ⟨N, h1, h2⟩ := dg_surj hpos d (fun p hp => (hd' p hp).1)
    refine ⟨N, h1, ?_⟩
    apply List.ext_getElem?
    intro p
    by_cases hp : p < ks.length
    · rw [(hd' p hp).2]
      simp only [st, mk, List.getElem?_map, List.getElem?_range hp, Option.map_some, h2 p hp]
    · rw [List.getElem?_eq_none (by simp [st, mk]; omega), List.getElem?_eq_none (by omega)]
  · intro N
    refine ⟨by simp [st, mk, hlen], ?_⟩
    intro p k hk
    obtain ⟨hp, rfl⟩ := List.getElem?_eq_some_iff.mp hk
    refine ⟨dg ks N p, ?_, ?_⟩
    · have := dg_lt hpos N p
      rwa [hgetD p hp] at this
    · simp only [st, mk, List.getElem?_map, List.getElem?_range hp, Option.map_some]
  · rw [← hst0]
    simp only [st, mk]
    congr 1
    · apply map_range_congr; intro p hp; rw [dg_prod hpos hp, hdg0]
    · apply map_range_congr; intro p hp; rw [dg_prod hpos hp, hdg0]
  · intro hsmall
    unfold multidxNvals
    simp only
    have := nvalsFrom_eq ks 1
    rw [Nat.mod_eq_of_lt (by omega : 1 < 2 ^ 32), Nat.one_mul, Nat.mod_eq_of_lt hsmall] at this
    exact this

/-! ## The library's iterators satisfy the hypothesis -/

/-- **C12, for the four kinds of iterator the library has.** Permutations of `1..12`
letters, dihedral and cyclic groups of any size below 2^31, and orientations all cycle,
so C12 applies to any multi-index over them. -/
theorem C12_library_iterators_cycle :
    (∀ n, 1 ≤ n → n ≤ 12 → ∃ v, Cycles permOps (PermM.newPerm n) n.factorial v) ∧
    (∀ n, 1 ≤ n → n < 2 ^ 31 → ∃ v, Cycles dihedralOps (Iters.newDihedral n) (2 * n) v) ∧
    (∀ n, 1 ≤ n → n < 2 ^ 31 → ∃ v, Cycles cyclicOps (Iters.newCyclic n) n v) ∧
    (∃ v, Cycles orientationOps Iters.newOrientation 2 v) := by
  refine ⟨?_, ?_, ?_, ?_⟩
  · intro n h1 h12
    obtain ⟨v, v1, v2, _, v4⟩ := PermM.C05_perm_iterator n h1
    refine ⟨v, Nat.factorial_pos n, ?_, ?_, fun i _ => v1 i, ?_, v4⟩
    · calc n.factorial ≤ (12).factorial := Nat.factorial_le h12
        _ < 2 ^ 32 := by decide
    · have hn : (PermM.newPerm n).n = n := by simp [PermM.newPerm, PermM.Perm.n]
      have := PermM.C05_nperms (PermM.newPerm n) (by omega) (by omega)
      rw [hn] at this
      exact this
    · intro i j hij hj h
      have := v2 i j hij hj
      rw [h] at this
      exact absurd this (lt_irrefl _)
  · intro n h1 h2
    obtain ⟨v, v1, v2, _, v4, v5⟩ := Iters.C08_dihedral_iterator n h1
    exact ⟨v, by omega, by omega, by simp [dihedralOps, v5], v1, v2, v4⟩
  · intro n h1 h2
    obtain ⟨v, v1, v2, _, v4, v5⟩ := Iters.C09_cyclic_iterator n h1
    exact ⟨v, by omega, by omega, by simp [cyclicOps, v5], fun i _ => v1 i, v2, v4⟩
  · refine ⟨fun i => if i % 2 = 0 then .pos else .neg, by omega, by omega, rfl,
      fun i _ => Iters.C10_orientation_group.2.2.2.2.2 i, ?_, rfl⟩
    intro i j hij hj
    have hi : i = 0 := by omega
    have hj : j = 1 := by omega
    subst hi hj
    simp

example : ∃ m, newMultidx cyclicOps [[0, 1], [0, 1, 2]] = .ok m ∧
    iterRes (incMultidx cyclicOps) 3 m = .ok ⟨[[1, 0], [0, 1, 2]], [1, 0], [2, 3]⟩ :=
  ⟨⟨[[0, 1], [0, 1, 2]], [0, 0], [2, 3]⟩, by decide, by decide⟩

end Plc.Multidx
