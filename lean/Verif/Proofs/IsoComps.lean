import Verif.Proofs.IsoEnum

/-! # Component permutations -/

namespace Plc.IsoSearch

open Plc.Cmp Plc.PermM Plc.Emap Plc.Isos Plc.Multidx List

/-! ### Groups -/

theorem runs_spec (S : Nat → Nat) : ∀ (l : List Nat) (prev : Nat) (cur : List Nat) (i : Nat), cur ≠ [] →
    (∀ c ∈ cur, S c = prev) → (∀ k s, l[k]? = some s → S (i + k) = s) → (∀ s ∈ l, s ≤ prev) →
    l.Pairwise (fun a b => b ≤ a) →
    (runs prev cur i l).flatten = cur ++ List.range' i l.length ∧ (∀ g ∈ runs prev cur i l, g ≠ []) ∧
    ∀ g ∈ runs prev cur i l, ∀ a ∈ g, ∀ b ∈ (runs prev cur i l).flatten, (b ∈ g ↔ S b = S a)
  | [], prev, cur, i, h0, h1, _, _, _ => by
    refine ⟨by simp [runs], by simpa [runs] using h0, ?_⟩
    intro g hg a ha b hb
    simp only [runs, List.mem_singleton] at hg
    subst hg
    simp only [runs, List.flatten_cons, List.flatten_nil, List.append_nil] at hb
    exact ⟨fun _ => by rw [h1 a ha, h1 b hb], fun _ => hb⟩
  | s :: l, prev, cur, i, h0, h1, h2, h3, h4 => by
    have hs : S i = s := by simpa using h2 0 s (by simp)
    have h2' : ∀ k t, l[k]? = some t → S (i + 1 + k) = t := by
      intro k t hk
      have := h2 (k + 1) t (by simpa using hk)
      rwa [show i + (k + 1) = i + 1 + k by omega] at this
    rw [List.pairwise_cons] at h4
    rw [runs]
    split_ifs with he
    · subst he
      obtain ⟨a1, a2, a3⟩ := runs_spec S l s (cur ++ [i]) (i + 1) (by simp) (by
        intro c hc
        rcases List.mem_append.mp hc with hc | hc
        · exact h1 c hc
        · rw [List.mem_singleton.mp hc, hs]) h2' h4.1 h4.2
      refine ⟨?_, a2, a3⟩
      rw [a1, List.length_cons, List.range'_succ]
      simp
    · have hlt : s < prev := lt_of_le_of_ne (h3 s (by simp)) he
      obtain ⟨a1, a2, a3⟩ := runs_spec S l s [i] (i + 1) (by simp) (by simpa using hs) h2' h4.1 h4.2
      have hle : ∀ b ∈ (runs s [i] (i + 1) l).flatten, S b ≤ s := by
        intro b hb
        rw [a1] at hb
        rcases List.mem_append.mp hb with hb | hb
        · rw [List.mem_singleton.mp hb, hs]
        · rw [List.mem_range'_1] at hb
          have hk : b - (i + 1) < l.length := by omega
          have := h2' (b - (i + 1)) _ (List.getElem?_eq_getElem hk)
          rw [show i + 1 + (b - (i + 1)) = b by omega] at this
          rw [this]
          exact h4.1 _ (List.getElem_mem hk)
      refine ⟨?_, ?_, ?_⟩
      · rw [List.flatten_cons, a1, List.length_cons, List.range'_succ]
        simp
      · intro g hg
        rcases List.mem_cons.mp hg with rfl | hg
        · exact h0
        · exact a2 g hg
      · intro g hg a ha b hb
        rw [List.flatten_cons, List.mem_append] at hb
        rcases List.mem_cons.mp hg with rfl | hg
        · rcases hb with hb | hb
          · exact ⟨fun _ => by rw [h1 a ha, h1 b hb], fun _ => hb⟩
          · have := hle b hb
            rw [h1 a ha]
            constructor
            · intro h
              rw [h1 b h] at this
              omega
            · intro h
              omega
        · have hat : a ∈ (runs s [i] (i + 1) l).flatten := List.mem_flatten.mpr ⟨g, hg, ha⟩
          rcases hb with hb | hb
          · have h5 := hle a hat
            have h6 := h1 b hb
            constructor
            · intro h
              exact (a3 g hg a ha b (List.mem_flatten.mpr ⟨g, hg, h⟩)).mp h
            · intro h
              omega
          · exact a3 g hg a ha b hb

/-! ### One permutation -/

/-- The map `m` moves the members of the block `g` as `d` says. -/
def BlockOk (m g d : List Nat) : Prop :=
  d ~ List.range g.length ∧ ∀ (j x : Nat), g[j]? = some x → ∃ y z, d[j]? = some y ∧ g[y]? = some z ∧ m[x]? = some z

theorem BlockOk.inj {m g d d' : List Nat} (hg : g.Nodup) (h : BlockOk m g d) (h' : BlockOk m g d') : d = d' := by
  have l1 := h.1.length_eq
  have l2 := h'.1.length_eq
  rw [List.length_range] at l1 l2
  apply List.ext_getElem?
  intro j
  by_cases hj : j < g.length
  · obtain ⟨y, z, a1, a2, a3⟩ := h.2 j _ (List.getElem?_eq_getElem hj)
    obtain ⟨y', z', b1, b2, b3⟩ := h'.2 j _ (List.getElem?_eq_getElem hj)
    rw [a3] at b3
    cases b3
    obtain ⟨c1, c2⟩ := List.getElem?_eq_some_iff.mp a2
    obtain ⟨d1, d2⟩ := List.getElem?_eq_some_iff.mp b2
    have := (List.Nodup.getElem_inj_iff hg).mp (c2.trans d2.symm)
    subst this
    rw [a1, b1]
  · rw [List.getElem?_eq_none (by omega), List.getElem?_eq_none (by omega)]

variable {G : List (List Nat)} {n : Nat}

theorem blockOk_ext (hG : G.flatten ~ List.range n) {m m' : List Nat} (hm : m.length = n) (hm' : m'.length = n)
    (h : ∀ (i : Nat) g, G[i]? = some g → ∃ d, BlockOk m g d ∧ BlockOk m' g d) : m = m' := by
  apply List.ext_getElem?
  intro x
  by_cases hx : x < n
  · obtain ⟨g, hg, hxg⟩ := List.mem_flatten.mp (hG.mem_iff.mpr (List.mem_range.mpr hx))
    obtain ⟨i, hi⟩ := List.mem_iff_getElem?.mp hg
    obtain ⟨j, hj⟩ := List.mem_iff_getElem?.mp hxg
    obtain ⟨d, h1, h2⟩ := h i g hi
    obtain ⟨y, z, a1, a2, a3⟩ := h1.2 j x hj
    obtain ⟨y', z', b1, b2, b3⟩ := h2.2 j x hj
    rw [a1] at b1
    cases b1
    rw [a2] at b2
    cases b2
    rw [a3, b3]
  · rw [List.getElem?_eq_none (by omega), List.getElem?_eq_none (by omega)]

theorem blockOk_perm (hG : G.flatten ~ List.range n) {m : List Nat} (hm : m.length = n)
    (h : ∀ (i : Nat) g, G[i]? = some g → ∃ d, BlockOk m g d) : m ~ List.range n := by
  have : ∀ i : Nat, ∃ d : List Nat, ∀ g : List Nat, G[i]? = some g → BlockOk m g d := by
    intro i
    cases hi : G[i]? with
    | none => exact ⟨[], by simp⟩
    | some g =>
      obtain ⟨d, hd⟩ := h i g hi
      exact ⟨d, fun g' hg' => by cases hg'; exact hd⟩
  choose d hd using this
  refine blocks_perm hG hG (κ := id) (fun i j _ _ e => e) hm (d := d) ?_
  intro i g hi
  have := hd i g hi
  exact ⟨g, hi, this.1.nodup_iff.mpr List.nodup_range, this.2⟩

theorem compperm_ok (bs : BSearch) (hG : G.flatten ~ List.range n) (hn : 1 ≤ n) : ∀ (gs : List (List Nat)) (ps : List Perm)
    (k : Nat) (q : Perm), (∀ (i : Nat) g, gs[i]? = some g → G[k + i]? = some g) → k + gs.length = G.length →
    gs.length = ps.length → (∀ (i : Nat) g p, gs[i]? = some g → ps[i]? = some p → p.map ~ List.range g.length) →
    q.map.length = n → (∀ (i : Nat) g, G[i]? = some g → ∃ d, BlockOk q.map g d) → (permOk q = .ok true ∨ gs ≠ []) →
    ∃ q', compperm bs gs ps q = .ok q' ∧ permOk q' = .ok true ∧ q'.map ~ List.range n ∧
      (∀ (i : Nat) g p, gs[i]? = some g → ps[i]? = some p → BlockOk q'.map g p.map) ∧
      ∀ (i : Nat) g d, i < k → G[i]? = some g → BlockOk q.map g d → BlockOk q'.map g d
  | [], ps, k, q, _, _, _, _, h5, h6, h7 => by
    refine ⟨q, by simp [compperm], by simpa using h7, blockOk_perm hG h5 h6, by simp, fun i g d _ _ h => h⟩
  | g :: gs, [], k, q, _, _, h, _, _, _, _ => by simp at h
  | g :: gs, p :: ps, k, q, h1, h2, h3, h4, h5, h6, _ => by
    have hGn : G.flatten.Nodup := hG.nodup_iff.mpr List.nodup_range
    have hg : G[k]? = some g := by simpa using h1 0 g (by simp)
    have hgn : g.Nodup := (List.nodup_flatten.mp hGn).1 g (List.mem_of_getElem? hg)
    have hp := h4 0 g p (by simp) (by simp)
    have hpl : p.map.length = g.length := by simpa using hp.length_eq
    obtain ⟨m, m1, m2, m3, m4⟩ := images_ok (dst := g) (d := p.map) g.length 0 (m := q.map) (by omega) hgn (by
        intro x hx
        rw [h5]
        exact List.mem_range.mp (hG.mem_iff.mp (List.mem_flatten.mpr ⟨g, List.mem_of_getElem? hg, hx⟩))) hpl (by
        intro x hx
        exact List.mem_range.mp (hp.mem_iff.mp hx))
    have hml : m.length = n := by omega
    have hbg : BlockOk m g p.map := by
      refine ⟨hp, ?_⟩
      intro j x hj
      have hjl : j < p.map.length := by rw [hpl]; exact (List.getElem?_eq_some_iff.mp hj).1
      have hy : p.map[j] < g.length := List.mem_range.mp (hp.mem_iff.mp (List.getElem_mem hjl))
      exact ⟨_, _, List.getElem?_eq_getElem hjl, List.getElem?_eq_getElem hy,
        m3 j x _ _ (by omega) hj (List.getElem?_eq_getElem hjl) (List.getElem?_eq_getElem hy)⟩
    have hkeep : ∀ (i : Nat) g' d, i ≠ k → G[i]? = some g' → BlockOk q.map g' d → BlockOk m g' d := by
      intro i g' d hi hg' hb
      refine ⟨hb.1, ?_⟩
      intro j x hj
      obtain ⟨y, z, a1, a2, a3⟩ := hb.2 j x hj
      refine ⟨y, z, a1, a2, ?_⟩
      rw [m4 x ?_, a3]
      intro i' _ he
      exact hi (Cycles.flat_unique hGn hg' hg (List.mem_of_getElem? hj) (List.mem_of_getElem? he))
    have hall : ∀ (i : Nat) g', G[i]? = some g' → ∃ d, BlockOk m g' d := by
      intro i g' hi
      by_cases hik : i = k
      · subst hik
        rw [hg] at hi
        cases hi
        exact ⟨_, hbg⟩
      · obtain ⟨d, hd⟩ := h6 i g' hi
        exact ⟨d, hkeep i g' d hik hi hd⟩
    have hmp := blockOk_perm hG hml hall
    obtain ⟨q1, r1, r2, r3⟩ := regenPc_permOk bs (m := m) (by rw [hml]; exact hmp) (by omega)
    obtain ⟨q', c1, c2, c3, c4, c5⟩ := compperm_ok bs hG hn gs ps (k + 1) q1
      (by
        intro i g' hi
        have := h1 (i + 1) g' (by simpa using hi)
        rwa [show k + (i + 1) = k + 1 + i by omega] at this)
      (by simp only [List.length_cons] at h2; omega) (by simpa using h3)
      (fun i g' p' hi hp' => h4 (i + 1) g' p' (by simpa using hi) (by simpa using hp'))
      (by rw [r2, hml]) (by rw [r2]; exact hall) (Or.inl r3)
    refine ⟨q', ?_, c2, c3, ?_, ?_⟩
    · rw [compperm, m1, ok_bind, r1, ok_bind, c1]
    · intro i g' p' hi hp'
      cases i with
      | zero =>
        simp only [List.getElem?_cons_zero, Option.some.injEq] at hi hp'
        subst hi hp'
        exact c5 k g p.map (by omega) hg (by rw [r2]; exact hbg)
      | succ i => exact c4 i g' p' (by simpa using hi) (by simpa using hp')
    · intro i g' d hi hg' hb
      exact c5 i g' d (by omega) hg' (by rw [r2]; exact hkeep i g' d (by omega) hg' hb)

/-! ### All permutations -/

theorem perm_cycles {k : Nat} (h1 : 1 ≤ k) (h12 : k ≤ 12) : Multidx.Cycles permOps (newPerm k) k.factorial (stateAt k) := by
  have hmap : ∀ i, i < k.factorial → (stateAt k i).map = nth k i := by
    intro i hi
    unfold stateAt
    rw [Nat.mod_eq_of_lt hi]
    split <;> rfl
  obtain ⟨v, hv⟩ := C12_library_iterators_cycle.1 k h1 h12
  refine ⟨hv.pos, hv.small, hv.nvals, fun i _ => iter_incPerm h1 i, ?_, ?_⟩
  · intro i j hij hj he
    have := nth_lt h1 hij hj
    rw [← hmap i (by omega), ← hmap j hj, he] at this
    exact absurd this (lt_irrefl _)
  · unfold stateAt
    rw [Nat.mod_self]
    have := newPerm_stateAt k
    unfold stateAt at this
    rw [Nat.zero_mod] at this
    exact this.symm

theorem stateAt_map {k i : Nat} (hi : i < k.factorial) : (stateAt k i).map = nth k i := by
  unfold stateAt
  rw [Nat.mod_eq_of_lt hi]
  split <;> rfl

theorem prod_factorial_dvd : ∀ l : List Nat, (l.map Nat.factorial).prod ∣ l.sum.factorial
  | [] => by simp
  | a :: l => by
    rw [List.map_cons, List.prod_cons, List.sum_cons]
    exact (Nat.mul_dvd_mul_left _ (prod_factorial_dvd l)).trans (Nat.factorial_mul_factorial_dvd_factorial_add a l.sum)

/-- `pd_build_compperms` lists every permutation that maps each group to itself, once. -/
theorem buildCompperms_ok (bs : BSearch) (hG : G.flatten = List.range n) (hne : ∀ g ∈ G, g ≠ []) (hn : 1 ≤ n)
    (h12 : n ≤ 12) : ∃ ps, buildCompperms bs G = .ok ps ∧ (ps.map (·.map)).Nodup ∧
      (∀ p ∈ ps, permOk p = .ok true ∧ p.map ~ List.range n) ∧
      ∀ q, q ∈ ps.map (·.map) ↔ q ~ List.range n ∧ ∀ g ∈ G, ∀ x ∈ g, ∃ y ∈ g, q[x]? = some y := by
  have hGp : G.flatten ~ List.range n := by rw [hG]
  have hGn : G.flatten.Nodup := hGp.nodup_iff.mpr List.nodup_range
  have hgn : ∀ g ∈ G, g.Nodup := (List.nodup_flatten.mp hGn).1
  have hsum : (G.map List.length).sum = n := by
    rw [← List.length_flatten, hG, List.length_range]
  have hle : ∀ g ∈ G, g.length ≤ n := by
    intro g hg
    rw [← hsum]
    exact List.le_sum_of_mem (List.mem_map_of_mem hg)
  have hG0 : G ≠ [] := by
    rintro rfl
    simp at hsum
    omega
  have hprod : ((G.map List.length).map Nat.factorial).prod < 2 ^ 32 := by
    have h1 := Nat.le_of_dvd (Nat.factorial_pos _) (prod_factorial_dvd (G.map List.length))
    rw [hsum] at h1
    have h2 : n.factorial ≤ (12).factorial := Nat.factorial_le h12
    have h3 : (12).factorial < 2 ^ 32 := by decide
    omega
  -- the body of the loop
  have hbody : ∀ t : List Perm, t.length = (G.map (fun g => newPerm g.length)).length →
      (∀ (p : Nat) k, ((G.map List.length).map Nat.factorial)[p]? = some k → ∃ d, d < k ∧
        t[p]? = some (stateAt ((G.map List.length).getD p 0) d)) →
      ∃ q', compperm bs G t (newPerm n) = .ok q' ∧ permOk q' = .ok true ∧ q'.map ~ List.range n ∧
        ∀ (i : Nat) g p, G[i]? = some g → t[i]? = some p → BlockOk q'.map g p.map := by
    intro t ht hd
    obtain ⟨q', c1, c2, c3, c4, _⟩ := compperm_ok bs hGp hn G t 0 (newPerm n) (by simp) (by simp) (by simpa using ht.symm)
      (by
        intro i g p hi hp
        obtain ⟨d, d1, d2⟩ := hd i g.length.factorial (by simp [hi])
        rw [hp, Option.some.injEq] at d2
        have hgd : (G.map List.length).getD i 0 = g.length := by simp [List.getD, hi]
        rw [d2, hgd, stateAt_map d1]
        have h1 : 1 ≤ g.length := List.length_pos_iff.mpr (hne g (List.mem_of_getElem? hi))
        exact mem_allPerms.mp ((nth_enum h1).1 d d1).1)
      (by simp [newPerm])
      (by
        intro i g hi
        refine ⟨List.range g.length, List.Perm.refl _, ?_⟩
        intro j x hj
        refine ⟨j, x, List.getElem?_range (List.getElem?_eq_some_iff.mp hj).1, hj, ?_⟩
        unfold newPerm
        apply List.getElem?_range
        exact List.mem_range.mp (hGp.mem_iff.mp (List.mem_flatten.mpr ⟨g, List.mem_of_getElem? hi, List.mem_of_getElem? hj⟩)))
      (Or.inr hG0)
    exact ⟨q', c1, c2, c3, c4⟩
  obtain ⟨f, hf⟩ : ∃ f : List Perm → Perm, ∀ t q', compperm bs G t (newPerm n) = .ok q' → f t = q' :=
    ⟨fun t => match compperm bs G t (newPerm n) with | .ok q => q | .error _ => newPerm n, by
      intro t q' h
      simp only [h]⟩
  obtain ⟨m0, L, e1, e2, e3, e4⟩ := enum_spec permOps (G.map (fun g => newPerm g.length))
    ((G.map List.length).map Nat.factorial) (fun p => stateAt ((G.map List.length).getD p 0)) (by simp)
    (by
      intro p s k hs hk
      rw [List.getElem?_map, Option.map_eq_some_iff] at hs
      obtain ⟨g, hg, rfl⟩ := hs
      simp only [List.map_map, List.getElem?_map, hg, Option.map_some, Option.some.injEq, Function.comp_apply] at hk
      subst hk
      have hgd : (G.map List.length).getD p 0 = g.length := by simp [List.getD, hg]
      rw [hgd]
      exact perm_cycles (List.length_pos_iff.mpr (hne g (List.mem_of_getElem? hg)))
        ((hle g (List.mem_of_getElem? hg)).trans h12))
    hprod (fun t => compperm bs G t (newPerm n)) f
    (by
      intro t h1 h2
      obtain ⟨q', a1, _⟩ := hbody t h1 h2
      beta_reduce
      rw [a1, hf t q' a1])
  have hval : ∀ t ∈ L, permOk (f t) = .ok true ∧ (f t).map ~ List.range n ∧
        ∀ (i : Nat) g p, G[i]? = some g → t[i]? = some p → BlockOk (f t).map g p.map := by
    intro t ht
    obtain ⟨h1, h2⟩ := (e4 t).mp ht
    obtain ⟨q', a1, a2, a3, a4⟩ := hbody t h1 h2
    rw [hf t q' a1]
    exact ⟨a2, a3, a4⟩
  refine ⟨L.map f, ?_, ?_, ?_, ?_⟩
  · unfold buildCompperms
    rw [assertC_ok (by simpa using List.length_pos_iff.mpr hG0), ok_bind, e1, ok_bind, hsum]
    exact e2
  · rw [List.map_map]
    refine (List.nodup_map_iff_inj_on e3).mpr ?_
    intro t ht t' ht' he
    simp only [Function.comp_apply] at he
    obtain ⟨h1, h2⟩ := (e4 t).mp ht
    obtain ⟨h1', h2'⟩ := (e4 t').mp ht'
    apply List.ext_getElem?
    intro i
    by_cases hi : i < G.length
    · have hgi : G[i]? = some G[i] := List.getElem?_eq_getElem hi
      obtain ⟨d, d1, d2⟩ := h2 i G[i].length.factorial (by simp [hgi])
      obtain ⟨d', d1', d2'⟩ := h2' i G[i].length.factorial (by simp [hgi])
      have hgd : (G.map List.length).getD i 0 = G[i].length := by simp [List.getD, hgi]
      rw [hgd] at d2 d2'
      have b1 := (hval t ht).2.2 i _ _ hgi d2
      have b2 := (hval t' ht').2.2 i _ _ hgi d2'
      rw [he] at b1
      have hmm := b1.inj (hgn _ (List.getElem_mem hi)) b2
      have h1k : 1 ≤ G[i].length := List.length_pos_iff.mpr (hne _ (List.getElem_mem hi))
      have : d = d' := by
        rw [stateAt_map d1, stateAt_map d1'] at hmm
        rcases Nat.lt_trichotomy d d' with h | h | h
        · exact absurd (hmm ▸ nth_lt h1k h d1') (lt_irrefl _)
        · exact h
        · exact absurd (hmm ▸ nth_lt h1k h d1) (lt_irrefl _)
      rw [d2, d2', this]
    · rw [List.getElem?_eq_none (by rw [h1, List.length_map]; omega), List.getElem?_eq_none (by rw [h1', List.length_map]; omega)]
  · intro p hp
    obtain ⟨t, ht, rfl⟩ := List.mem_map.mp hp
    exact ⟨(hval t ht).1, (hval t ht).2.1⟩
  · intro q
    rw [List.map_map, List.mem_map]
    constructor
    · rintro ⟨t, ht, rfl⟩
      obtain ⟨_, h2, h3⟩ := hval t ht
      refine ⟨h2, ?_⟩
      intro g hg x hx
      obtain ⟨i, hi⟩ := List.mem_iff_getElem?.mp hg
      obtain ⟨j, hj⟩ := List.mem_iff_getElem?.mp hx
      have hti : i < t.length := by
        rw [((e4 t).mp ht).1, List.length_map]
        exact (List.getElem?_eq_some_iff.mp hi).1
      obtain ⟨y, z, a1, a2, a3⟩ := (h3 i g _ hi (List.getElem?_eq_getElem hti)).2 j x hj
      exact ⟨z, List.mem_of_getElem? a2, a3⟩
    · rintro ⟨hq, hb⟩
      have hql : q.length = n := by simpa using hq.length_eq
      -- how `q` moves each block
      have hblk : ∀ (i : Nat) g, G[i]? = some g → BlockOk q g (g.map (fun x => g.idxOf q[x]!)) := by
        intro i g hi
        have hgG := List.mem_of_getElem? hi
        have hval' : ∀ (j x : Nat), g[j]? = some x → ∃ y, y ∈ g ∧ q[x]? = some y ∧
            (g.map (fun x => g.idxOf q[x]!))[j]? = some (g.idxOf y) := by
          intro j x hj
          obtain ⟨y, y1, y2⟩ := hb g hgG x (List.mem_of_getElem? hj)
          refine ⟨y, y1, y2, ?_⟩
          rw [List.getElem?_map, hj]
          have : q[x]! = y := by rw [getElem!_def, y2]
          simp only [Option.map_some, this]
        refine ⟨perm_range_of (by simp) ?_ ?_, ?_⟩
        · intro v hv
          obtain ⟨j, hj⟩ := List.mem_iff_getElem?.mp hv
          have hjl := (List.getElem?_eq_some_iff.mp hj).1
          rw [List.length_map] at hjl
          obtain ⟨y, y1, _, y3⟩ := hval' j _ (List.getElem?_eq_getElem hjl)
          rw [hj] at y3
          cases y3
          exact List.idxOf_lt_length_iff.mpr y1
        · refine (List.nodup_map_iff_inj_on (hgn g hgG)).mpr ?_
          intro a ha b hb' he
          obtain ⟨y, y1, y2⟩ := hb g hgG a ha
          obtain ⟨z, z1, z2⟩ := hb g hgG b hb'
          have e1' : q[a]! = y := by rw [getElem!_def, y2]
          have e2' : q[b]! = z := by rw [getElem!_def, z2]
          rw [e1', e2'] at he
          have hyz : y = z := (List.idxOf_inj y1).mp he
          subst hyz
          obtain ⟨c1, c2⟩ := List.getElem?_eq_some_iff.mp y2
          obtain ⟨c3, c4⟩ := List.getElem?_eq_some_iff.mp z2
          exact (List.Nodup.getElem_inj_iff (hq.nodup_iff.mpr List.nodup_range)).mp (c2.trans c4.symm)
        · intro j x hj
          obtain ⟨y, y1, y2, y3⟩ := hval' j x hj
          refine ⟨_, y, y3, ?_, y2⟩
          rw [List.getElem?_eq_getElem (List.idxOf_lt_length_iff.mpr y1), List.getElem_idxOf]
      have hcode : ∀ i : Nat, ∃ d : Nat, ∀ g : List Nat, G[i]? = some g → d < g.length.factorial ∧
          nth g.length d = g.map (fun x => g.idxOf q[x]!) := by
        intro i
        cases hi : G[i]? with
        | none => exact ⟨0, by simp⟩
        | some g =>
          have h1 : 1 ≤ g.length := List.length_pos_iff.mpr (hne g (List.mem_of_getElem? hi))
          obtain ⟨d, d1, d2⟩ := nth_surj h1 (hblk i g hi).1
          exact ⟨d, fun g' hg' => by cases hg'; exact ⟨d1, d2⟩⟩
      choose d hd using hcode
      have htL : (List.range G.length).map (fun i => stateAt ((G.map List.length).getD i 0) (d i)) ∈ L := by
        rw [e4]
        refine ⟨by simp, ?_⟩
        intro p k hk
        simp only [List.map_map, List.getElem?_map, Option.map_eq_some_iff, Function.comp_apply] at hk
        obtain ⟨g, hg, rfl⟩ := hk
        refine ⟨d p, (hd p g hg).1, ?_⟩
        rw [List.getElem?_map, List.getElem?_range (List.getElem?_eq_some_iff.mp hg).1]
        rfl
      refine ⟨_, htL, ?_⟩
      simp only [Function.comp_apply]
      obtain ⟨_, h2, h3⟩ := hval _ htL
      refine blockOk_ext hGp (by simpa using h2.length_eq) hql ?_
      intro i g hi
      refine ⟨_, ?_, hblk i g hi⟩
      have := h3 i g (stateAt g.length (d i)) hi (by
        rw [List.getElem?_map, List.getElem?_range (List.getElem?_eq_some_iff.mp hi).1]
        simp [List.getD, hi])
      rw [stateAt_map (hd i g hi).1, (hd i g hi).2] at this
      exact this

end Plc.IsoSearch
