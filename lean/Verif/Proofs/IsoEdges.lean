import Verif.Proofs.IsoComps
import Verif.Spec.Shape

/-! # Edge maps -/

namespace Plc.IsoSearch

open Plc.Cmp Plc.PermM Plc.Emap Plc.Isos Plc.Multidx Plc.Iters List

/-- The map `m` moves the members of `k` to those of `b` that `d` says. -/
def Moves (m k b d : List Nat) : Prop :=
  ∀ (j x : Nat), k[j]? = some x → ∃ y z, d[j]? = some y ∧ b[y]? = some z ∧ m[x]? = some z

theorem Moves.inj {m k b d d' : List Nat} (hb : b.Nodup) (h : Moves m k b d) (h' : Moves m k b d')
    (l1 : d.length = k.length) (l2 : d'.length = k.length) : d = d' := by
  apply List.ext_getElem?
  intro j
  by_cases hj : j < k.length
  · obtain ⟨y, z, a1, a2, a3⟩ := h j _ (List.getElem?_eq_getElem hj)
    obtain ⟨y', z', b1, b2, b3⟩ := h' j _ (List.getElem?_eq_getElem hj)
    rw [a3] at b3
    cases b3
    obtain ⟨c1, c2⟩ := List.getElem?_eq_some_iff.mp a2
    obtain ⟨d1, d2⟩ := List.getElem?_eq_some_iff.mp b2
    have := (List.Nodup.getElem_inj_iff hb).mp (c2.trans d2.symm)
    subst this
    rw [a1, b1]
  · rw [List.getElem?_eq_none (by omega), List.getElem?_eq_none (by omega)]

theorem Moves.map_eq {m k b d : List Nat} (h : Moves m k b d) (hl : d.length = k.length) :
    k.map (fun e => m[e]!) = d.map (fun y => b[y]!) := by
  apply List.ext_getElem (by simp [hl])
  intro j h1 h2
  have hj : j < k.length := by simpa using h1
  obtain ⟨y, z, a1, a2, a3⟩ := h j _ (List.getElem?_eq_getElem hj)
  obtain ⟨c1, c2⟩ := List.getElem?_eq_some_iff.mp a1
  rw [List.getElem_map, List.getElem_map, c2, getElem!_def, a3, getElem!_def, a2]

theorem moves_of_map {m k b d : List Nat} (hm : ∀ x ∈ k, x < m.length) (hd : ∀ y ∈ d, y < b.length)
    (h : k.map (fun e => m[e]!) = d.map (fun y => b[y]!)) : Moves m k b d := by
  intro j x hj
  have hl : k.length = d.length := by simpa using congrArg List.length h
  obtain ⟨hj', rfl⟩ := List.getElem?_eq_some_iff.mp hj
  have hjd : j < d.length := by omega
  have h1 := congrArg (fun l : List Nat => l[j]?) h
  simp only [List.getElem?_map, hj, List.getElem?_eq_getElem hjd, Option.map_some, Option.some.injEq] at h1
  have hx := hm _ (List.getElem_mem hj')
  have hy := hd _ (List.getElem_mem hjd)
  rw [getElem!_pos m _ hx, getElem!_pos b _ hy] at h1
  exact ⟨_, _, List.getElem?_eq_getElem hjd, List.getElem?_eq_getElem hy, by rw [List.getElem?_eq_getElem hx, h1]⟩

theorem map_R {n : Nat} {b : List Nat} (hb : b.length = n) (r : Nat) : (R n r).map (fun y => b[y]!) = b.rotate r := by
  apply List.ext_getElem (by simp [R_length, hb])
  intro j h1 h2
  have hj : j < n := by simpa [R_length] using h1
  have := R_get (k := r) hj
  rw [List.getElem_map, List.getElem_rotate]
  obtain ⟨a1, a2⟩ := List.getElem?_eq_some_iff.mp this
  rw [a2, getElem!_pos b _ (by rw [hb]; exact Nat.mod_lt _ (by omega))]
  simp only [hb]

theorem map_S {n : Nat} {b : List Nat} (hb : b.length = n) (r : Nat) :
    (S n r).map (fun y => b[y]!) = (b.rotate (r + 1)).reverse := by
  apply List.ext_getElem (by simp [S_length, hb])
  intro j h1 h2
  have hj : j < n := by simpa [S_length] using h1
  have := S_get (k := r) hj
  obtain ⟨a1, a2⟩ := List.getElem?_eq_some_iff.mp this
  rw [List.getElem_map, List.getElem_reverse, List.getElem_rotate, a2,
    getElem!_pos b _ (by rw [hb]; exact Nat.mod_lt _ (by omega))]
  simp only [hb, List.length_rotate]
  congr 2
  omega

theorem dihedral_lt {n : Nat} {d : Dihedral} (h : IsDihedral n d) : d.map.length = n ∧ ∀ y ∈ d.map, y < n := by
  rcases h with ⟨_, h⟩ | ⟨_, h⟩
  · obtain ⟨k, hk, e⟩ := isRotation_iff.mp h
    refine ⟨h.1, ?_⟩
    intro y hy
    obtain ⟨j, hj⟩ := List.mem_iff_getElem?.mp hy
    rw [e] at hj
    have hjn : j < n := by simpa [R_length] using (List.getElem?_eq_some_iff.mp hj).1
    rw [R_get hjn] at hj
    cases hj
    exact Nat.mod_lt _ (by omega)
  · obtain ⟨k, hk, e⟩ := isReflection_iff.mp h
    refine ⟨h.1, ?_⟩
    intro y hy
    obtain ⟨j, hj⟩ := List.mem_iff_getElem?.mp hy
    rw [e] at hj
    have hjn : j < n := by simpa [S_length] using (List.getElem?_eq_some_iff.mp hj).1
    rw [S_get hjn] at hj
    cases hj
    exact Nat.mod_lt _ (by omega)

theorem dihedral_nodup {n : Nat} {d : Dihedral} (h : IsDihedral n d) : d.map.Nodup := by
  rcases h with ⟨_, h⟩ | ⟨_, h⟩
  · obtain ⟨k, hk, e⟩ := isRotation_iff.mp h
    have := map_R (n := n) (b := List.range n) (by simp) k
    have e2 : (R n k).map (fun y => (List.range n)[y]!) = R n k := by
      conv_rhs => rw [← List.map_id (R n k)]
      apply List.map_congr_left
      intro y hy
      have := (dihedral_lt (Or.inl ⟨(rfl : (Dihedral.mk (R n k) .pos).orient = .pos), e ▸ h⟩)).2 y hy
      simp [this]
    rw [e, ← e2, this, List.nodup_rotate]
    exact List.nodup_range
  · obtain ⟨k, hk, e⟩ := isReflection_iff.mp h
    have := map_S (n := n) (b := List.range n) (by simp) k
    have e2 : (S n k).map (fun y => (List.range n)[y]!) = S n k := by
      conv_rhs => rw [← List.map_id (S n k)]
      apply List.map_congr_left
      intro y hy
      have := (dihedral_lt (Or.inr ⟨(rfl : (Dihedral.mk (S n k) .neg).orient = .neg), e ▸ h⟩)).2 y hy
      simp [this]
    rw [e, ← e2, this, List.nodup_reverse, List.nodup_rotate]
    exact List.nodup_range

theorem carried_of_moves {m k b : List Nat} {d : Dihedral} (hl : b.length = k.length) (hd : IsDihedral k.length d)
    (h : Moves m k b d.map) : ListCarried (fun e => m[e]!) d.orient k b := by
  have he := h.map_eq (dihedral_lt hd).1
  unfold ListCarried
  rw [he]
  rcases hd with ⟨h1, h2⟩ | ⟨h1, h2⟩
  · obtain ⟨r, _, e⟩ := isRotation_iff.mp h2
    rw [h1, if_neg (by decide), e, map_R hl]
    exact ⟨r, rfl⟩
  · obtain ⟨r, _, e⟩ := isReflection_iff.mp h2
    rw [h1, if_pos rfl, e, map_S hl, List.reverse_reverse]
    exact ⟨r + 1, rfl⟩

theorem moves_of_carried {m k b : List Nat} {o : Or} (hl : b.length = k.length) (h0 : 0 < k.length) (ho : o ≠ .unset)
    (hm : ∀ x ∈ k, x < m.length) (h : ListCarried (fun e => m[e]!) o k b) :
    ∃ d, IsDihedral k.length d ∧ d.orient = o ∧ Moves m k b d.map := by
  unfold ListCarried at h
  cases o with
  | unset => exact absurd rfl ho
  | pos =>
    rw [if_neg (by decide)] at h
    obtain ⟨r, hr⟩ := h
    have hd : IsDihedral k.length ⟨R k.length (r % k.length), .pos⟩ :=
      Or.inl ⟨rfl, isRotation_iff.mpr ⟨_, Nat.mod_lt _ h0, rfl⟩⟩
    refine ⟨_, hd, rfl, ?_⟩
    refine moves_of_map hm (fun y hy => by rw [hl]; exact (dihedral_lt hd).2 y hy) ?_
    rw [map_R hl, ← hr]
    conv_rhs => rw [← hl, List.rotate_mod]
  | neg =>
    rw [if_pos rfl] at h
    obtain ⟨r, hr⟩ := h
    have hd : IsDihedral k.length ⟨S k.length ((r + k.length - 1) % k.length), .neg⟩ :=
      Or.inr ⟨rfl, isReflection_iff.mpr ⟨_, Nat.mod_lt _ h0, rfl⟩⟩
    refine ⟨_, hd, rfl, ?_⟩
    refine moves_of_map hm (fun y hy => by rw [hl]; exact (dihedral_lt hd).2 y hy) ?_
    rw [map_S hl]
    have : b.rotate ((r + k.length - 1) % k.length + 1) = b.rotate r := by
      rw [← List.rotate_mod, hl, Nat.mod_add_mod, show r + k.length - 1 + 1 = r + k.length by omega, Nat.add_mod_right,
        ← hl, List.rotate_mod]
    rw [this, hr, List.reverse_reverse]

/-! ### One edge map -/

variable {A B : List Comp} {n : Nat} {cp : List Nat}

theorem edgemapLoop_ok (hB : (B.flatMap (·.edge)).Nodup) : ∀ (ks : List Comp) (c : Nat) (ds : List Dihedral) (m : List Nat) (os : List Or),
    (ks.flatMap (·.edge)).Nodup → ks.length = ds.length → (∀ k ∈ ks, ∀ x ∈ k.edge, x < m.length) → m.length = os.length →
    (∀ (i : Nat) k d, ks[i]? = some k → ds[i]? = some d → IsDihedral k.edge.length d) →
    (∀ (i : Nat) k, ks[i]? = some k → ∃ t b, cp[c + i]? = some t ∧ B[t]? = some b ∧ b.edge.length = k.edge.length) →
    ∃ m' os', edgemapLoop B cp ks c ds m os = .ok (m', os') ∧ m'.length = m.length ∧ os'.length = os.length ∧
      (∀ (i : Nat) k d t b, ks[i]? = some k → ds[i]? = some d → cp[c + i]? = some t → B[t]? = some b →
        Moves m' k.edge b.edge d.map ∧ ∀ x ∈ k.edge, os'[x]? = some d.orient) ∧
      (∀ x, (∀ k ∈ ks, x ∉ k.edge) → m'[x]? = m[x]? ∧ os'[x]? = os[x]?)
  | [], c, ds, m, os, _, _, _, _, _, _ => by
    refine ⟨m, os, by simp [edgemapLoop], rfl, rfl, by simp, fun _ _ => ⟨rfl, rfl⟩⟩
  | k :: ks, c, [], m, os, _, h, _, _, _, _ => by simp at h
  | k :: ks, c, d :: ds, m, os, h1, h2, h3, h4, h5, h6 => by
    have hkn : k.edge.Nodup := by
      rw [List.flatMap_cons, List.nodup_append] at h1
      exact h1.1
    have hdisj : ∀ x ∈ k.edge, ∀ k' ∈ ks, x ∉ k'.edge := by
      intro x hx k' hk' hx'
      rw [List.flatMap_cons, List.nodup_append] at h1
      exact h1.2.2 x hx x (List.mem_flatMap.mpr ⟨k', hk', hx'⟩) rfl
    have hd := h5 0 k d (by simp) (by simp)
    obtain ⟨t, b, t1, t2, t3⟩ := h6 0 k (by simp)
    rw [Nat.add_zero] at t1
    obtain ⟨m1, a1, a2, a3, a4⟩ := images_ok (dst := b.edge) (d := d.map) k.edge.length 0 (m := m) (by omega) hkn
      (h3 k (by simp)) (dihedral_lt hd).1 (fun y hy => by rw [t3]; exact (dihedral_lt hd).2 y hy)
    obtain ⟨os1, b1, b2, b3, b4⟩ := paint_ok d.orient k.edge (os := os) (fun x hx => by rw [← h4]; exact h3 k (by simp) x hx)
    obtain ⟨m', os', c1, c2, c3, c4, c5⟩ := edgemapLoop_ok hB ks (c + 1) ds m1 os1
      (by rw [List.flatMap_cons, List.nodup_append] at h1; exact h1.2.1) (by simpa using h2)
      (fun k' hk' x hx => by rw [a2]; exact h3 k' (by simp [hk']) x hx) (by omega)
      (fun i k' d' hi hd' => h5 (i + 1) k' d' (by simpa using hi) (by simpa using hd'))
      (by
        intro i k' hi
        have := h6 (i + 1) k' (by simpa using hi)
        rwa [show c + (i + 1) = c + 1 + i by omega] at this)
    refine ⟨m', os', ?_, by omega, by omega, ?_, ?_⟩
    · rw [edgemapLoop, rd_eq_ok.mpr t1, ok_bind, rd_eq_ok.mpr t2, ok_bind, assertC_ok (by simpa using t3.symm), ok_bind, a1,
        ok_bind, b1, ok_bind, c1]
    · intro i k' d' t' b' hi hd' ht' hb'
      cases i with
      | zero =>
        simp only [List.getElem?_cons_zero, Option.some.injEq] at hi hd'
        subst hi hd'
        rw [Nat.add_zero, t1] at ht'
        cases ht'
        rw [t2] at hb'
        cases hb'
        constructor
        · intro j x hj
          have hx := List.mem_of_getElem? hj
          have hjl : j < d.map.length := by rw [(dihedral_lt hd).1]; exact (List.getElem?_eq_some_iff.mp hj).1
          have hy : d.map[j] < b.edge.length := by rw [t3]; exact (dihedral_lt hd).2 _ (List.getElem_mem hjl)
          refine ⟨_, _, List.getElem?_eq_getElem hjl, List.getElem?_eq_getElem hy, ?_⟩
          rw [(c5 x (hdisj x hx)).1]
          exact a3 j x _ _ (by omega) hj (List.getElem?_eq_getElem hjl) (List.getElem?_eq_getElem hy)
        · intro x hx
          rw [(c5 x (hdisj x hx)).2, b3 x hx]
      | succ i =>
        exact c4 i k' d' t' b' (by simpa using hi) (by simpa using hd') (by rwa [show c + 1 + i = c + (i + 1) by omega]) hb'
    · intro x hx
      have hxk := hx k (by simp)
      obtain ⟨e1, e2⟩ := c5 x (fun k' hk' => hx k' (by simp [hk']))
      rw [e1, e2, b4 x hxk, a4 x (fun i _ he => hxk (List.mem_of_getElem? he))]
      exact ⟨rfl, rfl⟩

theorem dihedral_cycles : ∃ V : Nat → Nat → Dihedral, ∀ n : Nat, 1 ≤ n → n < 2 ^ 31 →
    Multidx.Cycles dihedralOps (newDihedral n) (2 * n) (V n) ∧ ∀ d : Dihedral, IsDihedral n d ↔ ∃ i : Nat, i < 2 * n ∧ V n i = d := by
  have : ∀ n : Nat, ∃ v : Nat → Dihedral, 1 ≤ n → n < 2 ^ 31 →
      Multidx.Cycles dihedralOps (newDihedral n) (2 * n) v ∧ ∀ d : Dihedral, IsDihedral n d ↔ ∃ i : Nat, i < 2 * n ∧ v i = d := by
    intro n
    by_cases h1 : 1 ≤ n
    · obtain ⟨v, v1, v2, v3, v4, v5⟩ := Iters.C08_dihedral_iterator n h1
      exact ⟨v, fun _ h2 => ⟨⟨by omega, by omega, by simp [dihedralOps, v5], v1, v2, v4⟩, v3⟩⟩
    · exact ⟨fun _ => newDihedral n, fun h => absurd h h1⟩
  choose V hV using this
  exact ⟨V, hV⟩

/-- What an edge map must be, component by component. -/
def AlongComps (A B : List Comp) (cp : List Nat) (τ : List Nat) (os : List Or) : Prop :=
  ∀ (c : Nat) k, A[c]? = some k → ∃ t b dir, cp[c]? = some t ∧ B[t]? = some b ∧ dir ≠ .unset ∧
    ListCarried (fun e => τ[e]!) dir k.edge b.edge ∧ ∀ e ∈ k.edge, os[e]? = some dir

theorem listCarried_length {τ : Nat → Nat} {o : Or} {k b : List Nat} (h : ListCarried τ o k b) : b.length = k.length := by
  unfold ListCarried at h
  have := h.perm.length_eq
  rw [this]
  split <;> simp

/-- Looping over a multi-index of rotations, or of rotations and reflections, one for each component. -/
theorem edgemaps_enum (bs : BSearch) {σ : Type} (ops : Ops σ) (new : Nat → σ) (conv : σ → Dihedral) (hconv : Function.Injective conv)
    (w : Nat → Nat) (C : Or → Prop) (V : Nat → Nat → σ)
    (hV : ∀ n : Nat, 1 ≤ n → n < 2 ^ 31 → Multidx.Cycles ops (new n) (w n) (V n) ∧
      ∀ d : Dihedral, (IsDihedral n d ∧ C d.orient) ↔ ∃ i : Nat, i < w n ∧ conv (V n i) = d)
    {A B : Io.Pd} (hn : 1 ≤ A.edge.length) (hAB : A.edge.length = B.edge.length)
    (hA : A.comp.flatMap (·.edge) ~ List.range A.edge.length) (hA0 : ∀ k ∈ A.comp, 0 < k.edge.length)
    (hA31 : ∀ k ∈ A.comp, k.edge.length < 2 ^ 31)
    (hB : B.comp.flatMap (·.edge) ~ List.range B.edge.length)
    (hcp : cp ~ List.range A.comp.length)
    (hsz : ∀ (c : Nat) k, A.comp[c]? = some k → ∃ t b, cp[c]? = some t ∧ B.comp[t]? = some b ∧ b.edge.length = k.edge.length)
    (hsmall : (A.comp.map (fun k => w k.edge.length)).prod < 2 ^ 32) :
    ∃ m0 ems, newMultidx ops (A.comp.map (fun k => new k.edge.length)) = .ok m0 ∧
      enumLoop ops (fun t => edgemapOf bs A.edge.length A.comp B.comp cp (t.map conv)) (multidxNvals m0) m0 = .ok ems ∧
      ems ≠ [] ∧ (ems.map (fun e => (e.perm.map, e.orient))).Nodup ∧
      (∀ e ∈ ems, emapOk e = .ok true ∧ e.perm.map ~ List.range A.edge.length ∧ e.orient.length = A.edge.length) ∧
      ∀ τ os, (τ, os) ∈ ems.map (fun e => (e.perm.map, e.orient)) ↔
        τ ~ List.range A.edge.length ∧ os.length = A.edge.length ∧ AlongComps A.comp B.comp cp τ os ∧ ∀ o ∈ os, C o := by
  set n := A.edge.length with hndef
  have hAn : (A.comp.flatMap (·.edge)).Nodup := hA.nodup_iff.mpr List.nodup_range
  have hBn : (B.comp.flatMap (·.edge)).Nodup := hB.nodup_iff.mpr List.nodup_range
  have hlt : ∀ k ∈ A.comp, ∀ x ∈ k.edge, x < n := fun k hk x hx =>
    List.mem_range.mp (hA.mem_iff.mp (List.mem_flatMap.mpr ⟨k, hk, hx⟩))
  have hbn : ∀ (t : Nat) b, B.comp[t]? = some b → b.edge.Nodup := by
    intro t b hb
    rw [List.flatMap, List.nodup_flatten] at hBn
    exact hBn.1 _ (List.mem_map_of_mem (List.mem_of_getElem? hb))
  have hksmall : ∀ k ∈ A.comp, 1 ≤ k.edge.length ∧ k.edge.length < 2 ^ 31 := fun k hk => ⟨hA0 k hk, hA31 k hk⟩
  have hcpinj : ∀ i j, i < (A.comp.map (·.edge)).length → j < (A.comp.map (·.edge)).length → cp[i]! = cp[j]! → i = j := by
    intro i j hi hj h
    have hl : cp.length = A.comp.length := by simpa using hcp.length_eq
    rw [List.length_map] at hi hj
    rw [getElem!_pos cp i (by omega), getElem!_pos cp j (by omega)] at h
    exact (List.Nodup.getElem_inj_iff (hcp.nodup_iff.mpr List.nodup_range)).mp h
  -- the body of the loop
  have hbody0 : ∀ t : List Dihedral, t.length = A.comp.length →
      (∀ (i : Nat) k d, A.comp[i]? = some k → t[i]? = some d → IsDihedral k.edge.length d) →
      ∃ q', edgemapOf bs n A.comp B.comp cp t = .ok q' ∧ emapOk q' = .ok true ∧ q'.perm.map ~ List.range n ∧
        q'.orient.length = n ∧
        ∀ (i : Nat) k d t' b, A.comp[i]? = some k → t[i]? = some d → cp[i]? = some t' → B.comp[t']? = some b →
          IsDihedral k.edge.length d ∧ Moves q'.perm.map k.edge b.edge d.map ∧ ∀ x ∈ k.edge, q'.orient[x]? = some d.orient := by
    intro t ht hdih
    obtain ⟨m', os', c1, c2, c3, c4, _⟩ := edgemapLoop_ok (cp := cp) hBn A.comp 0 t (newEMap n).perm.map (newEMap n).orient hAn ht.symm
      (fun k hk x hx => by simpa [newEMap, newPerm] using hlt k hk x hx) (by simp [newEMap, newPerm]) hdih
      (by simpa only [Nat.zero_add] using hsz)
    simp only [Nat.zero_add] at c4
    have hml : m'.length = n := by simpa [newEMap, newPerm] using c2
    have hol : os'.length = n := by simpa [newEMap] using c3
    have hperm : m' ~ List.range n := by
      refine blocks_perm (G := A.comp.map (·.edge)) (H := B.comp.map (·.edge)) (κ := fun i => cp[i]!)
        (d := fun i => (t.getD i ⟨[], .pos⟩).map) ?_ ?_ hcpinj hml ?_
      · rw [← List.flatMap_def]; exact hA
      · rw [← List.flatMap_def, hAB]; exact hB
      · intro i g hg
        rw [List.getElem?_map, Option.map_eq_some_iff] at hg
        obtain ⟨k, hk, rfl⟩ := hg
        obtain ⟨t', b, t1, t2, t3⟩ := hsz i k hk
        have hi : i < t.length := by rw [ht]; exact (List.getElem?_eq_some_iff.mp hk).1
        have hti := List.getElem?_eq_getElem hi
        refine ⟨b.edge, ?_, ?_, ?_⟩
        · rw [List.getElem?_map, getElem!_def, t1, t2]
          rfl
        · simp only [List.getD, hti, Option.getD_some]
          exact dihedral_nodup (hdih i k _ hk hti)
        · simp only [List.getD, hti, Option.getD_some]
          exact (c4 i k _ t' b hk hti t1 t2).1
    obtain ⟨C, r1, r2, r3⟩ := emapOk_ok bs (m := m') (os := os') (by rw [hml]; exact hperm) (by omega) (by
      intro o ho
      obtain ⟨x, hx⟩ := List.mem_iff_getElem?.mp ho
      have hxn : x < n := by rw [← hol]; exact (List.getElem?_eq_some_iff.mp hx).1
      obtain ⟨k, hk, hxk⟩ := List.mem_flatMap.mp (hA.mem_iff.mpr (List.mem_range.mpr hxn))
      obtain ⟨i, hi⟩ := List.mem_iff_getElem?.mp hk
      obtain ⟨t', b, t1, t2, t3⟩ := hsz i k hi
      have hit : i < t.length := by rw [ht]; exact (List.getElem?_eq_some_iff.mp hi).1
      have hti := List.getElem?_eq_getElem hit
      have := (c4 i k _ t' b hi hti t1 t2).2 x hxk
      rw [hx, Option.some.injEq] at this
      rw [this]
      rcases hdih i k _ hi hti with h | h
      · exact Or.inl h.1
      · exact Or.inr h.1)
    refine ⟨⟨C, os'⟩, ?_, r3, by rw [r2]; exact hperm, hol, ?_⟩
    · unfold edgemapOf
      rw [c1, ok_bind]
      simp only
      rw [r1, ok_bind]
    · intro i k d t' b hi hdi ht' hb
      rw [r2]
      exact ⟨hdih i k d hi hdi, c4 i k d t' b hi hdi ht' hb⟩
  have hbody : ∀ t : List σ, t.length = (A.comp.map (fun k => new k.edge.length)).length →
      (∀ (p : Nat) k, (A.comp.map (fun k => w k.edge.length))[p]? = some k → ∃ d, d < k ∧
        t[p]? = some (V ((compSizes A.comp).getD p 0) d)) →
      ∃ q', edgemapOf bs n A.comp B.comp cp (t.map conv) = .ok q' ∧ emapOk q' = .ok true ∧ q'.perm.map ~ List.range n ∧
        q'.orient.length = n ∧
        ∀ (i : Nat) k d t' b, A.comp[i]? = some k → (t.map conv)[i]? = some d → cp[i]? = some t' → B.comp[t']? = some b →
          (IsDihedral k.edge.length d ∧ C d.orient) ∧ Moves q'.perm.map k.edge b.edge d.map ∧
            ∀ x ∈ k.edge, q'.orient[x]? = some d.orient := by
    intro t ht hd
    rw [List.length_map] at ht
    have hdih : ∀ (i : Nat) k d, A.comp[i]? = some k → (t.map conv)[i]? = some d → IsDihedral k.edge.length d ∧ C d.orient := by
      intro i k d hi hdi
      obtain ⟨j, j1, j2⟩ := hd i (w k.edge.length) (by simp [hi])
      have hgd : (compSizes A.comp).getD i 0 = k.edge.length := by simp [List.getD, compSizes, hi]
      rw [List.getElem?_map, j2, Option.map_some, Option.some.injEq, hgd] at hdi
      have hk := hksmall k (List.mem_of_getElem? hi)
      exact ((hV _ hk.1 hk.2).2 d).mpr ⟨j, j1, hdi⟩
    obtain ⟨q', a1, a2, a3, a4, a5⟩ := hbody0 (t.map conv) (by simp [ht]) (fun i k d h1 h2 => (hdih i k d h1 h2).1)
    exact ⟨q', a1, a2, a3, a4, fun i k d t' b h1 h2 h3 h4 => ⟨hdih i k d h1 h2, (a5 i k d t' b h1 h2 h3 h4).2⟩⟩
  obtain ⟨f, hf⟩ : ∃ f : List σ → EMap, ∀ t q', edgemapOf bs n A.comp B.comp cp (t.map conv) = .ok q' → f t = q' :=
    ⟨fun t => match edgemapOf bs n A.comp B.comp cp (t.map conv) with | .ok q => q | .error _ => newEMap n, by
      intro t q' h
      simp only [h]⟩
  obtain ⟨m0, L, e1, e2, e3, e4⟩ := enum_spec ops (A.comp.map (fun k => new k.edge.length))
    (A.comp.map (fun k => w k.edge.length)) (fun p => V ((compSizes A.comp).getD p 0)) (by simp)
    (by
      intro p s k hs hk
      rw [List.getElem?_map, Option.map_eq_some_iff] at hs
      obtain ⟨g, hg, rfl⟩ := hs
      simp only [List.getElem?_map, hg, Option.map_some, Option.some.injEq] at hk
      subst hk
      have hgd : (compSizes A.comp).getD p 0 = g.edge.length := by simp [List.getD, compSizes, hg]
      rw [hgd]
      have hk := hksmall g (List.mem_of_getElem? hg)
      exact (hV _ hk.1 hk.2).1)
    hsmall (fun t => edgemapOf bs n A.comp B.comp cp (t.map conv)) f
    (by
      intro t h1 h2
      obtain ⟨q', a1, _⟩ := hbody t h1 h2
      rw [a1, hf t q' a1])
  have hval : ∀ t ∈ L, emapOk (f t) = .ok true ∧ (f t).perm.map ~ List.range n ∧ (f t).orient.length = n ∧
        ∀ (i : Nat) k d t' b, A.comp[i]? = some k → (t.map conv)[i]? = some d → cp[i]? = some t' → B.comp[t']? = some b →
          (IsDihedral k.edge.length d ∧ C d.orient) ∧ Moves (f t).perm.map k.edge b.edge d.map ∧
            ∀ x ∈ k.edge, (f t).orient[x]? = some d.orient := by
    intro t ht
    obtain ⟨h1, h2⟩ := (e4 t).mp ht
    obtain ⟨q', a1, a2, a3, a4, a5⟩ := hbody t h1 h2
    rw [hf t q' a1]
    exact ⟨a2, a3, a4, a5⟩
  have hlenL : ∀ t ∈ L, (t.map conv).length = A.comp.length := by
    intro t ht
    have := ((e4 t).mp ht).1
    rw [List.length_map] at this
    rw [List.length_map, this]
  -- two results that do the same come from the same choice
  have huniq : ∀ t ∈ L, ∀ t' : List Dihedral, t'.length = A.comp.length →
      (∀ (i : Nat) k d s b, A.comp[i]? = some k → t'[i]? = some d → cp[i]? = some s → B.comp[s]? = some b →
          (IsDihedral k.edge.length d ∧ C d.orient) ∧ Moves (f t).perm.map k.edge b.edge d.map ∧
            ∀ x ∈ k.edge, (f t).orient[x]? = some d.orient) → t.map conv = t' := by
    intro t ht t' hl' hv'
    apply List.ext_getElem?
    intro i
    by_cases hi : i < A.comp.length
    · have hgi : A.comp[i]? = some A.comp[i] := List.getElem?_eq_getElem hi
      have hti := List.getElem?_eq_getElem (l := t.map conv) (i := i) (by rw [hlenL t ht]; exact hi)
      have hti' := List.getElem?_eq_getElem (l := t') (i := i) (by rw [hl']; exact hi)
      obtain ⟨s, b, s1, s2, s3⟩ := hsz i _ hgi
      obtain ⟨b1, b2, b3⟩ := (hval t ht).2.2.2 i _ _ s b hgi hti s1 s2
      obtain ⟨b1', b2', b3'⟩ := hv' i _ _ s b hgi hti' s1 s2
      have hm := b2.inj (hbn s b s2) b2' (dihedral_lt b1.1).1 (dihedral_lt b1'.1).1
      have h0 : 0 < A.comp[i].edge.length := hA0 _ (List.getElem_mem hi)
      have hx : A.comp[i].edge[0] ∈ A.comp[i].edge := List.getElem_mem h0
      have ho := (b3 _ hx).symm.trans (b3' _ hx)
      rw [Option.some.injEq] at ho
      rw [hti, hti', Option.some.injEq]
      generalize (t.map conv)[i]'(by rw [hlenL t ht]; exact hi) = d at hm ho
      generalize t'[i]'(by rw [hl']; exact hi) = d' at hm ho
      cases d; cases d'
      simp only at hm ho
      rw [hm, ho]
    · rw [List.getElem?_eq_none (by rw [hlenL t ht]; omega), List.getElem?_eq_none (by omega)]
  have hmem : ∀ t : List Dihedral, t.length = A.comp.length →
      (∀ (i : Nat) k d, A.comp[i]? = some k → t[i]? = some d → IsDihedral k.edge.length d ∧ C d.orient) →
      ∃ t' ∈ L, t'.map conv = t := by
    intro t hl hd
    have hch : ∀ p : Nat, ∃ s : σ, ∀ g d, A.comp[p]? = some g → t[p]? = some d → conv s = d ∧
        ∃ j, j < w g.edge.length ∧ V g.edge.length j = s := by
      intro p
      cases hg : A.comp[p]? with
      | none => exact ⟨new 0, by simp⟩
      | some g =>
        have hp := List.getElem?_eq_getElem (l := t) (i := p) (by rw [hl]; exact (List.getElem?_eq_some_iff.mp hg).1)
        have hk := hksmall g (List.mem_of_getElem? hg)
        obtain ⟨j, j1, j2⟩ := ((hV _ hk.1 hk.2).2 _).mp (hd p g _ hg hp)
        refine ⟨V g.edge.length j, ?_⟩
        intro g' d hg' hd'
        cases hg'
        rw [hp] at hd'
        cases hd'
        exact ⟨j2, j, j1, rfl⟩
    choose s hs using hch
    refine ⟨(List.range A.comp.length).map s, (e4 _).mpr ⟨by simp, ?_⟩, ?_⟩
    · intro p k hk
      rw [List.getElem?_map, Option.map_eq_some_iff] at hk
      obtain ⟨g, hg, rfl⟩ := hk
      have hgd : (compSizes A.comp).getD p 0 = g.edge.length := by simp [List.getD, compSizes, hg]
      have hpl := (List.getElem?_eq_some_iff.mp hg).1
      have hp := List.getElem?_eq_getElem (l := t) (i := p) (by omega)
      obtain ⟨-, j, j1, j2⟩ := hs p g _ hg hp
      exact ⟨j, j1, by rw [hgd, j2, List.getElem?_map, List.getElem?_range hpl]; rfl⟩
    · apply List.ext_getElem (by simp [hl])
      intro p h1 h2
      have hpl : p < A.comp.length := by omega
      have := (hs p _ _ (List.getElem?_eq_getElem hpl) (List.getElem?_eq_getElem h2)).1
      simpa using this
  refine ⟨m0, L.map f, e1, e2, ?_, ?_, ?_, ?_⟩
  · intro h
    rw [List.map_eq_nil_iff] at h
    have : ∃ t, t ∈ L := by
      refine ⟨A.comp.map (fun k => new k.edge.length), (e4 _).mpr ⟨rfl, ?_⟩⟩
      intro p k hk
      rw [List.getElem?_map, Option.map_eq_some_iff] at hk
      obtain ⟨g, hg, rfl⟩ := hk
      have hgd : (compSizes A.comp).getD p 0 = g.edge.length := by simp [List.getD, compSizes, hg]
      have hk := hksmall g (List.mem_of_getElem? hg)
      have hc := (hV _ hk.1 hk.2).1
      have := hc.zero
      exact ⟨0, hc.pos, by rw [hgd, this, List.getElem?_map, hg]; rfl⟩
    obtain ⟨t, ht⟩ := this
    rw [h] at ht
    simp at ht
  · rw [List.map_map]
    refine (List.nodup_map_iff_inj_on e3).mpr ?_
    intro t ht t' ht' he
    simp only [Function.comp_apply, Prod.mk.injEq] at he
    refine hconv.list_map (huniq t ht (t'.map conv) (hlenL t' ht') ?_)
    rw [he.1, he.2]
    exact (hval t' ht').2.2.2
  · intro p hp
    obtain ⟨t, ht, rfl⟩ := List.mem_map.mp hp
    exact ⟨(hval t ht).1, (hval t ht).2.1, (hval t ht).2.2.1⟩
  · intro τ os
    rw [List.map_map, List.mem_map]
    constructor
    · rintro ⟨t, ht, he⟩
      simp only [Function.comp_apply, Prod.mk.injEq] at he
      obtain ⟨rfl, rfl⟩ := he
      obtain ⟨_, h2, h3, h4⟩ := hval t ht
      refine ⟨h2, h3, ?_, ?_⟩
      · intro c k hck
        obtain ⟨s, b, s1, s2, s3⟩ := hsz c k hck
        have hti := List.getElem?_eq_getElem (l := t.map conv) (i := c) (by
          rw [hlenL t ht]; exact (List.getElem?_eq_some_iff.mp hck).1)
        obtain ⟨⟨b1, -⟩, b2, b3⟩ := h4 c k _ s b hck hti s1 s2
        refine ⟨s, b, _, s1, s2, ?_, carried_of_moves s3 b1 b2, b3⟩
        rcases b1 with h | h <;> rw [h.1] <;> decide
      · intro o ho
        obtain ⟨x, hx⟩ := List.mem_iff_getElem?.mp ho
        have hxn : x < n := by rw [← h3]; exact (List.getElem?_eq_some_iff.mp hx).1
        obtain ⟨k, hk, hxk⟩ := List.mem_flatMap.mp (hA.mem_iff.mpr (List.mem_range.mpr hxn))
        obtain ⟨c, hck⟩ := List.mem_iff_getElem?.mp hk
        obtain ⟨s, b, s1, s2, s3⟩ := hsz c k hck
        have hti := List.getElem?_eq_getElem (l := t.map conv) (i := c) (by
          rw [hlenL t ht]; exact (List.getElem?_eq_some_iff.mp hck).1)
        obtain ⟨⟨-, b0⟩, -, b3⟩ := h4 c k _ s b hck hti s1 s2
        have := b3 x hxk
        rw [hx, Option.some.injEq] at this
        rw [this]
        exact b0
    · rintro ⟨h1, h2, h3, hC⟩
      have hτl : τ.length = n := by simpa using h1.length_eq
      have hch : ∀ i : Nat, ∃ d : Dihedral, ∀ k, A.comp[i]? = some k → ∃ t b, cp[i]? = some t ∧ B.comp[t]? = some b ∧
          (IsDihedral k.edge.length d ∧ C d.orient) ∧ Moves τ k.edge b.edge d.map ∧ ∀ x ∈ k.edge, os[x]? = some d.orient := by
        intro i
        cases hk : A.comp[i]? with
        | none => exact ⟨newDihedral 0, by simp⟩
        | some k =>
          obtain ⟨t, b, dir, t1, t2, t3, t4, t5⟩ := h3 i k hk
          obtain ⟨d, d1, d2, d3⟩ := moves_of_carried (m := τ) (listCarried_length t4) (hA0 k (List.mem_of_getElem? hk)) t3
            (fun x hx => by rw [hτl]; exact hlt k (List.mem_of_getElem? hk) x hx) t4
          refine ⟨d, ?_⟩
          rintro k' hk'
          cases hk'
          have h0 := hA0 k (List.mem_of_getElem? hk)
          have := t5 _ (List.getElem_mem h0)
          exact ⟨t, b, t1, t2, ⟨d1, by rw [d2]; exact hC _ (List.mem_of_getElem? this)⟩, d3, by rw [d2]; exact t5⟩
      choose D hD using hch
      have hget : ∀ i, i < A.comp.length → ((List.range A.comp.length).map D)[i]? = some (D i) := by
        intro i hi
        simp [hi]
      obtain ⟨T, htL, hT⟩ : ∃ T ∈ L, T.map conv = (List.range A.comp.length).map D := by
        apply hmem _ (by simp)
        intro i k d hi hd
        rw [hget i (List.getElem?_eq_some_iff.mp hi).1, Option.some.injEq] at hd
        obtain ⟨t, b, _, _, d1, _⟩ := hD i k hi
        exact hd ▸ d1
      refine ⟨_, htL, ?_⟩
      obtain ⟨_, g2, g3, g4⟩ := hval _ htL
      rw [hT] at g4
      have hx : ∀ x, x < n → (f T).perm.map[x]? = τ[x]? ∧
          (f T).orient[x]? = os[x]? := by
        intro x hxn
        obtain ⟨k, hk, hxk⟩ := List.mem_flatMap.mp (hA.mem_iff.mpr (List.mem_range.mpr hxn))
        obtain ⟨i, hi⟩ := List.mem_iff_getElem?.mp hk
        obtain ⟨t, b, t1, t2, d1, d2, d3⟩ := hD i k hi
        obtain ⟨_, u2, u3⟩ := g4 i k _ t b hi (hget i (List.getElem?_eq_some_iff.mp hi).1) t1 t2
        rw [u3 x hxk, d3 x hxk]
        refine ⟨?_, rfl⟩
        obtain ⟨j, hj⟩ := List.mem_iff_getElem?.mp hxk
        obtain ⟨y, z, a1, a2, a3⟩ := d2 j x hj
        obtain ⟨y', z', a1', a2', a3'⟩ := u2 j x hj
        rw [a1] at a1'
        cases a1'
        rw [a2] at a2'
        cases a2'
        rw [a3, a3']
      simp only [Function.comp_apply, Prod.mk.injEq]
      have gl : (f T).perm.map.length = n := by simpa using g2.length_eq
      constructor
      · apply List.ext_getElem?
        intro x
        by_cases hxn : x < n
        · exact (hx x hxn).1
        · rw [List.getElem?_eq_none (by omega), List.getElem?_eq_none (by omega)]
      · apply List.ext_getElem?
        intro x
        by_cases hxn : x < n
        · exact (hx x hxn).2
        · rw [List.getElem?_eq_none (by omega), List.getElem?_eq_none (by omega)]


/-- `pd_build_edgemaps` lists, once each, the maps that take every component around its image in one direction. -/
theorem buildEdgemaps_ok (bs : BSearch) {A B : Io.Pd} (hn : 1 ≤ A.edge.length) (hAB : A.edge.length = B.edge.length)
    (hA : A.comp.flatMap (·.edge) ~ List.range A.edge.length) (hA0 : ∀ k ∈ A.comp, 0 < k.edge.length)
    (hB : B.comp.flatMap (·.edge) ~ List.range B.edge.length)
    (hc : A.comp.length = B.comp.length) (hcp : cp ~ List.range A.comp.length)
    (hsz : ∀ (c : Nat) k, A.comp[c]? = some k → ∃ t b, cp[c]? = some t ∧ B.comp[t]? = some b ∧ b.edge.length = k.edge.length)
    (hsmall : (A.comp.map (fun k => 2 * k.edge.length)).prod < 2 ^ 32) :
    ∃ ems, buildEdgemaps bs A B cp = .ok ems ∧ ems ≠ [] ∧ (ems.map (fun e => (e.perm.map, e.orient))).Nodup ∧
      (∀ e ∈ ems, emapOk e = .ok true ∧ e.perm.map ~ List.range A.edge.length ∧ e.orient.length = A.edge.length) ∧
      ∀ τ os, (τ, os) ∈ ems.map (fun e => (e.perm.map, e.orient)) ↔
        τ ~ List.range A.edge.length ∧ os.length = A.edge.length ∧ AlongComps A.comp B.comp cp τ os := by
  obtain ⟨V, hV⟩ := dihedral_cycles
  have hksmall : ∀ k ∈ A.comp, k.edge.length < 2 ^ 31 := by
    intro k hk
    have h1 : 2 * k.edge.length ∣ (A.comp.map (fun k => 2 * k.edge.length)).prod :=
      List.dvd_prod (List.mem_map_of_mem hk)
    have h2 : 0 < (A.comp.map (fun k => 2 * k.edge.length)).prod := by
      apply List.prod_pos
      intro a ha
      obtain ⟨k', hk', rfl⟩ := List.mem_map.mp ha
      have := hA0 k' hk'
      omega
    have := Nat.le_of_dvd h2 h1
    omega
  obtain ⟨m0, ems, e1, e2, e3, e4, e5, e6⟩ := edgemaps_enum bs dihedralOps newDihedral id Function.injective_id (fun n => 2 * n)
    (fun _ => True) V (fun n h1 h2 => ⟨(hV n h1 h2).1, fun d => by simpa using (hV n h1 h2).2 d⟩) hn hAB hA hA0 hksmall hB hcp hsz
    hsmall
  refine ⟨ems, ?_, e3, e4, e5, fun τ os => by simpa using e6 τ os⟩
  unfold buildEdgemaps
  rw [assertC_ok (by
    have hl : cp.length = A.comp.length := by simpa using hcp.length_eq
    simp [hc, hl]), ok_bind, assertC_ok (by simpa using hAB), ok_bind, e1, ok_bind]
  simpa using e2

end Plc.IsoSearch
