import Verif.Proofs.RegenFix
import Verif.Proofs.Tidy

/-! # Rebuilding what is in order already

`pd_regenerate` does nothing to a diagram in the state it leaves diagrams in. -/

namespace Plc.Ok

open Plc.Core Plc.Cmp Plc.Regenerate Plc.Faces Plc.Comps Plc.Orbit Plc.Places

variable {cross : List Cross} {edge : List Edge}

theorem rdist_lt (c : Cross) : rdist c < 4 := by
  unfold rdist rdistStep
  simp only
  split_ifs <;> simp_all <;> omega

theorem canon_of_rdist {c : Cross} (h : rdist c = 0) : CanonCross c := by
  obtain ⟨a, b, d, e, s⟩ := c
  unfold rdist rdistStep at h
  simp only [Cross.at] at h
  unfold CanonCross
  simp only
  split_ifs at h <;> simp_all <;> omega

theorem Tidy.canon {comps : List Comp} {faces : List Face} (h : Tidy cross edge comps faces) : ∀ c ∈ cross, CanonCross c := by
  intro c hc
  apply canon_of_rdist
  have h1 := h.canonical.rot c hc
  obtain ⟨f1, f2⟩ := Distinct.facing h.plane hc
  unfold canonorderCross at h1
  simp only [reduceCtorEq, if_false] at h1
  have hlt : rdist c < 4 := rdist_lt c
  obtain ⟨a, b, d, e, s⟩ := c
  simp only at f1 f2
  generalize rdist ⟨a, b, d, e, s⟩ = k at h1 hlt
  unfold rotL at h1
  interval_cases k
  · rfl
  · simp [Cross.at] at h1; omega
  · simp [Cross.at] at h1; omega
  · simp [Cross.at] at h1; omega

/-! ### Components -/

section

variable (hC : Consistent cross edge) (hO : Oriented cross edge)

include hC hO

theorem step_min {starts : List Nat} {asg : List Asg} (hF : Found cross edge starts asg) {s : Nat}
    (hs : asg[s]? = some none) (hlow : ∀ e, e < s → ∃ x, asg[e]? = some (some x)) :
    ∀ y ∈ cyc (nx cross edge) s, s ≤ y := by
  have hI := injOn_nx hC hO
  intro y hy
  by_contra hlt
  obtain ⟨x, hx⟩ := hlow y (by omega)
  have hsl : s < edge.length := by
    have := (List.getElem?_eq_some_iff.mp hs).1
    rw [hF.len] at this
    exact this
  have hs' := Finset.mem_range.mpr hsl
  have hy' := hI.cyc_subset hs' hy
  have hcov : ∃ x ∈ starts, y ∈ cyc (nx cross edge) x := by
    by_contra hc
    push Not at hc
    rw [hF.off y (Finset.mem_range.mp hy') hc] at hx
    simp at hx
  obtain ⟨z, hz, hyz⟩ := hcov
  have hz' := Finset.mem_range.mpr (hF.lt z hz)
  have hsz := hI.cyc_meet hz' hs' hyz hy
  obtain ⟨c, hc, rfl⟩ := List.getElem_of_mem hz
  obtain ⟨i, hi, e⟩ := List.mem_map.mp hsz
  rw [List.mem_range] at hi
  have := hF.on c hc i hi
  rw [e, hs] at this
  simp at this

theorem compsLoop_min {maxedges maxcomps : Nat} (hmax : edge.length ≤ maxedges)
    (hK : ∀ starts : List Nat, (∀ x ∈ starts, x < edge.length) →
      starts.Pairwise (fun x y => y ∉ cyc (nx cross edge) x) → starts.length ≤ maxcomps) :
    ∀ (r s : Nat) (starts : List Nat) (asg : List Asg), starts.length + r = maxcomps →
      Found cross edge starts asg → asg[s]? = some none → (∀ e, e < s → ∃ x, asg[e]? = some (some x)) →
      (∀ x ∈ starts, ∀ y ∈ cyc (nx cross edge) x, x ≤ y) →
      ∃ starts' asg', compsLoop maxedges cross r starts.length s edge asg
          (starts.map (per (nx cross edge))) = .ok (edge, asg', starts'.map (per (nx cross edge))) ∧
        Found cross edge starts' asg' ∧ (∀ a ∈ asg', a ≠ none) ∧
        ∀ x ∈ starts', ∀ y ∈ cyc (nx cross edge) x, x ≤ y
  | 0, s, starts, asg, hr, hF, hs, _, _ => by
    obtain ⟨asg', h1, h2⟩ := hF.step hC hO hmax hs
    have := hK _ h2.lt h2.sep
    simp at this
    omega
  | r + 1, s, starts, asg, hr, hF, hs, hlow, hm => by
    have hm' : ∀ x ∈ starts ++ [s], ∀ y ∈ cyc (nx cross edge) x, x ≤ y := by
      intro x hx
      rw [List.mem_append, List.mem_singleton] at hx
      rcases hx with hx | rfl
      · exact hm x hx
      · exact step_min hC hO hF hs hlow
    obtain ⟨asg', h1, h2⟩ := hF.step hC hO hmax hs
    have hfu := findUnassigned_spec asg' 0
    have hfm := findUnassigned_min asg' 0
    unfold compsLoop
    rw [h1, ok_bind]
    simp only
    match hm2 : findUnassigned asg' 0 with
    | none => exact ⟨starts ++ [s], asg', by simp, h2, hfu.2 hm2, hm'⟩
    | some e =>
      obtain ⟨_, h3⟩ := hfu.1 e hm2
      simp only
      have := compsLoop_min hmax hK r e (starts ++ [s]) asg' (by simp; omega) h2 (by simpa using h3)
        (fun k hk => by simpa using hfm.1 e hm2 k (Nat.zero_le _) hk) hm'
      simpa using this

end

/-- A component record is the cycle through its first edge, which is its smallest. -/
theorem comp_cyc (hC : Consistent cross edge) (hO : Oriented cross edge) {comps : List Comp} (hK : GoodComps cross edge comps) {k : Comp}
    (hk : k ∈ comps) : ∃ s, s < edge.length ∧ k.edge = cyc (nx cross edge) s ∧ k.edge = List.range' s k.edge.length := by
  have hI := injOn_nx hC hO
  have hpos := List.length_pos_iff.mpr (hK.nonempty k hk)
  have hinf : k.edge <:+: List.range edge.length := by
    rw [← hK.all]
    obtain ⟨a, b, rfl⟩ := List.append_of_mem hk
    exact ⟨a.flatMap (·.edge), b.flatMap (·.edge), by simp⟩
  obtain ⟨s, hs⟩ := Emap.infix_range hinf
  have h0 : k.edge[0]? = some s := by
    rw [hs, List.getElem?_range' (by omega)]
    simp
  have hsl : s < edge.length := by
    have := hinf.subset (List.mem_of_getElem? h0)
    simpa using this
  have key : ∀ j, k.edge[j % k.edge.length]? = some ((nx cross edge)^[j] s) := by
    intro j
    induction j with
    | zero => simpa using h0
    | succ j ih =>
      obtain ⟨e', h1, h2⟩ := hK.follow k hk _ _ ih
      rw [Nat.mod_add_mod] at h1
      rw [h1, Function.iterate_succ_apply', ((Comps.follows_iff hC _ _).mp h2).2]
  have hnod : k.edge.Nodup := by
    rw [hs]
    exact List.nodup_range'
  have hper : per (nx cross edge) s = k.edge.length := by
    have hs' := Finset.mem_range.mpr hsl
    have hp := hI.per_pos hs'
    have h1 := key k.edge.length
    rw [Nat.mod_self, h0] at h1
    apply Nat.le_antisymm
    · exact Function.IsPeriodicPt.minimalPeriod_le hpos (Option.some.inj h1).symm
    · by_contra hlt
      have h2 := key (per (nx cross edge) s)
      rw [iterate_per, Nat.mod_eq_of_lt (by omega)] at h2
      have := (List.getElem?_inj hpos hnod).mp (h0.trans h2.symm)
      omega
  refine ⟨s, hsl, ?_, hs⟩
  apply List.ext_getElem?
  intro j
  by_cases hj : j < k.edge.length
  · have := key j
    rw [Nat.mod_eq_of_lt hj] at this
    rw [this, cyc_getElem? (by omega)]
  · rw [List.getElem?_eq_none (by omega), List.getElem?_eq_none (by rw [cyc_length]; omega)]

/-- The sort keys of component records, as `pd_component_cmp` compares them. -/
def compKey (k : Comp) : List Nat := (2 ^ 31 - k.edge.length) :: k.edge

theorem comp_le {comps : List Comp} (hK : GoodComps cross edge comps) {k : Comp} (hk : k ∈ comps) :
    k.edge.length ≤ edge.length ∧ ∀ e ∈ k.edge, e < edge.length := by
  have hinf : k.edge <:+: List.range edge.length := by
    rw [← hK.all]
    obtain ⟨a, b, rfl⟩ := List.append_of_mem hk
    exact ⟨a.flatMap (·.edge), b.flatMap (·.edge), by simp⟩
  refine ⟨by simpa using hinf.length_le, ?_⟩
  intro e he
  simpa using hinf.subset he

theorem comps_sorted {comps : List Comp} (hK : GoodComps cross edge comps) (hsmall : edge.length < 2 ^ 31) : comps.Pairwise (fun a b => compKey a ≤ compKey b) := by
  have hflat : (comps.flatMap (·.edge)).Pairwise (· < ·) := by
    rw [hK.all]
    exact List.pairwise_lt_range
  rw [List.pairwise_flatMap] at hflat
  have h2 := hflat.2.and hK.longest
  refine h2.imp_of_mem ?_
  rintro a b ha hb ⟨h1, h3⟩
  unfold compKey
  obtain ⟨x, l, hx⟩ := List.exists_cons_of_ne_nil (hK.nonempty a ha)
  obtain ⟨y, m, hy⟩ := List.exists_cons_of_ne_nil (hK.nonempty b hb)
  have hxy := h1 x (by rw [hx]; simp) y (by rw [hy]; simp)
  apply le_of_lt
  rw [List.cons_lt_cons_iff]
  rw [hx, hy] at h3 ⊢
  rcases Nat.lt_or_ge (y :: m).length (x :: l).length with h | h
  · left
    have := (comp_le hK ha).1
    rw [hx] at this
    omega
  · right
    refine ⟨by omega, ?_⟩
    rw [List.cons_lt_cons_iff]
    exact .inl hxy

theorem renum_self : ∀ (l : List Comp) (i : Nat), l.flatMap (·.edge) = List.range' i (l.flatMap (·.edge)).length →
    renum l i = l
  | [], i, _ => rfl
  | c :: l, i, h => by
    rw [List.flatMap_cons, List.length_append, ← List.range'_append_1] at h
    obtain ⟨h1, h2⟩ := List.append_inj h (by simp)
    rw [renum, ← h1, renum_self l _ h2]

theorem compLe_iff {a b : Comp} (ha : Small a.edge ∧ a.edge.length < 2 ^ 31) (hb : Small b.edge ∧ b.edge.length < 2 ^ 31) :
    compLe a b = true ↔ compKey a ≤ compKey b := by
  have h := longLex_spec a.edge b.edge ha.1 hb.1 ha.2 hb.2
  have h' : compCmp a b = longLex a.edge b.edge := rfl
  unfold compLe compKey
  rw [decide_eq_true_eq, h', le_iff_lt_or_eq (a := (2 ^ 31 - a.edge.length) :: a.edge), ← h.1, ← h.2]
  omega

theorem nodup_of_flatten {α : Type} {LL : List (List α)} (h : LL.flatten.Nodup) (hne : ∀ l ∈ LL, l ≠ []) : LL.Nodup := by
  rw [List.nodup_flatten] at h
  refine h.2.imp_of_mem ?_
  rintro a b ha hb hd rfl
  obtain ⟨x, l, rfl⟩ := List.exists_cons_of_ne_nil (hne a ha)
  exact hd (List.mem_cons_self) (List.mem_cons_self)

theorem assignTags_self : ∀ (l : List Comp) (t : Nat), l.map (·.tag) = List.range' t l.length →
    assignTags (l.map (fun k => (⟨k.edge, 0⟩ : Comp))) t = l
  | [], _, _ => rfl
  | c :: l, t, h => by
    rw [List.length_cons, List.range'_succ, List.map_cons] at h
    obtain ⟨h1, h2⟩ := List.cons.inj h
    rw [List.map_cons, assignTags, assignTags_self l (t + 1) h2]
    simp only [← h1]

theorem regenComps_fix (qs : QSort) {maxedges maxcomps : Nat} {comps : List Comp} {faces : List Face}
    (h : Tidy cross edge comps faces) (hmax : edge.length ≤ maxedges)
    (hK : ∀ starts : List Nat, (∀ x ∈ starts, x < edge.length) →
      starts.Pairwise (fun x y => y ∉ cyc (nx cross edge) x) → starts.length ≤ maxcomps) :
    regenComps qs maxedges maxcomps cross edge = .ok (cross, edge, comps) := by
  have hC := h.plane.consistent
  have hO := h.plane.oriented
  have h0 := h.plane.nonempty
  have hsmall : edge.length < 2 ^ 31 := by have := h.small; omega
  have hI := injOn_nx hC hO
  have hG := h.goodComps
  have hsort : SortedCross cross := h.canonical.strict.imp (fun h => not_lt_of_gt h)
  obtain ⟨ok1, ok2⟩ := C23_checks_accept maxedges cross edge hC hO h0 hmax (by omega) hsort
  have hpos : 0 < edge.length := by
    have : 0 < cross.length := List.length_pos_iff.mpr h0
    have := hC.count
    omega
  have hF0 : Found cross edge [] (List.replicate edge.length none) := by
    refine ⟨by simp, by simp, by simp, by simp, ?_⟩
    intro e he _
    simp [he]
  obtain ⟨starts, asg, l1, hFd, hall, hmin⟩ := compsLoop_min hC hO hmax hK maxcomps 0 []
    (List.replicate edge.length none) (by simp) hF0 (by simp [hpos]) (by intro e he; omega) (by simp)
  have hfill := hFd.fill hC hO hall
  have hflat := hFd.flat hC hO hall
  obtain ⟨bufs, hbufs⟩ : ∃ bufs, bufs = starts.map (cyc (nx cross edge)) := ⟨_, rfl⟩
  rw [← hbufs] at hfill hflat
  -- the buffers are the component records in some order
  have hperm : bufs.Perm (comps.map (·.edge)) := by
    rw [List.perm_ext_iff_of_nodup]
    · intro b
      constructor
      · intro hb
        rw [hbufs] at hb
        obtain ⟨x, hx, rfl⟩ := List.mem_map.mp hb
        have hxl := hFd.lt x hx
        have hx' := Finset.mem_range.mpr hxl
        have hxm : x ∈ comps.flatMap (·.edge) := by
          rw [hG.all]
          exact List.mem_range.mpr hxl
        obtain ⟨k, hk, hxk⟩ := List.mem_flatMap.mp hxm
        obtain ⟨s, hsl, c1, c2⟩ := comp_cyc hC hO hG hk
        have hs' := Finset.mem_range.mpr hsl
        have h1 := hmin x hx s (hI.cyc_meet hx' hs' (hI.self_mem_cyc hx') (by rw [← c1]; exact hxk))
        rw [c2, List.mem_range'_1] at hxk
        have : x = s := by omega
        subst this
        exact List.mem_map.mpr ⟨k, hk, c1⟩
      · intro hb
        obtain ⟨k, hk, rfl⟩ := List.mem_map.mp hb
        obtain ⟨s, hsl, c1, c2⟩ := comp_cyc hC hO hG hk
        have hs' := Finset.mem_range.mpr hsl
        obtain ⟨x, hx, hsx⟩ := hFd.covers hall hsl
        have hx' := Finset.mem_range.mpr (hFd.lt x hx)
        have h1 := hmin x hx s hsx
        have h2 := hI.cyc_meet hs' hx' (hI.self_mem_cyc hs') hsx
        rw [← c1, c2, List.mem_range'_1] at h2
        have : x = s := by omega
        subst this
        rw [hbufs]
        exact List.mem_map.mpr ⟨x, hx, c1.symm⟩
    · refine nodup_of_flatten (hflat.nodup_iff.mpr List.nodup_range) ?_
      intro b hb
      rw [hbufs] at hb
      obtain ⟨x, hx, rfl⟩ := List.mem_map.mp hb
      have := hI.self_mem_cyc (Finset.mem_range.mpr (hFd.lt x hx))
      exact List.ne_nil_of_mem this
    · refine nodup_of_flatten (by rw [← List.flatMap_def, hG.all]; exact List.nodup_range) ?_
      intro b hb
      obtain ⟨k, hk, rfl⟩ := List.mem_map.mp hb
      exact hG.nonempty k hk
  have hsmk : ∀ k ∈ comps, Small k.edge ∧ k.edge.length < 2 ^ 31 := by
    intro k hk
    obtain ⟨a1, a2⟩ := comp_le hG hk
    refine ⟨fun e he => ?_, by omega⟩
    have := a2 e he
    omega
  have hsc : qs.sort compLe (bufs.map (fun b => (⟨b, 0⟩ : Comp))) = comps.map (fun k => ⟨k.edge, 0⟩) := by
    have hp2 : (bufs.map (fun b => (⟨b, 0⟩ : Comp))).Perm (comps.map (fun k => ⟨k.edge, 0⟩)) := by
      have := hperm.map (fun b => (⟨b, 0⟩ : Comp))
      rwa [List.map_map] at this
    have hP : ∀ a ∈ comps.map (fun k => (⟨k.edge, 0⟩ : Comp)), (Small a.edge ∧ a.edge.length < 2 ^ 31) ∧ a.tag = 0 := by
      intro a ha
      obtain ⟨k, hk, rfl⟩ := List.mem_map.mp ha
      exact ⟨hsmk k hk, rfl⟩
    have hPb : ∀ a ∈ bufs.map (fun b => (⟨b, 0⟩ : Comp)), Small a.edge ∧ a.edge.length < 2 ^ 31 :=
      fun a ha => (hP a (hp2.mem_iff.mp ha)).1
    have hp1 := qs.perm compLe (bufs.map (fun b => (⟨b, 0⟩ : Comp)))
    have hs1 := qs.sorted compLe (bufs.map (fun b => (⟨b, 0⟩ : Comp)))
      (fun a b ha hb => by
        have := le_total (compKey a) (compKey b)
        rw [Bool.or_eq_true, compLe_iff (hPb a ha) (hPb b hb), compLe_iff (hPb b hb) (hPb a ha)]
        exact this)
      (fun a b c ha hb hc => by
        rw [compLe_iff (hPb a ha) (hPb b hb), compLe_iff (hPb b hb) (hPb c hc), compLe_iff (hPb a ha) (hPb c hc)]
        exact le_trans)
    refine List.Perm.eq_of_pairwise (le := fun a b => compLe a b = true) ?_ hs1 ?_ (hp1.trans hp2)
    · intro a b ha hb h1 h2
      obtain ⟨a1, a2⟩ := hP a ((hp1.trans hp2).mem_iff.mp ha)
      obtain ⟨b1, b2⟩ := hP b hb
      rw [compLe_iff a1 b1] at h1
      rw [compLe_iff b1 a1] at h2
      have := le_antisymm h1 h2
      unfold compKey at this
      obtain ⟨-, h3⟩ := List.cons.inj this
      cases a
      cases b
      simp_all
    · rw [List.pairwise_map]
      refine (comps_sorted hG hsmall).imp_of_mem ?_
      intro a b ha hb hle
      exact (compLe_iff (a := ⟨a.edge, 0⟩) (b := ⟨b.edge, 0⟩) (hsmk a ha) (hsmk b hb)).mpr hle
  have htags : assignTags (comps.map (fun k => (⟨k.edge, 0⟩ : Comp))) 65 = comps :=
    assignTags_self comps 65 hG.tags
  have hFl : comps.flatMap (·.edge) = List.range edge.length := hG.all
  have hFp : (List.range edge.length).Perm (List.range edge.length) := List.Perm.refl _
  obtain ⟨old, new, t1, t2, t3, t4, _, _⟩ := transEdges_spec (List.range edge.length) 0 (List.replicate maxedges none)
    (List.replicate maxedges none) List.nodup_range
    (fun e he => by
      have := List.mem_range.mp he
      simp; omega)
    (by simp; omega)
  obtain ⟨edge1, m1, m2, m3⟩ := moveEdges_spec edge old (List.range edge.length)
    (fun j e hj => by have := (t4 j e hj).1; rwa [Nat.zero_add] at this)
    (fun e he => List.mem_range.mp he) edge.length 0 (by simp)
  have he1 : edge1 = edge := by
    apply List.ext_getElem?
    intro i
    by_cases hi : i < edge.length
    · exact m3 i i (by simp [hi])
    · rw [List.getElem?_eq_none (by omega), List.getElem?_eq_none (by omega)]
  subst he1
  have hren := renameCross_spec new id cross (by
    intro c hc k
    obtain ⟨i, hi, rfl⟩ := List.getElem_of_mem hc
    have hs := hC.slot_edge_lt (slot_of_lt hi (Nat.mod_lt k (by decide : 0 < 4)))
    rw [← at_lt] at hs
    have := (t4 _ _ (List.getElem?_range hs)).2
    rwa [Nat.zero_add] at this)
  rw [show cross.map (renameC id) = cross from List.map_id'' (fun _ => rfl) cross] at hren
  have hfix : regenCrossings qs cross edge1 = .ok (cross, edge1) := by
    apply regen_fix
    · intro r hr
      obtain ⟨e, he, rfl⟩ := List.getElem_of_mem hr
      have hg : edge1[e]? = some edge1[e] := by simp [he]
      have a1 := slot_lt (hC.head _ _ hg)
      have a2 := slot_lt (hC.tail _ _ hg)
      exact ⟨a1.1, a2.1, a1.2, a2.2⟩
    · intro c hc x hx
      obtain ⟨i, hi, rfl⟩ := List.getElem_of_mem hc
      obtain ⟨k, hk, rfl⟩ := edges_mem hx
      have := hC.slot_edge_lt (slot_of_lt hi hk)
      omega
    · exact Tidy.canon h
    · exact h.canonical.strict
  unfold regenComps
  rw [ok1, ok_bind, assertC_ok rfl, ok_bind, ok2, ok_bind, assertC_ok rfl, ok_bind]
  have l1' : compsLoop maxedges cross maxcomps 0 0 edge1 (List.replicate edge1.length none) [] =
    .ok (edge1, asg, starts.map (per (nx cross edge1))) := l1
  rw [l1', ok_bind]
  simp only
  rw [hfill, ok_bind, hsc, htags, transComps_eq, hFl, t1, ok_bind, ok_bind]
  simp only
  rw [m1, ok_bind, hren, ok_bind, hfix, ok_bind, renum_self comps 0 (by rw [hFl]; simp [List.range_eq_range'])]

/-! ### Faces -/

theorem sides_fst {F : List Face} (hF : GoodFaces cross edge F) {f : Face} (hf : f ∈ F) : (sides f).map Prod.fst = f.edge := by
  rw [sides, List.map_fst_zip (hF.shape f hf).1.le]

theorem sides_snd {F : List Face} (hF : GoodFaces cross edge F) {f : Face} (hf : f ∈ F) : (sides f).map Prod.snd = f.orient := by
  rw [sides, List.map_snd_zip (hF.shape f hf).1.ge]

/-- A face record is the cycle of sides through its first one, whose edge is the smallest. -/
theorem face_cyc (hC : Consistent cross edge) {F : List Face} (hF : GoodFaces cross edge F) {f : Face} (hf : f ∈ F) :
    ∃ s ∈ D edge, sides f = cyc (nd cross edge) s ∧ ∀ d ∈ sides f, s.1 ≤ d.1 := by
  have hI := injOn_nd hC
  have hlen := Shape.sides_length hF hf
  have hpos : 0 < (sides f).length := by
    rw [hlen]
    exact List.length_pos_iff.mpr (hF.shape f hf).2
  have h0 := List.getElem?_eq_getElem hpos
  generalize (sides f)[0] = s at h0
  have hsD := Shape.sides_mem hF hf (List.mem_of_getElem? h0)
  have key : ∀ j, (sides f)[j % (sides f).length]? = some ((nd cross edge)^[j] s) := by
    intro j
    induction j with
    | zero => simpa using h0
    | succ j ih =>
      obtain ⟨t, t1, t2⟩ := hF.turn f hf _ _ ih
      rw [← hlen, Nat.mod_add_mod] at t1
      rw [t1, Function.iterate_succ_apply', ((turns_iff hC _ _).mp t2).2]
  have hnod : (sides f).Nodup := by
    have := hF.all.nodup_iff.mpr (Shape.allSides_nodup _)
    rw [List.flatMap_def, List.nodup_flatten] at this
    exact this.1 _ (List.mem_map_of_mem hf)
  have hper : per (nd cross edge) s = (sides f).length := by
    have hp := hI.per_pos hsD
    have h1 := key (sides f).length
    rw [Nat.mod_self, h0] at h1
    apply Nat.le_antisymm
    · exact Function.IsPeriodicPt.minimalPeriod_le hpos (Option.some.inj h1).symm
    · by_contra hlt
      have h2 := key (per (nd cross edge) s)
      rw [iterate_per, Nat.mod_eq_of_lt (by omega)] at h2
      have := (List.getElem?_inj hpos hnod).mp (h0.trans h2.symm)
      omega
  refine ⟨s, hsD, ?_, ?_⟩
  · apply List.ext_getElem?
    intro j
    by_cases hj : j < (sides f).length
    · have := key j
      rw [Nat.mod_eq_of_lt hj] at this
      rw [this, cyc_getElem? (by omega)]
    · rw [List.getElem?_eq_none (by omega), List.getElem?_eq_none (by rw [cyc_length]; omega)]
  · intro d hd
    obtain ⟨e, e1, e2⟩ := hF.first f hf
    have hs1 : f.edge[0]? = some s.1 := by
      rw [← sides_fst hF hf, List.getElem?_map, h0]
      rfl
    rw [hs1] at e1
    cases e1
    apply e2
    rw [← sides_fst hF hf]
    exact List.mem_map_of_mem hd

theorem faces_subset (h : PlaneDiagram cross edge) {F G : List Face} (hF : GoodFaces cross edge F) (hG : GoodFaces cross edge G)
    {f : Face} (hf : f ∈ F) : f ∈ G := by
  have hC := h.consistent
  have hI := injOn_nd hC
  obtain ⟨s, s1, s2, s3⟩ := face_cyc hC hF hf
  have hsG : s ∈ G.flatMap sides := by
    rw [hG.all.mem_iff, Planar.mem_all rfl]
    exact s1
  obtain ⟨g, hg, hsg⟩ := List.mem_flatMap.mp hsG
  obtain ⟨t, t1, t2, t3⟩ := face_cyc hC hG hg
  have hts : t ∈ sides f := by
    rw [s2]
    exact hI.cyc_meet s1 t1 (hI.self_mem_cyc s1) (by rw [← t2]; exact hsg)
  have hss : s ∈ sides f := by
    rw [s2]
    exact hI.self_mem_cyc s1
  have h1 := s3 t hts
  have h2 := t3 s hsg
  have hnod := Distinct.face_nodup h hF hf
  rw [← sides_fst hF hf] at hnod
  have hst : s = t := List.inj_on_of_nodup_map hnod hss hts (by omega)
  subst hst
  have hfg : f = g := by
    have e1 := sides_fst hF hf
    have e2 := sides_snd hF hf
    have e3 := sides_fst hG hg
    have e4 := sides_snd hG hg
    rw [s2] at e1 e2
    rw [t2] at e3 e4
    cases f
    cases g
    simp only at e1 e2 e3 e4
    rw [← e1, ← e2, ← e3, ← e4]
  rw [hfg]
  exact hg

theorem faces_nodup {F : List Face} (hF : GoodFaces cross edge F) : F.Nodup := by
  have h1 : (F.map sides).Nodup := by
    refine nodup_of_flatten (by rw [← List.flatMap_def]; exact hF.all.nodup_iff.mpr (Shape.allSides_nodup _)) ?_
    intro l hl
    obtain ⟨f, hf, rfl⟩ := List.mem_map.mp hl
    intro h0
    have := Shape.sides_length hF hf
    rw [h0] at this
    exact (hF.shape f hf).2 (List.length_eq_zero_iff.mp this.symm)
  exact List.Nodup.of_map _ h1

/-- Face records in order are determined by crossings and edges. -/
theorem faces_unique (h : PlaneDiagram cross edge) {F G : List Face} (hF : GoodFaces cross edge F) (hG : GoodFaces cross edge G)
    (hs : F.Pairwise FaceBefore) (hs' : G.Pairwise FaceBefore) : F = G := by
  have hp : F.Perm G := by
    rw [List.perm_ext_iff_of_nodup (faces_nodup hF) (faces_nodup hG)]
    exact fun f => ⟨faces_subset h hF hG, faces_subset h hG hF⟩
  refine List.Perm.eq_of_pairwise (le := FaceBefore) ?_ hs hs' hp
  intro a b ha hb h1 h2
  have hb := hp.mem_iff.mpr hb
  by_contra hne
  obtain ⟨i, hi⟩ := List.mem_iff_getElem?.mp ha
  obtain ⟨j, hj⟩ := List.mem_iff_getElem?.mp hb
  have he : a.edge = b.edge := by
    rcases h1 with h1 | ⟨h1, h3⟩ <;> rcases h2 with h2 | ⟨h2, h4⟩
    · omega
    · omega
    · omega
    · exact le_antisymm (not_lt.mp h3) (not_lt.mp h4)
  refine Distinct.faces_differ h hF hi hj ?_ (fun e => by rw [he])
  rintro rfl
  rw [hi] at hj
  exact hne (Option.some.inj hj)

/-- Nothing happens to a diagram in order. -/
theorem regenerate_fix (qs : QSort) (mv : Nat) {comps : List Comp} {faces : List Face} (h : Tidy cross edge comps faces)
    (hsign : ∃ x ∈ cross, x.sign ≠ .unset) (hmv : cross.length ≤ mv) :
    regenerate qs (Io.capsNew mv).edges (Io.capsNew mv).comps (Io.capsNew mv).faces cross edge =
      .ok (cross, edge, comps, faces) := by
  have hC := h.plane.consistent
  have hO := h.plane.oriented
  have hcnt := hC.count
  have hsort : SortedCross cross := h.canonical.strict.imp (fun h => not_lt_of_gt h)
  have hsmall := h.small
  have hfix : regenCrossings qs cross edge = .ok (cross, edge) := by
    apply regen_fix
    · intro r hr
      obtain ⟨e, he, rfl⟩ := List.getElem_of_mem hr
      have hg : edge[e]? = some edge[e] := by simp [he]
      have a1 := slot_lt (hC.head _ _ hg)
      have a2 := slot_lt (hC.tail _ _ hg)
      exact ⟨a1.1, a2.1, a1.2, a2.2⟩
    · intro c hc x hx
      obtain ⟨i, hi, rfl⟩ := List.getElem_of_mem hc
      obtain ⟨k, hk, rfl⟩ := edges_mem hx
      have := hC.slot_edge_lt (slot_of_lt hi hk)
      omega
    · exact Tidy.canon h
    · exact h.canonical.strict
  have hch : chooseEdges cross edge = .ok (cross, edge) := by
    unfold chooseEdges
    rw [if_neg, (C23_checks_accept edge.length cross edge hC hO h.plane.nonempty (Nat.le_refl _) (by omega) hsort).2,
      ok_bind, if_pos rfl]
    intro hall
    rw [List.all_eq_true] at hall
    obtain ⟨x, hx, hs⟩ := hsign
    exact hs (by simpa using hall x hx)
  have hcomps : regenComps qs (Io.capsNew mv).edges (Io.capsNew mv).comps cross edge = .ok (cross, edge, comps) := by
    refine regenComps_fix qs h (by simp only [Io.capsNew]; omega) ?_
    have hI := injOn_nx hC hO
    intro starts h1 h2
    apply CompBound.strands_le hC hO h.plane.nonempty h.plane.connected h.plane.plane
      (k := (Io.capsNew mv).comps) (by simp only [Io.capsNew]; omega) starts h1
    refine List.Pairwise.imp_of_mem ?_ h2
    intro x y hx hy hxy hr
    apply hxy
    have hx' := Finset.mem_range.mpr (h1 x hx)
    rw [hI.mem_cyc hx']
    clear hxy hy
    induction hr with
    | refl => exact ⟨0, rfl⟩
    | tail _ hs ih =>
      obtain ⟨k, hk⟩ := ih
      rw [Comps.follows_iff hC] at hs
      refine ⟨k + 1, ?_⟩
      rw [Function.iterate_succ_apply', hk]
      exact hs.2
  obtain ⟨faces', hfa⟩ := C22_faces_plane qs (Io.capsNew mv).faces cross edge hC hO h.plane.nonempty hsmall
    (by simp only [Io.capsNew]; omega) h.plane.connected h.plane.plane
  have hgf : GoodFaces cross edge faces' := by
    rcases C22_faces_partition qs (Io.capsNew mv).faces cross edge hC h.plane.nonempty hsmall with hx | hx
    · rw [hfa] at hx; cases hx
    · obtain ⟨fs, f0, f1, f2, f3, f4, f5, f6⟩ := hx
      rw [hfa] at f0
      cases f0
      exact ⟨f1, f2, f3, f4, f5, f6⟩
  have := faces_unique h.plane hgf h.goodFaces (regenFaces_sorted hfa hgf hsmall) h.sorted
  subst this
  unfold regenerate
  rw [hfix, ok_bind]
  simp only
  rw [hch, ok_bind]
  simp only
  rw [hcomps, ok_bind]
  simp only
  rw [hfa, ok_bind]

end Plc.Ok
