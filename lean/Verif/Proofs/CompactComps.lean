import Verif.Proofs.MovesDel

namespace Plc

/-- Entries of a list are related to the next ones, cyclically. -/
def Cyclic (R : Nat → Nat → Prop) (l : List Nat) : Prop :=
  ∀ (j e : Nat), l[j]? = some e → ∃ e', l[(j + 1) % l.length]? = some e' ∧ R e e'

namespace Cyclic

variable {R S : Nat → Nat → Prop} {l : List Nat}

theorem imp (h : Cyclic R l) (hi : ∀ a b, a ∈ l → b ∈ l → R a b → S a b) : Cyclic S l := by
  intro j e he
  obtain ⟨e', h1, h2⟩ := h j e he
  exact ⟨e', h1, hi e e' (List.mem_of_getElem? he) (List.mem_of_getElem? h1) h2⟩

theorem map (f : Nat → Nat) (h : Cyclic (fun a b => S (f a) (f b)) l) : Cyclic S (l.map f) := by
  intro j e he
  rw [List.getElem?_map, Option.map_eq_some_iff] at he
  obtain ⟨a, ha, rfl⟩ := he
  obtain ⟨b, h1, h2⟩ := h j a ha
  exact ⟨f b, by rw [List.length_map, List.getElem?_map, h1]; rfl, h2⟩

theorem rotate (h : Cyclic R l) (n : Nat) : Cyclic R (l.rotate n) := by
  intro j e he
  have hj := (List.getElem?_eq_some_iff.mp he).1
  rw [List.length_rotate] at hj
  rw [List.getElem?_rotate hj] at he
  obtain ⟨e', h1, h2⟩ := h _ e he
  refine ⟨e', ?_, h2⟩
  rw [List.length_rotate, List.getElem?_rotate (Nat.mod_lt _ (by omega)), ← h1]
  congr 1
  rw [Nat.mod_add_mod, Nat.mod_add_mod]
  congr 1
  omega

theorem of_isRotated {l' : List Nat} (h : Cyclic R l) (hr : l ~r l') : Cyclic R l' := by
  obtain ⟨n, rfl⟩ := hr
  exact h.rotate n

/-- Leaving out the second and third entry. -/
theorem skip {a b c : Nat} {m : List Nat} (h : Cyclic R (a :: b :: c :: m)) (hne : ∀ x ∈ m, x ≠ a) (hac : a ≠ c)
    (h0 : ∀ y, y ∈ a :: m → R c y → S a y) (h1 : ∀ x y, x ∈ m → y ∈ a :: m → R x y → S x y) :
    Cyclic S (a :: m) := by
  have nxt : ∀ j, 2 ≤ j → j < m.length + 3 → ∃ y, (a :: m)[(j - 2 + 1) % (m.length + 1)]? = some y ∧
      (a :: b :: c :: m)[(j + 1) % (m.length + 3)]? = some y ∧ y ∈ a :: m := by
    intro j hj hj'
    by_cases hl : j + 1 = m.length + 3
    · refine ⟨a, ?_, ?_, by simp⟩
      · rw [show j - 2 + 1 = m.length + 1 by omega, Nat.mod_self]; rfl
      · rw [hl, Nat.mod_self]; rfl
    · have hlt : j - 2 < m.length := by omega
      refine ⟨m[j - 2], ?_, ?_, by simp⟩
      · rw [Nat.mod_eq_of_lt (by omega), List.getElem?_cons_succ, List.getElem?_eq_getElem hlt]
      · rw [Nat.mod_eq_of_lt (by omega), show j + 1 = (j - 2) + 1 + 1 + 1 by omega, List.getElem?_cons_succ,
          List.getElem?_cons_succ, List.getElem?_cons_succ, List.getElem?_eq_getElem hlt]
  intro j e he
  have hj := (List.getElem?_eq_some_iff.mp he).1
  simp only [List.length_cons] at hj ⊢
  obtain ⟨y, y1, y2, y3⟩ := nxt (j + 2) (by omega) (by omega)
  rw [Nat.add_sub_cancel] at y1
  refine ⟨y, y1, ?_⟩
  cases j with
  | zero =>
    simp only [List.getElem?_cons_zero, Option.some.injEq] at he
    subst he
    obtain ⟨e', k1, k2⟩ := h 2 c rfl
    simp only [List.length_cons] at k1
    rw [y2] at k1
    cases k1
    exact h0 _ y3 k2
  | succ j =>
    rw [List.getElem?_cons_succ] at he
    obtain ⟨e', k1, k2⟩ := h (j + 3) e (by simpa using he)
    simp only [List.length_cons] at k1
    rw [show j + 3 + 1 = j + 1 + 2 + 1 by omega] at k1
    have : (j + 1 + 2 + 1) % (m.length + 1 + 1 + 1) = (j + 1 + 2 + 1) % (m.length + 3) := rfl
    rw [this, y2] at k1
    cases k1
    exact h1 e _ (List.mem_of_getElem? he) y3 k2

end Cyclic

theorem filter_isRotated {l l' : List Nat} (h : l ~r l') (p : Nat → Bool) : l.filter p ~r l'.filter p := by
  obtain ⟨n, rfl⟩ := h
  have h1 : l.rotate n = l.rotate (n % l.length) := (List.rotate_mod l n).symm
  rw [h1]
  by_cases h0 : l = []
  · subst h0; simp
  have hl : n % l.length ≤ l.length := (Nat.mod_lt _ (List.length_pos_of_ne_nil h0)).le
  rw [List.rotate_eq_drop_append_take hl, List.filter_append]
  conv_lhs => rw [← List.take_append_drop (n % l.length) l, List.filter_append]
  exact List.isRotated_append

namespace Moves

open Plc.Core Plc.Cmp Plc.Buffers List Plc.Comps
open Plc.PermM (ap ap_lt)

/-- A component's edges under new numbers. -/
def newEdges (eidx : List Nat) (l : List Nat) : List Nat :=
  (l.filterMap (fun s => eidx[s]?)).filter (fun t => decide (t ≠ UNSET_IDX))

theorem transComps_ok (qs : QSort) (eidx : List Nat) : ∀ (comps : List Comp),
    (∀ c ∈ comps, ∀ e ∈ c.edge, e < eidx.length) →
    Moves.transComps qs eidx comps = .ok (comps.map (fun c => ⟨newEdges eidx c.edge, c.tag⟩))
  | [], _ => rfl
  | c :: l, h => by
    unfold Moves.transComps
    rw [C15_transform_and_compact qs c.edge eidx (h c (by simp)), ok_bind,
      transComps_ok qs eidx l (fun c hc => h c (by simp [hc])), ok_bind]
    rfl

theorem sort_lengths (qs : QSort) {comps : List Comp} (hP : ∀ a ∈ comps, Small a.edge ∧ a.edge.length < 2 ^ 31) :
    (qs.sort compLe comps).Pairwise (fun a b => b.edge.length ≤ a.edge.length) := by
  have hperm := qs.perm compLe comps
  have ho := order_of_key (P := fun f : Comp => Small f.edge ∧ f.edge.length < 2 ^ 31)
    (same := fun a b => (2 ^ 31 - a.edge.length) :: a.edge = (2 ^ 31 - b.edge.length) :: b.edge)
    (cmp := compCmp) (fun f => (2 ^ 31 - f.edge.length) :: f.edge)
    (fun a b ha hb => longLex_spec _ _ ha.1 hb.1 ha.2 hb.2) (by intros; rfl)
  have hsorted := qs.sorted compLe comps
    (by
      intro a b ha hb
      have := ho.swap a b (hP a ha) (hP b hb)
      simp only [compLe, Bool.or_eq_true, decide_eq_true_eq]
      omega)
    (by
      intro a b c ha hb hc h1 h2
      simp only [compLe, decide_eq_true_eq] at *
      exact ho.trans a b c (hP a ha) (hP b hb) (hP c hc) h1 h2)
  refine List.Pairwise.imp_of_mem ?_ hsorted
  intro a b ha hb h
  have pa := hP a (hperm.mem_iff.mp ha)
  have pb := hP b (hperm.mem_iff.mp hb)
  simp only [compLe, decide_eq_true_eq] at h
  unfold compCmp longLex at h
  split at h
  · rw [udiff_eq pb.2 pa.2] at h; omega
  · omega

theorem takeWhile_eq_filter {l : List Comp} (h : l.Pairwise (fun a b => b.edge.length ≤ a.edge.length)) :
    l.takeWhile (fun c => decide (c.edge.length > 0)) = l.filter (fun c => decide (c.edge.length > 0)) := by
  induction l with
  | nil => rfl
  | cons a l ih =>
    rw [List.pairwise_cons] at h
    rw [List.takeWhile_cons, List.filter_cons]
    by_cases ha : a.edge.length > 0
    · rw [if_pos (by simpa using ha), if_pos (by simpa using ha), ih h.2]
    · rw [if_neg (by simpa using ha), if_neg (by simpa using ha)]
      symm
      rw [List.filter_eq_nil_iff]
      intro b hb
      have := h.1 b hb
      simp only [decide_eq_true_eq]
      omega

theorem resortLoop_ok (edge : List Edge) : ∀ (l : List Nat) (i : Nat) (num : List Nat) (buf : List Edge),
    l.Nodup → (∀ e ∈ l, e < num.length ∧ e < edge.length) → i + l.length ≤ buf.length →
    ∃ num' buf', resortLoop edge l i num buf = .ok (num', buf') ∧ num'.length = num.length ∧ buf'.length = buf.length ∧
      (∀ (j e : Nat), l[j]? = some e → num'[e]? = some (i + j) ∧ buf'[i + j]? = edge[e]?) ∧
      (∀ e, e ∉ l → num'[e]? = num[e]?) ∧ (∀ j, j < i → buf'[j]? = buf[j]?)
  | [], i, num, buf, _, _, _ => ⟨num, buf, rfl, rfl, rfl, by simp, by simp, by simp⟩
  | e :: l, i, num, buf, hn, hb, hi => by
    rw [List.nodup_cons] at hn
    have he := hb e (by simp)
    simp only [List.length_cons] at hi
    obtain ⟨num', buf', h1, h2, h3, h4, h5, h6⟩ := resortLoop_ok edge l (i + 1) (num.set e i) (buf.set i edge[e])
      hn.2 (fun x hx => by rw [List.length_set]; exact hb x (by simp [hx])) (by rw [List.length_set]; omega)
    refine ⟨num', buf', ?_, by simpa using h2, by simpa using h3, ?_, ?_, ?_⟩
    · unfold resortLoop
      rw [wr_lt he.1, ok_bind, rd_lt he.2, ok_bind, wr_lt (by omega), ok_bind, h1]
    · intro j x hx
      cases j with
      | zero =>
        simp at hx
        subst hx
        rw [Nat.add_zero, h5 e hn.1, h6 i (by omega), List.getElem?_set_self he.1, List.getElem?_set_self (by omega),
          List.getElem?_eq_getElem he.2]
        exact ⟨rfl, rfl⟩
      | succ j =>
        have := h4 j x (by simpa using hx)
        rwa [show i + 1 + j = i + (j + 1) by omega] at this
    · intro x hx
      simp only [List.mem_cons, not_or] at hx
      rw [h5 x hx.2, List.getElem?_set_ne (Ne.symm hx.1)]
    · intro j hj
      rw [h6 j (by omega), List.getElem?_set_ne (by omega)]

theorem renameComps_ok (num : List Nat) (τ : Nat → Nat) : ∀ (comps : List Comp),
    (∀ c ∈ comps, ∀ e ∈ c.edge, num[e]? = some (τ e)) →
    renameComps num comps = .ok (comps.map (fun c => ⟨c.edge.map τ, c.tag⟩))
  | [], _ => rfl
  | c :: l, h => by
    unfold renameComps
    have hc := h c (by simp)
    rw [transformAll_spec num c.edge (fun s hs => (List.getElem?_eq_some_iff.mp (hc s hs)).1), ok_bind,
      renameComps_ok num τ l (fun c hc => h c (by simp [hc])), ok_bind, List.map_cons]
    congr 3
    have : ∀ (m : List Nat), (∀ e ∈ m, num[e]? = some (τ e)) → m.filterMap (fun s => num[s]?) = m.map τ := by
      intro m
      induction m with
      | nil => intro _; rfl
      | cons a m ih =>
        intro hm
        rw [List.filterMap_cons, hm a (by simp), List.map_cons, ih (fun e he => hm e (by simp [he]))]
    exact this _ hc

theorem mapC_eq_renameC (τ : Nat → Nat) : Emap.mapC τ = renameC τ := rfl

/-- `pd_compact_components`, when the transformed components are components of the new diagram. -/
theorem compactComps_ok (qs : QSort) {cross : List Cross} {edge : List Edge} (hC : Consistent cross edge)
    (hO : Oriented cross edge) (hsmall : edge.length < 2 ^ 31) {comps : List Comp} {eidx : List Nat}
    (hlt : ∀ c ∈ comps, ∀ e ∈ c.edge, e < eidx.length)
    (hall : (comps.flatMap (fun c => newEdges eidx c.edge)).Perm (range edge.length))
    (hcyc : ∀ c ∈ comps, Cyclic (Follows cross edge) (newEdges eidx c.edge)) :
    ∃ cross' edge' comps' τ σ ρ, compactComps qs comps eidx cross edge = .ok (cross', edge', comps') ∧
      Renamed cross edge cross' edge' τ σ ρ (fun _ => false) ∧ SameSigns cross cross' σ ∧
      comps'.flatMap (·.edge) = range edge.length ∧
      comps'.Pairwise (fun a b => b.edge.length ≤ a.edge.length) ∧
      (∀ c ∈ comps', c.edge ≠ []) ∧
      (∀ c ∈ comps', Cyclic (Follows cross' edge') c.edge) ∧
      (comps'.Perm ((comps.map (fun c => (⟨(newEdges eidx c.edge).map τ, c.tag⟩ : Comp))).filter
        (fun c => decide (c.edge.length > 0)))) ∧
      cross'.Pairwise (fun a b => ¬ ([b.e0, b.e1, b.e2, b.e3] : List Nat) < [a.e0, a.e1, a.e2, a.e3]) := by
  set cs1 := comps.map (fun c => (⟨newEdges eidx c.edge, c.tag⟩ : Comp)) with hcs1
  have hmem1 : ∀ c ∈ cs1, ∀ e ∈ c.edge, e < edge.length := by
    intro c hc e he
    obtain ⟨d, hd, rfl⟩ := List.mem_map.mp hc
    have : e ∈ range edge.length := hall.subset (List.mem_flatMap.mpr ⟨d, hd, he⟩)
    simpa using this
  have hP : ∀ a ∈ cs1, Small a.edge ∧ a.edge.length < 2 ^ 31 := by
    intro a ha
    refine ⟨fun e he => by have := hmem1 a ha e he; omega, ?_⟩
    obtain ⟨d, hd, rfl⟩ := List.mem_map.mp ha
    have h1 : (newEdges eidx d.edge).length ≤ (comps.flatMap (fun c => newEdges eidx c.edge)).length :=
by
      rw [List.length_flatMap]
      exact List.single_le_sum (by simp) _ (List.mem_map_of_mem hd)
    rw [hall.length_eq, List.length_range] at h1
    exact Nat.lt_of_le_of_lt h1 hsmall
  have hsort := sort_lengths qs hP
  have hperm := qs.perm compLe cs1
  set cs2 := (qs.sort compLe cs1).takeWhile (fun c => decide (c.edge.length > 0)) with hcs2
  have hcs2' : cs2 = (qs.sort compLe cs1).filter (fun c => decide (c.edge.length > 0)) := takeWhile_eq_filter hsort
  have hp2 : cs2.Perm (cs1.filter (fun c => decide (c.edge.length > 0))) := by
    rw [hcs2']; exact hperm.filter _
  have hflat : ∀ l : List Comp, (l.filter (fun c => decide (c.edge.length > 0))).flatMap (·.edge) = l.flatMap (·.edge) := by
    intro l
    induction l with
    | nil => rfl
    | cons a l ih =>
      rw [List.filter_cons]
      split
      · rw [List.flatMap_cons, List.flatMap_cons, ih]
      · rename_i h
        have : a.edge = [] := by
          simp only [decide_eq_true_eq] at h
          exact List.eq_nil_of_length_eq_zero (by omega)
        rw [List.flatMap_cons, this, List.nil_append, ih]
  set F := cs2.flatMap (·.edge) with hFdef
  have hF : F.Perm (range edge.length) := by
    rw [hFdef]
    refine (hp2.flatMap_right _).trans ?_
    rw [hflat, hcs1, List.flatMap_map]
    exact hall
  have hFl := F_length hF
  obtain ⟨num, buf, n1, n2, n3, n4, _, _⟩ := resortLoop_ok edge F 0 (replicate edge.length 0) (replicate edge.length zeroEdge)
    (F_nodup hF) (fun e he => by rw [List.length_replicate]; exact ⟨(F_mem hF).mp he, (F_mem hF).mp he⟩)
    (by rw [List.length_replicate]; omega)
  rw [List.length_replicate] at n2 n3
  have hnum : ∀ e, e < edge.length → num[e]? = some (F.idxOf e) := by
    intro e he
    have := (n4 _ _ (F_idx hF he).2).1
    rwa [Nat.zero_add] at this
  have he1 : ∀ (i e : Nat), F[i]? = some e → buf[i]? = edge[e]? := by
    intro i e he
    have := (n4 i e he).2
    rwa [Nat.zero_add] at this
  have hap : ∀ e, e < edge.length → ap num e = F.idxOf e := by
    intro e he
    have := hnum e he
    rw [ap_lt (by omega)]
    rw [List.getElem?_eq_getElem (by omega)] at this
    exact Option.some.inj this
  have hent : ∀ c ∈ cross, ∀ k, c.at k < edge.length := by
    intro c hc k
    obtain ⟨d, hd, rfl⟩ := List.getElem_of_mem hc
    exact hC.slot_edge_lt (at_eq_slot (k := k) (List.getElem?_eq_getElem hd))
  have hmap : cross.map (Emap.mapC (ap num)) = cross.map (renameC (fun e => F.idxOf e)) := by
    apply List.map_congr_left
    intro c hc
    have h0 := hap _ (hent c hc 0)
    have h1 := hap _ (hent c hc 1)
    have h2 := hap _ (hent c hc 2)
    have h3 := hap _ (hent c hc 3)
    simp only [Cross.at, Nat.reduceMod] at h0 h1 h2 h3
    unfold Emap.mapC renameC
    rw [h0, h1, h2, h3]
  have hC1 := rename_consistent hC hF n3 he1
  have hO1 := rename_oriented (cross := cross) hO hF n3 he1
  obtain ⟨cross', edge', σ, ρ, g1, R, Sg, g4, _⟩ := regenCrossings_renamed qs hC1 (by rw [n3]; omega)
  have hmem2 : ∀ c ∈ cs2, ∀ e ∈ c.edge, e < edge.length := fun c hc e he =>
    (F_mem hF).mp (List.mem_flatMap.mpr ⟨c, hc, he⟩)
  have hfollow : ∀ a b, Follows cross edge a b → Follows cross' edge' (F.idxOf a) (F.idxOf b) := by
    rintro a b ⟨r, hr, hs⟩
    have f1 : Follows (cross.map (renameC (fun e => F.idxOf e))) buf (F.idxOf a) (F.idxOf b) :=
      ⟨r, edge1_idx hF he1 hr, by rw [slot_rename, hs]; rfl⟩
    simpa using R.follows hC1 hO1 (fun _ _ _ => rfl) f1
  have R1 : Renamed cross edge (cross.map (renameC (fun e => F.idxOf e))) buf (fun e => F.idxOf e) id (fun _ => 0)
      (fun _ => false) := by
    refine ⟨by simp, n3, fun _ h => h, fun _ _ _ _ h => h, fun e he => (F_idx hF he).1, ?_, fun _ => by decide, ?_, ?_⟩
    · intro e f he hf hef
      have a := (F_idx hF he).2
      have b := (F_idx hF hf).2
      rw [hef, b] at a
      cases a
      rfl
    · intro c x hx
      exact ⟨renameC _ x, by rw [id, List.getElem?_map, hx]; rfl, fun k => by rw [renameC_at]; rfl⟩
    · intro e r hr
      rw [edge1_idx hF he1 hr]
      congr 1
      have hh := (slot_lt (hC.head e r hr)).2
      have ht := (slot_lt (hC.tail e r hr)).2
      unfold moveEdge
      obtain ⟨a, b, c, d⟩ := r
      simp only at hh ht
      simp only [Bool.false_eq_true, if_false, id, Edge.mk.injEq, true_and]
      omega
  have R2 := R1.trans R hC
  simp only [Bool.xor_false, id] at R2
  refine ⟨cross', edge', cs2.map (fun c => ⟨c.edge.map (fun e => F.idxOf e), c.tag⟩), fun e => F.idxOf e, σ, _, ?_, R2, ?_, ?_,
    ?_, ?_, ?_, ?_, g4⟩
  · unfold compactComps
    rw [transComps_ok qs eidx comps hlt, ok_bind]
    simp only
    rw [n1, ok_bind]
    simp only
    rw [Emap.renameCross_ok num cross (fun c hc k => by rw [n2]; exact hent c hc k), ok_bind,
      renameComps_ok num (fun e => F.idxOf e) cs2 (fun c hc e he => hnum e (hmem2 c hc e he)), ok_bind, hmap, g1, ok_bind]
  · intro c x hx
    obtain ⟨x', k1, k2⟩ := Sg c (renameC (fun e => F.idxOf e) x) (by rw [List.getElem?_map, hx]; rfl)
    exact ⟨x', k1, k2⟩
  · rw [List.flatMap_map]
    have : (cs2.flatMap fun c => c.edge.map (fun e => F.idxOf e)) = F.map (fun e => F.idxOf e) := by
      rw [hFdef, List.map_flatMap]
    rw [this]
    apply List.ext_getElem?
    intro i
    rw [List.getElem?_map]
    by_cases hi : i < edge.length
    · have hi' : i < F.length := by omega
      rw [List.getElem?_range hi, List.getElem?_eq_getElem hi', Option.map_some,
        idx_F hF (List.getElem?_eq_getElem hi')]
    · rw [List.getElem?_eq_none (by omega), List.getElem?_eq_none (by simpa using hi)]
      rfl
  · rw [List.pairwise_map]
    simp only [List.length_map]
    rw [hcs2']
    exact hsort.filter _
  · intro c hc
    obtain ⟨d, hd, rfl⟩ := List.mem_map.mp hc
    rw [hcs2', List.mem_filter] at hd
    have := hd.2
    simp only [decide_eq_true_eq] at this
    intro he
    simp only [List.map_eq_nil_iff] at he
    rw [he] at this
    simp at this
  · intro c hc
    obtain ⟨d, hd, rfl⟩ := List.mem_map.mp hc
    have hd1 : d ∈ cs1 := hperm.mem_iff.mp (List.mem_of_mem_filter (hcs2' ▸ hd))
    obtain ⟨c0, hc0, rfl⟩ := List.mem_map.mp hd1
    exact Cyclic.map _ ((hcyc c0 hc0).imp (fun a b _ _ h => hfollow a b h))
  · refine (hp2.map _).trans ?_
    rw [hcs1, List.filter_map, List.map_map, List.filter_map]
    simp only [Function.comp_def, List.length_map]
    exact List.Perm.refl _

end Moves

end Plc
