import Verif.Proofs.SplitPlane

/-! `pd_split_diagram` piece by piece. -/

namespace Plc.Split

open Plc.Core Plc.Cmp Plc.Buffers Plc.Moves Plc.BigonDel Plc.Comps Plc.PermM Plc.Planar Plc.Isotopy Plc.Ok List

variable {pd : Io.Pd}

/-- The edges of a component are linked. -/
theorem comp_linked (hS : Scattered pd) {k : Comp} (hk : k ∈ pd.comp) {a b : Nat} (ha : a ∈ k.edge) (hb : b ∈ k.edge) :
    Linked pd.cross a b := by
  have hlt : ∀ e ∈ k.edge, e < pd.edge.length := fun e he =>
    List.mem_range.mp (hS.all.mem_iff.mp (List.mem_flatMap.mpr ⟨k, hk, he⟩))
  by_cases hf : ∃ e ∈ k.edge, pd.edge[e]? = some freeEdge
  · obtain ⟨e, he, h1⟩ := hf
    have := hS.free k hk e he h1
    rw [this] at ha hb
    rw [List.mem_singleton.mp ha, List.mem_singleton.mp hb]
    exact .refl
  · push Not at hf
    have key : ∀ (j : Nat) (x : Nat), k.edge[j]? = some x → ∀ y, k.edge[0]? = some y → Linked pd.cross y x := by
      intro j
      induction j with
      | zero =>
        intro x hx y hy
        rw [hx] at hy
        cases hy
        exact .refl
      | succ j ih =>
        intro x hx y hy
        have hj := (List.getElem?_eq_some_iff.mp hx).1
        have hjj : k.edge[j]? = some k.edge[j] := List.getElem?_eq_getElem (by omega)
        have hmem := List.mem_of_getElem? hjj
        obtain ⟨e', e1, r, r1, r2⟩ := hS.follow k hk j _ hjj (hf _ hmem)
        rw [Nat.mod_eq_of_lt hj, hx] at e1
        cases e1
        refine (ih _ hjj y hy).tail ⟨r.head, r.headpos, _, ?_, r2⟩
        exact (hS.loose.ends _ r r1 (fun hc => hf _ hmem (by rw [r1, hc]))).1
    obtain ⟨i, hi⟩ := List.mem_iff_getElem?.mp ha
    obtain ⟨j, hj⟩ := List.mem_iff_getElem?.mp hb
    have hpos : 0 < k.edge.length := by
      have := (List.getElem?_eq_some_iff.mp hi).1
      omega
    have h0 : k.edge[0]? = some k.edge[0] := List.getElem?_eq_getElem hpos
    exact (linked_symm (key i a hi _ h0)).trans (key j b hj _ h0)

theorem edge_lt (hS : Scattered pd) {k : Comp} (hk : k ∈ pd.comp) {e : Nat} (he : e ∈ k.edge) : e < pd.edge.length :=
  List.mem_range.mp (hS.all.mem_iff.mp (List.mem_flatMap.mpr ⟨k, hk, he⟩))

theorem headD_mem {l : List Nat} (h : l ≠ []) : l.headD 0 ∈ l := by
  obtain ⟨a, m, rfl⟩ := List.exists_cons_of_ne_nil h
  simp

/-- Labels which are the same on linked edges. -/
structure Labels (pd : Io.Pd) (code : List Nat) : Prop where
  len : code.length = pd.edge.length
  iff : ∀ (a b x y : Nat), code[a]? = some x → code[b]? = some y → (x = y ↔ Linked pd.cross a b)

theorem linked_lt (hL : Loose pd.cross pd.edge) {a b : Nat} (h : Linked pd.cross a b) (hne : a ≠ b) : b < pd.edge.length := by
  rcases Relation.ReflTransGen.cases_tail h with h | ⟨x, -, c, p, q, -, h⟩
  · exact absurd h.symm hne
  · obtain ⟨r, r1, -⟩ := hL.slots _ _ _ h
    exact (List.getElem?_eq_some_iff.mp r1).1

namespace Labels

variable {code : List Nat}

theorem congr (h : Labels pd code) (hL : Loose pd.cross pd.edge) {i a b : Nat} (hab : Linked pd.cross a b) (ha : code[a]? = some i) :
    code[b]? = some i := by
  by_cases hne : a = b
  · rw [← hne]
    exact ha
  · have hb : b < code.length := by rw [h.len]; exact linked_lt hL hab hne
    have := (h.iff a b _ _ ha (List.getElem?_eq_getElem hb)).mpr hab
    rw [List.getElem?_eq_getElem hb, this]

theorem whole (h : Labels pd code) (hL : Loose pd.cross pd.edge) {i e : Nat} {r : Edge} (he : pd.edge[e]? = some r) (hr : r ≠ freeEdge)
    (hi : code[e]? = some i) : Whole pd.cross pd.edge (fun e => code[e]? = some i) where
  closed a b hab ha := h.congr hL hab ha
  joint a b _ _ ha hb := (h.iff a b i i ha hb).mp rfl
  some := ⟨e, r, he, hr, hi⟩

/-- A component has one label. -/
theorem comp_iff (h : Labels pd code) (hS : Scattered pd) {i : Nat} {k : Comp} (hk : k ∈ pd.comp) {e : Nat} (he : e ∈ k.edge) :
    code[e]? = some i ↔ code[k.edge.headD 0]? = some i := by
  have hh := headD_mem (hS.nonempty k hk)
  exact ⟨fun x => h.congr hS.loose (comp_linked hS hk he hh) x, fun x => h.congr hS.loose (comp_linked hS hk hh he) x⟩

end Labels

theorem count_range (code : List Nat) (i : Nat) : code.count i = (List.range code.length).countP (fun e => decide (code[e]? = some i)) := by
  have h : code = (List.range code.length).map (fun e => code.getD e 0) := by
    apply List.ext_getElem (by simp)
    intro j h1 h2
    simp [List.getD_eq_getElem?_getD, List.getElem?_eq_getElem h1]
  conv_lhs => rw [h]
  rw [List.count_eq_countP, List.countP_map]
  apply List.countP_congr
  intro e he
  rw [List.mem_range] at he
  simp [List.getD_eq_getElem?_getD, List.getElem?_eq_getElem he]

theorem forall₂_right {α β : Type} {R : α → β → Prop} : ∀ {l : List α} {m : List β}, Forall₂ R l m → ∀ b ∈ m, ∃ a ∈ l, R a b
  | _, _, .nil, _, h => by simp at h
  | _, _, .cons h t, b, hb => by
    rcases List.mem_cons.mp hb with rfl | hb
    · exact ⟨_, by simp, h⟩
    · obtain ⟨a, a1, a2⟩ := forall₂_right t b hb
      exact ⟨a, by simp [a1], a2⟩

theorem forall₂_map {α β γ : Type} {R : α → β → Prop} {f : α → γ} {g : β → γ} (hR : ∀ a b, R a b → g b = f a) :
    ∀ {l : List α} {m : List β}, Forall₂ R l m → m.map g = l.map f
  | _, _, .nil => rfl
  | _, _, .cons h t => by rw [List.map_cons, List.map_cons, hR _ _ h, forall₂_map hR t]

/-- Sorted components: the longest come first. -/
theorem sort_longest (qs : QSort) {comps : List Comp} (hsm : ∀ a ∈ comps, Small a.edge ∧ a.edge.length < 2 ^ 31) :
    (qs.sort compLe comps).Pairwise (fun a b => b.edge.length ≤ a.edge.length) := by
  have hs := qs.sorted compLe comps
    (fun a b ha hb => by
      have := le_total (compKey a) (compKey b)
      rw [Bool.or_eq_true, compLe_iff (hsm a ha) (hsm b hb), compLe_iff (hsm b hb) (hsm a ha)]
      exact this)
    (fun a b c ha hb hc => by
      rw [compLe_iff (hsm a ha) (hsm b hb), compLe_iff (hsm b hb) (hsm c hc), compLe_iff (hsm a ha) (hsm c hc)]
      exact le_trans)
  refine hs.imp_of_mem ?_
  intro a b ha hb hab
  have ha' := (qs.perm compLe comps).mem_iff.mp ha
  have hb' := (qs.perm compLe comps).mem_iff.mp hb
  rw [compLe_iff (hsm a ha') (hsm b hb')] at hab
  have h1 := (hsm a ha').2
  have h2 := (hsm b hb').2
  by_contra hlt
  have : compKey b < compKey a := by
    unfold compKey
    rw [List.cons_lt_cons_iff]
    left
    omega
  exact absurd hab (not_le.mpr this)

/-- The components of a piece. -/
def compsAt (pd : Io.Pd) (code : List Nat) (i : Nat) : List Comp :=
  pd.comp.filter (fun k => decide (code[k.edge.headD 0]? = some i))

/-- The raw child. -/
theorem rawChild_ok (qs : QSort) (hS : Scattered pd) {code : List Nat} (hL : Labels pd code) {caps : Io.Caps}
    (hcap : pd.edge.length ≤ caps.edges) (hsmall : pd.edge.length < 2 ^ 31) {i e : Nat} {r : Edge} (he : pd.edge[e]? = some r)
    (hr : r ≠ freeEdge) (hi : code[e]? = some i) :
    ∃ cross1 edge1 comps1 X G τ σ, rawChild qs caps (Io.capsNew (code.count i / 2)) pd code i = .ok (cross1, edge1, comps1) ∧
      Cut pd.cross pd.edge (fun e => code[e]? = some i) X G cross1 edge1 τ σ ∧ PlaneDiagram cross1 edge1 ∧
      GoodComps cross1 edge1 (retag comps1) ∧ edge1.length = code.count i ∧
      cross1.length = (List.range pd.cross.length).countP (fun c => decide ((slot pd.cross c 0).bind (code[·]?) = some i)) ∧
      (comps1.map (·.tag)).Perm ((compsAt pd code i).map (·.tag)) ∧ 2 * comps1.length ≤ cross1.length + 2 ∧
      ∀ c' ∈ comps1, ∃ c ∈ compsAt pd code i, c.tag = c'.tag ∧ ∀ f, f < edge1.length → (f ∈ c'.edge ↔ τ f ∈ c.edge) := by
  have W := hL.whole hS.loose he hr hi
  have hlo := hS.loose
  let comps := qs.sort compLe (compsAt pd code i)
  have hcp : comps.Perm (compsAt pd code i) := qs.perm _ _
  have hcm : ∀ k ∈ comps, k ∈ pd.comp ∧ code[k.edge.headD 0]? = some i := by
    intro k hk
    have := hcp.mem_iff.mp hk
    unfold compsAt at this
    rw [List.mem_filter] at this
    exact ⟨this.1, by simpa using this.2⟩
  let F := comps.flatMap (·.edge)
  have hm : ∀ e, e ∈ F ↔ e < pd.edge.length ∧ code[e]? = some i := by
    intro e
    rw [List.mem_flatMap]
    constructor
    · rintro ⟨k, hk, hke⟩
      obtain ⟨k1, k2⟩ := hcm k hk
      exact ⟨edge_lt hS k1 hke, (hL.comp_iff hS k1 hke).mpr k2⟩
    · rintro ⟨h1, h2⟩
      obtain ⟨k, k1, k2⟩ := List.mem_flatMap.mp (hS.all.mem_iff.mpr (List.mem_range.mpr h1))
      refine ⟨k, hcp.mem_iff.mpr ?_, k2⟩
      unfold compsAt
      rw [List.mem_filter]
      exact ⟨k1, by simpa using (hL.comp_iff hS k1 k2).mp h2⟩
  have hF : F.Nodup := by
    have h1 : (pd.comp.flatMap (·.edge)).Nodup := hS.all.nodup_iff.mpr List.nodup_range
    have h2 : ((compsAt pd code i).flatMap (·.edge)).Nodup := (List.filter_sublist.flatMap _).nodup h1
    exact (hcp.flatMap_right _).nodup_iff.mpr h2
  have hcount : code.count i = F.length := by
    rw [count_range, List.countP_eq_length_filter]
    apply List.Perm.length_eq
    rw [List.perm_ext_iff_of_nodup (List.nodup_range.filter _) hF]
    intro a
    rw [List.mem_filter, hm, List.mem_range, hL.len]
    simp
  obtain ⟨q1, q2, q3⟩ := ends_count W hlo hm hF
  obtain ⟨f1, f2, f3⟩ := fourth qs _ q2
  generalize hcs : everyFourth (qs.sort (fun a b => decide (idxCmp a b ≤ 0))
    ((F.map (fun e => pd.edge[e]!)).flatMap (fun r => [r.head, r.tail]))) = cs at f1 f2 f3
  have hcsm : ∀ c, c ∈ cs ↔ ∃ k e, slot pd.cross c k = some e ∧ code[e]? = some i := fun c => (f2 c).trans (q1 c)
  have hcsn : cs.Nodup := f1.imp (fun h => Nat.ne_of_lt h)
  have hlen2 : F.length = 2 * cs.length := by omega
  have hcspos : 0 < cs.length := by
    have : e ∈ F := (hm e).mpr ⟨(List.getElem?_eq_some_iff.mp he).1, hi⟩
    have := List.length_pos_of_mem this
    omega
  have hmv : code.count i / 2 = cs.length := by omega
  rw [hmv]
  have cv : (Io.capsNew cs.length).verts = max cs.length 2 := rfl
  have ce : (Io.capsNew cs.length).edges = 2 * max cs.length 2 + 1 := rfl
  have cc : (Io.capsNew cs.length).comps = max cs.length 2 / 2 + 2 := rfl
  obtain ⟨comps1, new, t1, t2, t3, t4, t5, t6⟩ := takeComps_ok caps.edges (Io.capsNew cs.length).edges pd.edge comps 0
    (List.replicate caps.edges 0) (by simp) (fun a ha => by
      have := ((hm a).mp ha).1
      omega) hF (by
      change 0 + F.length ≤ _
      omega)
  obtain ⟨cross1, num, s1, s2, s3, s4, -, s6⟩ := takeCross_ok (Io.capsNew cs.length).verts pd.cross new cs 0
    (List.replicate pd.cross.length 0) (by simp) (fun c hc => by
      obtain ⟨k, a, ha, -⟩ := (hcsm c).mp hc
      have hcl := (slot_lt ha).1
      refine ⟨_, List.getElem?_eq_getElem hcl, fun k => ?_⟩
      have := slot_of_lt hcl (k := k % 4) (Nat.mod_lt _ (by decide))
      rw [Cross.at_mod] at this
      obtain ⟨r', r1, -⟩ := hlo.slots _ _ _ this
      have := (List.getElem?_eq_some_iff.mp r1).1
      omega) hcsn (by omega)
  have hren := renameEnds_ok num (F.map (fun e => pd.edge[e]!)) (by
    intro r' hr'
    obtain ⟨a, ha, rfl⟩ := List.mem_map.mp hr'
    obtain ⟨a1, a2⟩ := (hm a).mp ha
    have hra := get_bang a1
    obtain ⟨x, y, -⟩ := hlo.ends a _ hra (W.not_free hlo hra a2)
    rw [s3]
    exact ⟨(slot_lt x).1, (slot_lt y).1⟩)
  classical
  let X := (List.range pd.cross.length).filter (fun c => decide (¬ ∃ k e, slot pd.cross c k = some e ∧ code[e]? = some i))
  let G := (List.range pd.edge.length).filter (fun e => decide (¬ code[e]? = some i))
  have hX : ∀ c, c ∈ X ↔ c < pd.cross.length ∧ ¬ ∃ k e, slot pd.cross c k = some e ∧ code[e]? = some i := by
    intro c
    rw [List.mem_filter, List.mem_range, decide_eq_true_eq]
  have hG : ∀ e, e ∈ G ↔ e < pd.edge.length ∧ ¬ code[e]? = some i := by
    intro e
    rw [List.mem_filter, List.mem_range, decide_eq_true_eq]
  have L := raw_erased (lab := fun e => code[e]? = some i) (new := new) (num := num) W hlo hm hF hcsm hcsn
    (fun j a ha => by have := t3 j a ha; simpa using this) (fun j c hc => by have := s4 j c hc; simpa using this) s2 s6 hX hG
  generalize hedge1 : (F.map (fun e => pd.edge[e]!)).map (fun e => { e with head := ap num e.head, tail := ap num e.tail }) = edge1 at L hren
  have hel : edge1.length = F.length := by rw [← hedge1]; simp
  have C : Cut pd.cross pd.edge (fun e => code[e]? = some i) X G cross1 edge1 (fun f => F.getD f 0) (fun d => cs.getD d 0) :=
    ⟨W, hlo, hX, hG, L, by rw [hel, s2, hlen2]⟩
  have hpart : PlanePart pd.cross pd.edge (fun e => code[e]? = some i) := by
    obtain ⟨cs', reps, p1, p2, p3, p4, p5, p6⟩ := hS.plane e r he hr
    have hiff : ∀ a, a < pd.edge.length → (Linked pd.cross e a ↔ code[a]? = some i) := by
      intro a ha
      have hal : a < code.length := by rw [hL.len]; exact ha
      have := hL.iff e a i _ hi (List.getElem?_eq_getElem hal)
      rw [← this, List.getElem?_eq_getElem hal, Option.some.injEq]
      exact eq_comm
    refine ⟨cs', reps, p1, ?_, p3, ?_, p5, ?_⟩
    · intro c
      rw [p2 c]
      constructor
      · rintro ⟨k, a, h1, h2⟩
        obtain ⟨r', r1, -⟩ := hlo.slots _ _ _ h1
        exact ⟨k, a, h1, (hiff a (List.getElem?_eq_some_iff.mp r1).1).mp h2⟩
      · rintro ⟨k, a, h1, h2⟩
        obtain ⟨r', r1, -⟩ := hlo.slots _ _ _ h1
        exact ⟨k, a, h1, (hiff a (List.getElem?_eq_some_iff.mp r1).1).mpr h2⟩
    · intro s hs
      obtain ⟨a, b⟩ := p4 s hs
      exact ⟨a, (hiff _ (Cut.mem_sides.mp a).1).mp b⟩
    · intro s hs hl
      exact p6 s hs ((hiff _ (Cut.mem_sides.mp hs).1).mpr hl)
  have hP : PlaneDiagram cross1 edge1 := ⟨C.consistent, C.oriented hS.through_head hS.through_tail, C.nonempty, C.connected, C.planeFaces hpart⟩
  -- components
  have hsm : ∀ a ∈ compsAt pd code i, Small a.edge ∧ a.edge.length < 2 ^ 31 := by
    intro a ha
    have ha' : a ∈ pd.comp := (List.mem_filter.mp ha).1
    have hnd : a.edge.Nodup := (List.nodup_flatMap.mp (hS.all.nodup_iff.mpr List.nodup_range)).1 a ha'
    have hsub : a.edge ⊆ List.range pd.edge.length := fun x hx => List.mem_range.mpr (edge_lt hS ha' hx)
    have := (List.subperm_of_subset hnd hsub).length_le
    rw [List.length_range] at this
    refine ⟨fun x hx => ?_, by omega⟩
    have := edge_lt hS ha' hx
    omega
  have hlong := sort_longest qs hsm
  have hK : GoodComps cross1 edge1 (retag comps1) := by
    refine goodComps_retag ?_ ?_ ?_ ?_
    · rw [t5, hel, List.range_eq_range']
    · have hl : comps1.map (fun k => k.edge.length) = comps.map (fun k => k.edge.length) :=
        forall₂_map (R := fun k k' : Comp => k'.tag = k.tag ∧ k'.edge.length = k.edge.length ∧
        ∀ (j f : Nat), k'.edge[j]? = some f → 0 ≤ f ∧ (comps.flatMap (·.edge))[f - 0]? = k.edge[j]?) (fun a b h => h.2.1) t6
      have h1 : (comps.map (fun k : Comp => k.edge.length)).Pairwise (fun a b => b ≤ a) := List.pairwise_map.mpr hlong
      rw [← hl] at h1
      exact List.pairwise_map.mp h1
    · intro c hc
      obtain ⟨k, k1, k2, k3, k4⟩ := forall₂_right t6 c hc
      have := hS.nonempty k (hcm k k1).1
      rw [← List.length_pos_iff] at this ⊢
      omega
    · intro c hc j f hf
      obtain ⟨k, k1, k2, k3, k4⟩ := forall₂_right t6 c hc
      obtain ⟨-, k5⟩ := k4 j f hf
      obtain ⟨hkp, hki⟩ := hcm k k1
      have hj : j < k.edge.length := by
        have := (List.getElem?_eq_some_iff.mp hf).1
        omega
      have hkj := List.getElem?_eq_getElem hj
      have hmem := List.mem_of_getElem? hkj
      have hlt := edge_lt hS hkp hmem
      obtain ⟨e', e1, e2⟩ := hS.follow k hkp j _ hkj (fun hc => W.not_free hlo hc ((hL.comp_iff hS hkp hmem).mpr hki) rfl)
      have hj' : (j + 1) % c.edge.length < c.edge.length := Nat.mod_lt _ (by omega)
      refine ⟨_, List.getElem?_eq_getElem hj', ?_⟩
      obtain ⟨-, k6'⟩ := k4 _ _ (List.getElem?_eq_getElem hj')
      have e1' : k.edge[(j + 1) % c.edge.length]? = some e' := by rw [k3]; exact e1
      rw [e1'] at k6'
      rw [hkj] at k5
      rw [Nat.sub_zero] at k5 k6'
      have l1 := (List.getElem?_eq_some_iff.mp k5).1
      have l2 := (List.getElem?_eq_some_iff.mp k6').1
      have hk5 : F.getD f 0 = k.edge[j] := by
        have := getD_spec (F := F) l1
        rw [k5] at this
        exact (Option.some.inj this).symm
      have hk6 : F.getD (c.edge[(j + 1) % c.edge.length]'hj') 0 = e' := by
        have := getD_spec (F := F) l2
        rw [k6'] at this
        exact (Option.some.inj this).symm
      refine C.follows (by rw [hel]; exact l1) (by rw [hel]; exact l2) ?_
      rw [hk5, hk6]
      exact e2
  have hbound : 2 * comps1.length ≤ cross1.length + 2 := by
    obtain ⟨g1, g2, g3, g4⟩ := goodComps_of_retag hK
    refine CompBound.comps_le hP.consistent hP.oriented hP.nonempty hP.connected hP.plane ⟨List.Perm.of_eq g1, ?_⟩ g3
    intro c hc a b ha hab
    obtain ⟨j, hj⟩ := List.mem_iff_getElem?.mp ha
    obtain ⟨e', e1, e2⟩ := g4 c hc j a hj
    obtain ⟨r1, x1, x2⟩ := e2
    obtain ⟨r2, y1, y2⟩ := hab
    rw [x1] at y1
    cases y1
    rw [x2] at y2
    cases y2
    exact List.mem_of_getElem? e1
  have htags : comps1.map (·.tag) = comps.map (·.tag) :=
    forall₂_map (R := fun k k' : Comp => k'.tag = k.tag ∧ k'.edge.length = k.edge.length ∧
        ∀ (j f : Nat), k'.edge[j]? = some f → 0 ≤ f ∧ (comps.flatMap (·.edge))[f - 0]? = k.edge[j]?) (fun a b h => h.1) t6
  refine ⟨cross1, edge1, comps1, X, G, _, _, ?_, C, hP, hK, by rw [hel, hcount], ?_, ?_, hbound, ?_⟩
  · unfold rawChild
    rw [pick_ok code i pd.comp hS.nonempty (fun k hk a ha => by rw [hL.len]; exact edge_lt hS hk ha), ok_bind]
    have hcl : (compsAt pd code i).length ≤ (Io.capsNew cs.length).comps := by
      have h1 : comps1.length = (compsAt pd code i).length := by
        rw [← t6.length_eq, hcp.length_eq]
      rw [← h1, cc]
      omega
    change (if (compsAt pd code i).length ≤ (Io.capsNew cs.length).comps then _ else _) = _
    rw [if_pos hcl, assertC_ok (by simpa using hcap), ok_bind]
    change (takeComps caps.edges (Io.capsNew cs.length).edges pd.edge comps 0 (List.replicate caps.edges 0) >>= _) = _
    rw [t1, ok_bind]
    simp only
    change (takeCross (Io.capsNew cs.length).verts pd.cross new (everyFourth (qs.sort (fun a b => decide (idxCmp a b ≤ 0))
      ((F.map (fun e => pd.edge[e]!)).flatMap (fun r => [r.head, r.tail])))) 0 (List.replicate pd.cross.length 0) >>= _) = _
    rw [hcs, s1, ok_bind]
    simp only
    change (renameEnds num (F.map (fun e => pd.edge[e]!)) >>= _) = _
    rw [hren, ok_bind]
  · rw [s2, List.countP_eq_length_filter]
    apply List.Perm.length_eq
    rw [List.perm_ext_iff_of_nodup hcsn (List.nodup_range.filter _)]
    intro c
    rw [hcsm, List.mem_filter, List.mem_range, decide_eq_true_eq]
    constructor
    · rintro ⟨k, a, h1, h2⟩
      have hcl := (slot_lt h1).1
      refine ⟨hcl, ?_⟩
      have h0 := slot_of_lt hcl (k := 0) (by decide)
      rw [h0, Option.bind_some]
      exact W.closed _ _ (.single ⟨c, k, 0, h1, h0⟩) h2
    · rintro ⟨hcl, h⟩
      have h0 := slot_of_lt hcl (k := 0) (by decide)
      rw [h0, Option.bind_some] at h
      exact ⟨0, _, h0, h⟩
  · rw [htags]
    exact hcp.map _
  · intro c' hc'
    obtain ⟨k, k1, k2, k3, k4⟩ := forall₂_right t6 c' hc'
    refine ⟨k, hcp.mem_iff.mp k1, k2.symm, fun f hf => ?_⟩
    rw [hel] at hf
    have hff := getD_spec hf
    constructor
    · intro hfc
      obtain ⟨j, hj⟩ := List.mem_iff_getElem?.mp hfc
      obtain ⟨-, k5⟩ := k4 j f hj
      rw [Nat.sub_zero] at k5
      change F[f]? = _ at k5
      rw [hff] at k5
      exact List.mem_of_getElem? k5.symm
    · intro hfk
      obtain ⟨j, hj⟩ := List.mem_iff_getElem?.mp hfk
      have hjl : j < c'.edge.length := by
        have := (List.getElem?_eq_some_iff.mp hj).1
        omega
      obtain ⟨-, k5⟩ := k4 j _ (List.getElem?_eq_getElem hjl)
      rw [Nat.sub_zero, hj] at k5
      change F[c'.edge[j]]? = _ at k5
      have hll := (List.getElem?_eq_some_iff.mp k5).1
      have : c'.edge[j] = f := (List.getElem?_inj hll hF).mp (k5.trans hff.symm)
      rw [← this]
      exact List.getElem_mem hjl

end Plc.Split
