import Verif.Proofs.IsoCheck
import Verif.Proofs.HashInv
import Verif.Props.Ok

/-! # The whole search -/

namespace Plc.IsoSearch

open Plc.Cmp Plc.PermM Plc.Emap Plc.Isos Plc.Ok List

/-! ### Orders -/

theorem orderR_pull {α β : Type} {P : α → Prop} {same : α → α → Prop} {cmp : α → α → Res Int}
    (h : ConsistentOrderR P same cmp) (f : β → α) {Q : β → Prop} {cmp' : β → β → Res Int} (hQ : ∀ b, Q b → P (f b))
    (he : ∀ a b, Q a → Q b → cmp' a b = cmp (f a) (f b)) :
    ConsistentOrderR Q (fun a b => same (f a) (f b)) cmp' := by
  obtain ⟨c, h1, h2⟩ := h
  refine ⟨fun a b => c (f a) (f b), ?_, ?_, ?_, ?_⟩
  · intro a b ha hb
    rw [he a b ha hb, h1 _ _ (hQ a ha) (hQ b hb)]
  · exact fun a b ha hb => h2.zero _ _ (hQ a ha) (hQ b hb)
  · exact fun a b ha hb => h2.swap _ _ (hQ a ha) (hQ b hb)
  · exact fun a b d ha hb hd => h2.trans _ _ _ (hQ a ha) (hQ b hb) (hQ d hd)

theorem orderR_lex {α : Type} {P : α → Prop} {same1 same2 : α → α → Prop} {cmp1 cmp2 : α → α → Res Int}
    (h1 : ConsistentOrderR P same1 cmp1) (h2 : ConsistentOrderR P same2 cmp2) :
    ConsistentOrderR P (fun a b => same1 a b ∧ same2 a b)
      (fun a b => do let c ← cmp1 a b; if c ≠ 0 then .ok c else cmp2 a b) := by
  obtain ⟨c1, a1, b1⟩ := h1
  obtain ⟨c2, a2, b2⟩ := h2
  refine ⟨fun a b => if c1 a b ≠ 0 then c1 a b else c2 a b, ?_, ?_, ?_, ?_⟩
  · intro a b ha hb
    beta_reduce
    rw [a1 a b ha hb, ok_bind, a2 a b ha hb]
    split <;> rfl
  · intro a b ha hb
    have z1 := b1.zero a b ha hb
    have z2 := b2.zero a b ha hb
    split_ifs with h
    · constructor
      · intro h'; exact absurd h' h
      · intro h'; exact absurd (z1.mpr h'.1) h
    · rw [z2]
      exact ⟨fun h' => ⟨z1.mp (not_not.mp h), h'⟩, fun h' => h'.2⟩
  · intro a b ha hb
    have s1 := b1.swap a b ha hb
    have s1' := b1.swap b a hb ha
    have s2 := b2.swap a b ha hb
    split_ifs <;> omega
  · intro a b d ha hb hd
    have s1 := b1.swap a b ha hb
    have s1' := b1.swap b a hb ha
    have s2 := b1.swap b d hb hd
    have s2' := b1.swap d b hd hb
    have s3 := b1.swap a d ha hd
    have s3' := b1.swap d a hd ha
    have t := b1.trans a b d ha hb hd
    have t1 := b1.trans d a b hd ha hb
    have t2 := b1.trans b d a hb hd ha
    have u := b2.trans a b d ha hb hd
    split_ifs <;> omega

/-- The numbers in an isomorphism. -/
def isoData (i : Iso) : List Nat × (List Nat × List Or) × (Or × List Nat) × (Or × List Nat) :=
  (i.comp.map, (i.emap.perm.map, i.emap.orient),
    (match i.cmap with | some m => (m.orient, m.perm.map) | none => (.unset, [])), (i.fmap.orient, i.fmap.perm.map))

/-- Isomorphisms between diagrams of these sizes. -/
structure IsoShape (nk ne nc nf : Nat) (i : Iso) : Prop where
  comp : i.comp.map.length = nk ∧ Small i.comp.map
  emap : i.emap.perm.map.length = ne ∧ i.emap.orient.length = ne ∧ Small i.emap.perm.map ∧ ∀ o ∈ i.emap.orient, orOk o = true
  cmap : ∃ cm, i.cmap = some cm ∧ orOk cm.orient = true ∧ cm.perm.map.length = nc ∧ Small cm.perm.map
  fmap : orOk i.fmap.orient = true ∧ i.fmap.perm.map.length = nf ∧ Small i.fmap.perm.map

theorem isoCmp_order (nk ne nc nf : Nat) :
    ConsistentOrderR (IsoShape nk ne nc nf) (fun a b => isoData a = isoData b) isoCmp := by
  have h1 := orderR_pull (C16_perm_cmp nk) (fun i : Iso => (isoData i).1) (Q := IsoShape nk ne nc nf)
    (cmp' := fun a b => permCmp a.comp.map b.comp.map) (fun i hi => hi.comp) (fun a b _ _ => rfl)
  have h2 := orderR_pull (C16_edgemap_cmp ne) (fun i : Iso => (isoData i).2.1) (Q := IsoShape nk ne nc nf)
    (cmp' := fun a b => emapCmp a.emap b.emap) (fun i hi => hi.emap) (fun a b _ _ => rfl)
  have h3 := orderR_pull (C16_crossmap_cmp nc) (fun i : Iso => (isoData i).2.2.1) (Q := IsoShape nk ne nc nf)
    (cmp' := fun a b => cmapCmp a.cmap b.cmap)
    (fun i hi => by
      obtain ⟨cm, c1, c2⟩ := hi.cmap
      simpa [isoData, c1] using c2)
    (fun a b ha hb => by
      obtain ⟨cm, c1, c2⟩ := ha.cmap
      obtain ⟨dm, d1, d2⟩ := hb.cmap
      simp [isoData, c1, d1, cmapCmp, omapCmp])
  have h4 := orderR_pull (C16_crossmap_cmp nf) (fun i : Iso => (isoData i).2.2.2) (Q := IsoShape nk ne nc nf)
    (cmp' := fun a b => omapCmp a.fmap b.fmap) (fun i hi => hi.fmap) (fun a b _ _ => rfl)
  obtain ⟨c, a, b⟩ := orderR_lex h1 (orderR_lex h2 (orderR_lex h3 h4))
  refine ⟨c, a, ?_, b.swap, b.trans⟩
  intro x y hx hy
  rw [b.zero x y hx hy]
  exact ⟨fun h => Prod.ext h.1 (Prod.ext h.2.1 (Prod.ext h.2.2.1 h.2.2.2)), fun h => by rw [h]; exact ⟨rfl, rfl, rfl, rfl⟩⟩

/-! ### Component permutations -/

theorem small_of_perm {m : List Nat} {n : Nat} (h : m ~ List.range n) (hn : n < 2 ^ 31) : Small m := by
  intro x hx
  have := List.mem_range.mp (h.mem_iff.mp hx)
  omega

theorem compperms_ok (qs : QSort) (bs : BSearch) {A B : List Comp} (hA0 : A ≠ [])
    (hs : compSizes A = compSizes B) (hlong : A.Pairwise (fun a b => b.edge.length ≤ a.edge.length)) (h12 : A.length ≤ 12) :
    ∃ G ps ps', compgrps A B = .ok (some G) ∧ buildCompperms bs G = .ok ps ∧ comppermsOk qs ps = .ok (ps', true) ∧
      (ps'.map (·.map)).Nodup ∧ (∀ p ∈ ps', permOk p = .ok true ∧ p.map ~ List.range A.length) ∧
      ∀ q, q ∈ ps'.map (·.map) ↔ q ~ List.range A.length ∧
        ∀ (c : Nat) k, A[c]? = some k → ∃ t b, q[c]? = some t ∧ B[t]? = some b ∧ b.edge.length = k.edge.length := by
  obtain ⟨k0, A', rfl⟩ := List.exists_cons_of_ne_nil hA0
  have hlen : (k0 :: A').length = B.length := by
    have := congrArg List.length hs
    simpa [compSizes] using this
  obtain ⟨S, hS⟩ : ∃ S : Nat → Nat, ∀ c, S c = (compSizes (k0 :: A')).getD c 0 := ⟨_, fun _ => rfl⟩
  have hSk : ∀ (c : Nat) k, (k0 :: A')[c]? = some k → S c = k.edge.length := by
    intro c k hk
    rw [hS, List.getD, compSizes, List.getElem?_map, hk]
    rfl
  have hSb : ∀ (c : Nat) b, B[c]? = some b → S c = b.edge.length := by
    intro c b hb
    rw [hS, hs, List.getD, compSizes, List.getElem?_map, hb]
    rfl
  rw [List.pairwise_cons] at hlong
  obtain ⟨r1, r2, r3⟩ := runs_spec S (compSizes A') k0.edge.length [0] 1 (by simp)
    (by
      intro c hc
      rw [List.mem_singleton.mp hc]
      exact hSk 0 k0 (by simp))
    (by
      intro c s hs
      rw [compSizes, List.getElem?_map, Option.map_eq_some_iff] at hs
      obtain ⟨k, hk, rfl⟩ := hs
      exact hSk (1 + c) k (by rw [Nat.add_comm]; simpa using hk))
    (by
      intro s hs
      obtain ⟨k, hk, rfl⟩ := List.mem_map.mp hs
      exact hlong.1 k hk)
    (by
      unfold compSizes
      exact List.pairwise_map.mpr hlong.2)
  have hG : compgrps (k0 :: A') B = .ok (some (runs k0.edge.length [0] 1 (compSizes A'))) := by
    unfold compgrps
    rw [if_neg (by simp [hlen]), if_neg (by simp [hs]), rd_ok (by rfl), ok_bind]
    rfl
  have hflat : (runs k0.edge.length [0] 1 (compSizes A')).flatten = List.range (k0 :: A').length := by
    rw [r1, List.range_eq_range', List.length_cons, List.range'_succ]
    simp [compSizes]
  obtain ⟨ps, p1, p2, p3, p4⟩ := buildCompperms_ok bs hflat r2 (by simp) h12
  have hperm : ∀ p ∈ ps, p.map.length = (k0 :: A').length ∧ Small p.map := by
    intro p hp
    have := (p3 p hp).2
    exact ⟨by simpa using this.length_eq, small_of_perm this (by omega)⟩
  have hne : ps ≠ [] := by
    intro h
    have := (p4 (List.range (k0 :: A').length)).mpr ⟨List.Perm.refl _, by
      intro g hg x hx
      have : x ∈ List.range (k0 :: A').length := by
        rw [← hflat]
        exact List.mem_flatten.mpr ⟨g, hg, hx⟩
      exact ⟨x, hx, List.getElem?_range (List.mem_range.mp this)⟩⟩
    rw [h] at this
    simp at this
  obtain ⟨s, s1, s2, s3⟩ := sorted_unique qs
    (orderR_pull (C16_perm_cmp (k0 :: A').length) (fun p : Perm => p.map) (Q := fun p => p.map.length = (k0 :: A').length ∧ Small p.map)
      (cmp' := fun a b => permCmp a.map b.map) (fun _ h => h) (fun _ _ _ _ => rfl))
    (l := ps) hperm hne (List.pairwise_map.mp p2) (fun _ _ h => h.symm)
    (eq := fun a b : Perm => .ok (decide (a.map = b.map))) (fun a b _ _ => ⟨_, rfl, by simp⟩)
  refine ⟨_, ps, s, hG, p1, ?_, ?_, ?_, ?_⟩
  · unfold comppermsOk permsUnique
    rw [allOk_true (fun p hp => (p3 p hp).1), ok_bind, if_pos rfl, s1, ok_bind, s3, ok_bind]
  · exact (s2.map _).nodup_iff.mpr p2
  · exact fun p hp => p3 p (s2.mem_iff.mp hp)
  · intro q
    rw [(s2.map _).mem_iff, p4]
    refine and_congr_right ?_
    intro hq
    have hql : q.length = (k0 :: A').length := by simpa using hq.length_eq
    constructor
    · intro h c k hk
      have hc := (List.getElem?_eq_some_iff.mp hk).1
      have : c ∈ (runs k0.edge.length [0] 1 (compSizes A')).flatten := by rw [hflat]; exact List.mem_range.mpr hc
      obtain ⟨g, hg, hcg⟩ := List.mem_flatten.mp this
      obtain ⟨t, t1, t2⟩ := h g hg c hcg
      have htf : t ∈ (runs k0.edge.length [0] 1 (compSizes A')).flatten := List.mem_flatten.mpr ⟨g, hg, t1⟩
      have htl : t < B.length := by
        rw [hflat] at htf
        rw [← hlen]
        exact List.mem_range.mp htf
      refine ⟨t, B[t], t2, List.getElem?_eq_getElem htl, ?_⟩
      rw [← hSb t _ (List.getElem?_eq_getElem htl), ← hSk c k hk]
      exact (r3 g hg c hcg t htf).mp t1
    · intro h g hg x hx
      have hxf : x ∈ (runs k0.edge.length [0] 1 (compSizes A')).flatten := List.mem_flatten.mpr ⟨g, hg, hx⟩
      have hxl : x < (k0 :: A').length := by rw [hflat] at hxf; exact List.mem_range.mp hxf
      obtain ⟨t, b, t1, t2, t3⟩ := h x _ (List.getElem?_eq_getElem hxl)
      refine ⟨t, ?_, t1⟩
      have htf : t ∈ (runs k0.edge.length [0] 1 (compSizes A')).flatten := by
        rw [hflat, List.mem_range, hlen]
        exact (List.getElem?_eq_some_iff.mp t2).1
      rw [r3 g hg x hx t htf, hSb t b t2, t3, hSk x _ (List.getElem?_eq_getElem hxl)]

/-! ### Edge maps -/

theorem edgemapsOk_true (qs : QSort) {ems : List EMap} {n : Nat} (hn : n < 2 ^ 31) (hne : ems ≠ [])
    (hd : (ems.map (fun e => (e.perm.map, e.orient))).Nodup)
    (h : ∀ e ∈ ems, emapOk e = .ok true ∧ e.perm.map ~ List.range n ∧ e.orient.length = n) :
    edgemapsOk qs ems = .ok true := by
  have hc := orderR_pull (C16_edgemap_cmp n) (fun e : EMap => (e.perm.map, e.orient))
    (Q := fun e => e.perm.map.length = n ∧ e.orient.length = n ∧ Small e.perm.map ∧ ∀ o ∈ e.orient, orOk o = true)
    (cmp' := emapCmp) (fun _ h => h) (fun _ _ _ _ => rfl)
  obtain ⟨s, s1, s2, s3⟩ := sorted_unique qs hc (l := ems)
    (by
      intro e he
      obtain ⟨h1, h2, h3⟩ := h e he
      refine ⟨by simpa using h2.length_eq, h3, small_of_perm h2 hn, ?_⟩
      intro o ho
      have := (emapOk_parts h1).2 o ho
      cases o <;> first | rfl | exact absurd rfl this)
    hne (List.pairwise_map.mp hd) (fun _ _ h => h.symm) (sameBy_ok hc)
  unfold edgemapsOk
  rw [allOk_true (fun e he => (h e he).1), ok_bind, if_pos rfl, s1, ok_bind, s3]

/-! ### Crossing and face maps -/

theorem ap_of_perm {m : List Nat} {n : Nat} (h : m ~ List.range n) : (∀ c, c < n → m[c]! < n) ∧
    (∀ c d, c < n → d < n → m[c]! = m[d]! → c = d) := by
  have hl : m.length = n := by simpa using h.length_eq
  constructor
  · intro c hc
    rw [getElem!_pos m c (by omega)]
    exact List.mem_range.mp (h.mem_iff.mp (List.getElem_mem _))
  · intro c d hc hd he
    rw [getElem!_pos m c (by omega), getElem!_pos m d (by omega)] at he
    exact (List.Nodup.getElem_inj_iff (h.nodup_iff.mpr List.nodup_range)).mp he

section

variable {A B : Io.Pd} {m : List Nat}

theorem shadow_of_maps {σ : List Nat} {o : Or} (hlen : B.cross.length = A.cross.length)
    (hm : m ~ List.range A.edge.length) (hσ : σ ~ List.range A.cross.length)
    (h : ∀ (c : Nat) x, A.cross[c]? = some x → ∃ i z, σ[c]? = some i ∧ B.cross[i]? = some z ∧
      CarriedTo (fun e => m[e]!) o x z) :
    SameShadow A.cross B.cross A.edge.length (fun e => m[e]!) (fun c => σ[c]!) o where
  len := hlen
  tlt := (ap_of_perm hm).1
  tinj := (ap_of_perm hm).2
  slt := (ap_of_perm hσ).1
  sinj := (ap_of_perm hσ).2
  carried := by
    intro c x hx
    obtain ⟨i, z, h1, h2, h3⟩ := h c x hx
    exact ⟨z, by rw [getElem!_def, h1]; exact h2, h3⟩

theorem faces_of_maps {φ : List Nat} {o : Or} (hlen : B.face.length = A.face.length)
    (hm : m ~ List.range A.edge.length) (hφ : φ ~ List.range A.face.length)
    (h : ∀ (c : Nat) x, A.face[c]? = some x → ∃ i z, φ[c]? = some i ∧ B.face[i]? = some z ∧
      ListCarried (fun e => m[e]!) o x.edge z.edge) :
    SameFaces A.face B.face A.edge.length (fun e => m[e]!) (fun c => φ[c]!) o where
  len := hlen
  tlt := (ap_of_perm hm).1
  tinj := (ap_of_perm hm).2
  plt := (ap_of_perm hφ).1
  pinj := (ap_of_perm hφ).2
  carried := by
    intro c x hx
    obtain ⟨i, z, h1, h2, h3⟩ := h c x hx
    exact ⟨z, by rw [getElem!_def, h1]; exact h2, h3⟩

/-- For each orientation the two searches find a map, or neither does. -/
theorem pair_ok (bs : BSearch) (hA : Tidy A.cross A.edge A.comp A.face) (hB : Tidy B.cross B.edge B.comp B.face)
    (hlen : B.cross.length = A.cross.length) (hm : m ~ List.range A.edge.length) {o : Or} (ho : o ≠ .unset) :
    ∃ r : Option (OMap × OMap), orientedCrossmap bs false A.cross B.cross m o = .ok (r.map Prod.fst) ∧
      orientedFacemap bs A.face B.face m o = .ok (r.map Prod.snd) ∧
      (r ≠ none ↔ ∃ σ, SameShadow A.cross B.cross A.edge.length (fun e => m[e]!) σ o) ∧
      ∀ p, r = some p → p.1.orient = o ∧ p.2.orient = o ∧ permOk p.1.perm = .ok true ∧ permOk p.2.perm = .ok true ∧
        p.1.perm.map ~ List.range A.cross.length ∧ p.2.perm.map ~ List.range A.face.length ∧
        (∀ (c : Nat) x, A.cross[c]? = some x → ∃ i z, p.1.perm.map[c]? = some i ∧ B.cross[i]? = some z ∧
          CarriedTo (fun e => m[e]!) o x z) ∧
        (∀ (c : Nat) x, A.face[c]? = some x → ∃ i z, p.2.perm.map[c]? = some i ∧ B.face[i]? = some z ∧
          ListCarried (fun e => m[e]!) o x.edge z.edge) := by
  have hCA := hA.plane.consistent
  have hCB := hB.plane.consistent
  have hel : A.edge.length = B.edge.length := by rw [hCA.count, hCB.count, hlen]
  have hfl : B.face.length = A.face.length := by rw [hA.goodFaces.count, hB.goodFaces.count, hlen]
  have hml : m.length = A.edge.length := by simpa using hm.length_eq
  have hm' : m ~ List.range m.length := by rw [hml]; exact hm
  have hs := hA.small
  obtain ⟨r, r1, r2, r3⟩ := C32_oriented_crossmap bs false A.cross B.cross m o hA.canonical hB.canonical hlen.symm
    hA.plane.nonempty (fun x hx k => by rw [hml]; exact cross_at_lt hCA hx k)
    (fun x hx k => by rw [hml, hel]; exact cross_at_lt hCB hx k) hm' (by omega)
  have hF : FaceTable A.face m.length := by rw [hml]; exact faceTable_of_tidy hA
  have hG : FaceTable B.face m.length := by rw [hml, hel]; exact faceTable_of_tidy hB
  have hF0 : A.face ≠ [] := by
    intro h
    have := hA.goodFaces.count
    rw [h] at this
    simp at this
  obtain ⟨q, q1, q2, q3⟩ := orientedFacemap_ok bs hF hG hm' hfl.symm hF0 ho
  have c1 : r ≠ none ↔ ∃ σ, SameShadow A.cross B.cross A.edge.length (fun e => m[e]!) σ o := by
    constructor
    · intro h
      obtain ⟨cm, rfl⟩ := Option.ne_none_iff_exists'.mp h
      obtain ⟨_, _, a3, a4⟩ := r3 cm rfl
      exact ⟨_, shadow_of_maps hlen hm a3 (fun c x hx => by
        obtain ⟨i, z, b1, b2, b3, _⟩ := a4 c x hx
        exact ⟨i, z, b1, b2, b3⟩)⟩
    · rintro ⟨σ, h⟩
      rw [r2]
      intro x hx
      obtain ⟨c, hc⟩ := List.mem_iff_getElem?.mp hx
      obtain ⟨z, z1, z2⟩ := h.carried c x hc
      exact ⟨z, List.mem_of_getElem? z1, z2, by simp⟩
  have c2 : q ≠ none ↔ ∃ σ, SameShadow A.cross B.cross A.edge.length (fun e => m[e]!) σ o := by
    constructor
    · intro h
      obtain ⟨fm, rfl⟩ := Option.ne_none_iff_exists'.mp h
      obtain ⟨_, _, a3, a4⟩ := q3 fm rfl
      have hf := faces_of_maps hfl hm a3 a4
      obtain ⟨π, hπ⟩ := Shape.place_of_faces hCA hCB hA.goodFaces hB.goodFaces hf
      exact Shape.shadow_of_place hlen (ap_of_perm hm).1 (ap_of_perm hm).2 hπ
    · rintro ⟨σ, h⟩
      obtain ⟨π, hπ⟩ := Shape.place_of_shadow h
      obtain ⟨φ, hφ⟩ := Shape.faces_of_place hCA hCB hA.goodFaces hB.goodFaces hlen (ap_of_perm hm).1 (ap_of_perm hm).2 hπ
      rw [q2]
      intro x hx
      obtain ⟨c, hc⟩ := List.mem_iff_getElem?.mp hx
      obtain ⟨z, z1, z2⟩ := hφ.carried c x hc
      exact ⟨z, List.mem_of_getElem? z1, z2⟩
  cases r with
  | none =>
    have hq : q = none := by
      by_contra h
      exact (c1.mpr (c2.mp h)) rfl
    subst hq
    exact ⟨none, r1, q1, by rw [← c1]; simp, by simp⟩
  | some cm =>
    have hq : q ≠ none := c2.mpr (c1.mp (by simp))
    obtain ⟨fm, rfl⟩ := Option.ne_none_iff_exists'.mp hq
    refine ⟨some (cm, fm), r1, q1, ?_, ?_⟩
    · rw [← c1]
      simp
    · intro p hp
      cases hp
      obtain ⟨a1, a2, a3, a4⟩ := r3 cm rfl
      obtain ⟨b1, b2, b3, b4⟩ := q3 fm rfl
      exact ⟨a1, b1, a2, b2, a3, b3, fun c x hx => by
        obtain ⟨i, z, e1, e2, e3, _⟩ := a4 c x hx
        exact ⟨i, z, e1, e2, e3⟩, b4⟩

end

/-! ### Collecting -/

/-- What is kept when the search stops at the first find. -/
def cut {α : Type} (stop : Bool) (l : List α) : List α := if stop then l.take 1 else l

theorem collect_full {α : Type} {body : α → List Iso → Res (List Iso)} : ∀ (l : List α) {acc : List Iso}, acc ≠ [] →
    collect true body l acc = .ok acc
  | [], _, _ => rfl
  | a :: l, acc, h => by
    rw [collect, if_pos (by simpa using h)]

theorem collect_ok {α : Type} {stop : Bool} {body : α → List Iso → Res (List Iso)} {g : α → List Iso} :
    ∀ (l : List α) (acc : List Iso), (stop = true → acc = []) →
    (∀ a ∈ l, ∀ acc, (stop = true → acc = []) → body a acc = .ok (acc ++ cut stop (g a))) →
    collect stop body l acc = .ok (acc ++ cut stop (l.flatMap g))
  | [], acc, _, _ => by simp [collect, cut]
  | a :: l, acc, h, hb => by
    rw [collect]
    cases stop with
    | false =>
      rw [if_neg (by simp), hb a (by simp) acc (by simp), ok_bind,
        collect_ok l _ (by simp) (fun x hx => hb x (by simp [hx]))]
      simp [cut]
    | true =>
      have hacc := h rfl
      subst hacc
      rw [if_neg (by simp), hb a (by simp) [] (by simp), ok_bind]
      cases hg : g a with
      | nil =>
        have := collect_ok l [] (fun _ => rfl) (fun x hx => hb x (by simp [hx]))
        simpa [cut, hg] using this
      | cons i r =>
        rw [collect_full l (by simp [cut])]
        simp [cut, hg]

end Plc.IsoSearch
