import Verif.Model.Edgemap
import Verif.Proofs.Renamed
import Verif.Proofs.Linking
import Verif.Props.Planar
import Verif.Props.Perm
import Verif.Props.Core

namespace Plc.Emap

open Plc.Core Plc.Cmp Plc.PermM Plc.Faces Plc.Strands List

theorem regenPc_permOk (bs : BSearch) {m : List Nat} (hm : m ~ List.range m.length) (hm1 : 1 ≤ m.length) :
    ∃ C, regenPc bs m = .ok C ∧ C.map = m ∧ permOk C = .ok true := by
  obtain ⟨C, c1, c2, c3, c4⟩ := regenPc_spec bs hm hm1
  refine ⟨C, c1, c2, ?_⟩
  have hCn : C.n = m.length := by unfold Perm.n; rw [c2]
  obtain ⟨b, b1, b2⟩ := C07_perm_ok_exact C (by omega)
    (fun h => by rw [hCn] at h ⊢; have := (c3 h).1; omega)
  rw [b1]
  congr 1
  rw [b2]
  refine ⟨by rw [hCn, c2]; exact hm, fun h => ?_⟩
  rw [hCn] at h ⊢
  have h4 := (nth_enum hm1).1 _ (c3 h).1
  rw [(c3 h).2] at h4
  rw [c2]
  have hnd : ((List.range m.length).permutations.filter (fun q => decide (q < m))).Nodup :=
    ((List.nodup_permutations_iff).mpr List.nodup_range).filter _
  rw [← List.toFinset_card_of_nodup hnd, List.toFinset_filter]
  simpa [allPerms] using h4.2

/-- An edge record, turned around for the negative orientation. -/
def turnE (o : Or) (r : Edge) : Edge := if o = .neg then ⟨r.tail, r.tailpos, r.head, r.headpos⟩ else r

theorem reorientEdge_ok {edge : List Edge} {e : Nat} {o : Or} (he : e < edge.length) (ho : o = .pos ∨ o = .neg) :
    reorientEdge edge e o = .ok (edge.set e (turnE o edge[e])) := by
  unfold reorientEdge
  rw [assertC_ok (by simpa using he), ok_bind, assertC_ok (by simpa using ho), ok_bind]
  unfold turnE
  rcases ho with rfl | rfl
  · simp
  · rw [if_pos rfl, if_pos rfl, rd_lt he, ok_bind, wr_lt he]

theorem copyEdges_ok : ∀ (xs : List Nat) (os : List Or) (edge : List Edge), xs.Nodup →
    (∀ x ∈ xs, x < edge.length) → (∀ o ∈ os, o = .pos ∨ o = .neg) →
    copyEdges xs os edge = .ok (List.zipWith (fun x o => turnE o edge[x]!) xs os)
  | [], _, _, _, _, _ => by simp [copyEdges]
  | _ :: _, [], _, _, _, _ => by simp [copyEdges]
  | x :: xs, o :: os, edge, hn, hb, ho => by
    have hx := hb x (by simp)
    rw [List.nodup_cons] at hn
    unfold copyEdges
    rw [reorientEdge_ok hx (ho o (by simp)), ok_bind, rd_lt (by simpa using hx), ok_bind,
      copyEdges_ok xs os _ hn.2 (fun y hy => by simpa using hb y (by simp [hy])) (fun q hq => ho q (by simp [hq])),
      ok_bind]
    congr 1
    rw [List.zipWith_cons_cons]
    congr 1
    · rw [getElem!_pos edge x hx]; simp
    · clear ho hb
      induction xs generalizing os with
      | nil => simp
      | cons y ys ih =>
        cases os with
        | nil => simp
        | cons q qs =>
          have hyx : x ≠ y := fun h => hn.1 (by simp [h])
          rw [List.zipWith_cons_cons, List.zipWith_cons_cons]
          congr 1
          · congr 1
            simp [List.getElem!_eq_getElem?_getD, hyx]
          · exact ih qs ⟨fun h => hn.1 (by simp [h]), (List.nodup_cons.mp hn.2).2⟩

/-- A crossing with renamed edges. -/
def mapC (τ : Nat → Nat) (c : Cross) : Cross := ⟨τ c.e0, τ c.e1, τ c.e2, τ c.e3, c.sign⟩

theorem mapC_at (τ : Nat → Nat) (c : Cross) (k : Nat) : (mapC τ c).at k = τ (c.at k) := by
  rw [at_lt, at_lt c]
  have : k % 4 < 4 := Nat.mod_lt _ (by decide)
  generalize k % 4 = j at *
  match j, this with
  | 0, _ => rfl
  | 1, _ => rfl
  | 2, _ => rfl
  | 3, _ => rfl

theorem renameCross_ok (inv : List Nat) : ∀ (cross : List Cross),
    (∀ c ∈ cross, ∀ k, c.at k < inv.length) → renameCross inv cross = .ok (cross.map (mapC (ap inv)))
  | [], _ => rfl
  | c :: l, h => by
    have h0 := h c (by simp) 0
    have h1 := h c (by simp) 1
    have h2 := h c (by simp) 2
    have h3 := h c (by simp) 3
    simp only [Cross.at, Nat.reduceMod] at h0 h1 h2 h3
    unfold renameCross
    rw [rd_lt h0, ok_bind, rd_lt h1, ok_bind, rd_lt h2, ok_bind, rd_lt h3, ok_bind,
      renameCross_ok inv l (fun c hc => h c (by simp [hc])), ok_bind, List.map_cons]
    congr 2
    unfold mapC
    rw [ap_lt h0, ap_lt h1, ap_lt h2, ap_lt h3]

theorem permute_mem {α : Type} {l : List α} : ∀ {p : List Nat} {m : List α}, permute l p = .ok m → ∀ x ∈ m, x ∈ l
  | [], m, h => by simp [permute] at h; subst h; simp
  | i :: p, m, h => by
    unfold permute at h
    obtain ⟨x, h1, h⟩ := bind_ok_iff.mp h
    obtain ⟨r, h2, h⟩ := bind_ok_iff.mp h
    cases h
    intro y hy
    rcases List.mem_cons.mp hy with rfl | hy
    · exact List.mem_of_getElem? (rd_eq_ok.mp h1)
    · exact permute_mem h2 y hy

theorem regen_mem {qs : QSort} {cross cross' : List Cross} {edge edge' : List Edge}
    (h : regenCrossings qs cross edge = .ok (cross', edge')) :
    ∀ c ∈ cross', ∃ y ∈ cross, c = rotL y (rdist y) := by
  unfold regenCrossings at h
  simp only at h
  obtain ⟨_, _, h⟩ := bind_ok_iff.mp h
  obtain ⟨_, _, h⟩ := bind_ok_iff.mp h
  obtain ⟨_, _, h⟩ := bind_ok_iff.mp h
  obtain ⟨m, h1, h⟩ := bind_ok_iff.mp h
  cases h
  intro c hc
  obtain ⟨y, hy, rfl⟩ := List.mem_map.mp (permute_mem h1 c hc)
  exact ⟨y, hy, rfl⟩

section

variable {cross : List Cross} {edge : List Edge} {comps : List Comp}

theorem restConsistent_ok {m : EMap} {tc : Nat} {o : Or} : ∀ {l : List Nat},
    (∀ e ∈ l, ∃ x q, m.perm.map[e]? = some x ∧ compAndPos edge.length comps x = .ok (tc, q) ∧ m.orient[e]? = some o) →
    restConsistent edge.length comps m tc o l = .ok true
  | [], _ => rfl
  | e :: l, h => by
    obtain ⟨x, q, h1, h2, h3⟩ := h e (by simp)
    unfold restConsistent
    rw [rd_eq_ok.mpr h1, ok_bind, h2, ok_bind]
    simp only [ne_eq, not_true_eq_false, if_false]
    rw [rd_eq_ok.mpr h3, ok_bind]
    simp only [ne_eq, not_true_eq_false, if_false]
    exact restConsistent_ok (fun e he => h e (by simp [he]))

theorem compsConsistent_ok (hK : CompsOf cross edge comps) {m : EMap} (hml : m.perm.map.length = edge.length)
    (hol : m.orient.length = edge.length) : ∀ {l : List Comp}, (∀ K ∈ l, K ∈ comps ∧ K.edge ≠ [] ∧
      (∀ e ∈ K.edge, ap m.perm.map e ∈ K.edge) ∧
      (∀ e ∈ K.edge, ∀ f ∈ K.edge, m.orient[e]? = m.orient[f]?)) →
    compsConsistent edge.length comps m l = .ok true
  | [], _ => rfl
  | K :: l, h => by
    obtain ⟨hm, hne, hp, ho⟩ := h K (by simp)
    have h0 : 0 < K.edge.length := List.length_pos_iff.mpr hne
    have hmem : K.edge[0] ∈ K.edge := List.getElem_mem h0
    have hlt := comp_lt hK hm hmem
    obtain ⟨i, hi, hKi⟩ := List.getElem_of_mem hm
    have hKi : comps[i]? = some K := by rw [List.getElem?_eq_getElem hi, hKi]
    have hfind : ∀ e ∈ K.edge, ∃ q, compAndPos edge.length comps (ap m.perm.map e) = .ok (i, q) := by
      intro e he
      obtain ⟨j, q, c, h1, h2, h3⟩ := compAndPos_ok hK (comp_lt hK hm (hp e he))
      have := comp_unique hK h2 hKi h3 (hp e he)
      subst this
      exact ⟨q, h1⟩
    obtain ⟨q, hq⟩ := hfind _ hmem
    unfold compsConsistent
    rw [rd_lt h0, ok_bind, rd_lt (by omega), ok_bind]
    rw [ap_lt (by omega)] at hq
    rw [hq, ok_bind]
    simp only
    rw [rd_lt (by omega), ok_bind, restConsistent_ok, ok_bind, if_pos rfl]
    · exact compsConsistent_ok hK hml hol (fun K hK => h K (by simp [hK]))
    · intro e he
      have he := List.mem_of_mem_drop he
      have hel := comp_lt hK hm he
      obtain ⟨q, hq⟩ := hfind e he
      refine ⟨_, q, List.getElem?_eq_getElem (by omega), by rwa [ap_lt (by omega)] at hq, ?_⟩
      rw [ho e he _ hmem, List.getElem?_eq_getElem]

theorem small_edges {n : Nat} (hn : n ≤ 2 ^ 31) {c : Cross} (h : ∀ k, c.at k < n) : Small (edges c) := by
  intro x hx
  obtain ⟨k, _, rfl⟩ := edges_mem hx
  have := h k
  omega

theorem along_of (hK : CompsOf cross edge comps) {τ : Nat → Nat} {p : List Nat}
    (hτ : ∀ i, i < edge.length → τ i < edge.length ∧ ap p (τ i) = i)
    (hp : ∀ K ∈ comps, ∀ e ∈ K.edge, ap p e ∈ K.edge) : ∀ K ∈ comps, ∀ e ∈ K.edge, τ e ∈ K.edge := by
  intro K hKm e he
  have hl := comp_lt hK hKm he
  obtain ⟨i, hi, hKi⟩ := List.getElem_of_mem hKm
  obtain ⟨j, q, c, h1, h2, h3⟩ := compAndPos_ok hK (hτ e hl).1
  have := hp c (List.mem_of_getElem? h2) _ h3
  rw [(hτ e hl).2] at this
  have hji := comp_unique hK h2 (by rw [List.getElem?_eq_getElem hi, hKi]) this he
  subst hji
  rw [List.getElem?_eq_getElem hi, hKi] at h2
  cases h2
  exact h3

/-- The diagram after renaming edges only. -/
theorem relabel {m : EMap} {inv : List Nat} (hC : Consistent cross edge) (hml : m.perm.map.length = edge.length)
    (hol : m.orient.length = edge.length) (ho : ∀ o ∈ m.orient, o = .pos ∨ o = .neg)
    (hinv : inv.length = edge.length)
    (h1 : ∀ i, i < edge.length → ap inv (ap m.perm.map i) = i)
    (h2 : ∀ i, i < edge.length → ap m.perm.map (ap inv i) = i)
    (h3 : ∀ i, i < edge.length → ap inv i < edge.length) :
    Renamed cross edge (cross.map (mapC (ap inv)))
      (List.zipWith (fun x o => turnE o edge[x]!) m.perm.map m.orient) (ap inv) id (fun _ => 0)
      (fun e => m.orient[ap inv e]? == some Or.neg) where
  len := by simp
  elen := by simp [hml, hol]
  slt := fun _ h => h
  sinj := fun _ _ _ _ h => h
  tlt := h3
  tinj := fun e f he hf h => by rw [← h2 e he, h, h2 f hf]
  rho := fun _ => by decide
  cross := by
    intro c x hx
    exact ⟨mapC (ap inv) x, by simp [hx], fun k => mapC_at _ _ _⟩
  edge := by
    intro e r hr
    obtain ⟨he, rfl⟩ := List.getElem?_eq_some_iff.mp hr
    have hh := (slot_lt (hC.head e _ hr)).2
    have ht := (slot_lt (hC.tail e _ hr)).2
    have hl := h3 e he
    have ha := h2 e he
    generalize ap inv e = i at *
    rw [ap_lt (by omega)] at ha
    rw [List.getElem?_zipWith, List.getElem?_eq_getElem (by omega), List.getElem?_eq_getElem (by omega)]
    simp only [Option.map_some, Option.some.injEq]
    rw [ha, getElem!_pos edge e he]
    have hh' : edge[e].headpos % 4 = edge[e].headpos := by omega
    have ht' : edge[e].tailpos % 4 = edge[e].tailpos := by omega
    rcases ho m.orient[i] (List.getElem_mem (by omega)) with h | h <;>
      simp [h, turnE, moveEdge, hh', ht']

/-- The sign of crossing `c` after a renaming. -/
def SignsBy (f : Nat → Or → Or) (cross cross' : List Cross) (σ : Nat → Nat) : Prop :=
  ∀ (c : Nat) (x x' : Cross), cross[c]? = some x → cross'[σ c]? = some x' → x'.sign = f c x.sign

/-- Closed under `Follows` is kept by renamings that keep each component. -/
theorem compsOf_renamed {cross' : List Cross} {edge' : List Edge} {τ σ ρ : Nat → Nat} {rev : Nat → Bool}
    (h : Renamed cross edge cross' edge' τ σ ρ rev) (hC : Consistent cross edge) (hO : Oriented cross edge)
    (hA : Renamed.Along cross edge rev) (hK : CompsOf cross edge comps)
    (hτ : ∀ K ∈ comps, ∀ e ∈ K.edge, τ e ∈ K.edge) : CompsOf cross' edge' comps where
  all := by rw [h.elen]; exact hK.all
  closed := by
    have hC' := h.consistent hC
    have hO' := h.oriented hC hO hA
    have member : ∀ e, e < edge.length → ∃ K ∈ comps, e ∈ K.edge := by
      intro e he
      obtain ⟨j, q, c, _, h2, h3⟩ := compAndPos_ok hK he
      exact ⟨c, List.mem_of_getElem? h2, h3⟩
    have uniq : ∀ K ∈ comps, ∀ L ∈ comps, ∀ e, e ∈ K.edge → e ∈ L.edge → K = L := by
      intro K hKm L hLm e h1 h2
      obtain ⟨i, hi, rfl⟩ := List.getElem_of_mem hKm
      obtain ⟨j, hj, rfl⟩ := List.getElem_of_mem hLm
      have := comp_unique hK (List.getElem?_eq_getElem hi) (List.getElem?_eq_getElem hj) h1 h2
      subst this; rfl
    intro K hKm a' b' ha hf
    have hal := comp_lt hK hKm ha
    obtain ⟨a, al, rfl⟩ := surj_of_inj h.tlt h.tinj hal
    obtain ⟨L, hL, haL⟩ := member a al
    have := uniq K hKm L hL _ ha (hτ L hL a haL)
    subst this
    obtain ⟨r', hr', hs'⟩ := hf
    -- the neighbour in the old diagram
    have hr : edge[a]? = some edge[a] := List.getElem?_eq_getElem al
    cases hb : rev a with
    | false =>
      obtain ⟨f, s, g1, g2, g3⟩ := hO.through_head a _ hr
      have hff := Renamed.follows_of_ends hC hr g1 g2 g3
      have h4 := h.follows hC hO hA hff
      rw [hb] at h4
      simp only [Bool.false_eq_true, if_false] at h4
      obtain ⟨r2, hr2, hs2⟩ := h4
      rw [hr'] at hr2
      cases hr2
      rw [hs'] at hs2
      cases hs2
      exact hτ K hKm f (hK.closed K hKm a f haL hff)
    | true =>
      obtain ⟨f, s, g1, g2, g3⟩ := hO.through_tail a _ hr
      have ht := (slot_lt (hC.tail a _ hr)).2
      have hh := (slot_lt (hC.head f s g1)).2
      have hff := Renamed.follows_of_ends hC g1 hr g2.symm (by omega)
      have h4 := h.follows hC hO hA hff
      rw [hA f a hff, hb] at h4
      simp only [if_true] at h4
      obtain ⟨r2, hr2, hs2⟩ := h4
      rw [hr'] at hr2
      cases hr2
      rw [hs'] at hs2
      cases hs2
      obtain ⟨M, hM, hfM⟩ := member f (List.getElem?_eq_some_iff.mp g1).1
      have := uniq K hKm M hM a haL (hK.closed M hM f a hfM hff)
      subst this
      exact hτ K hKm f hfM

theorem applyEMap_ok (qs : QSort) (bs : BSearch) {maxfaces : Nat} (hC : Consistent cross edge)
    (hO : Oriented cross edge) (h0 : cross ≠ []) (hsmall : 2 * edge.length < 2 ^ 31)
    (hroom : cross.length + 2 ≤ maxfaces) (hcon : Connected cross edge) (hP : PlaneFaces cross edge)
    (hK : CompsOf cross edge comps) (hne : ∀ K ∈ comps, K.edge ≠ []) {m : EMap}
    (hml : m.perm.map.length = edge.length) (hmv : m.perm.map ~ List.range m.perm.map.length)
    (hol : m.orient.length = edge.length) (ho : ∀ o ∈ m.orient, o = .pos ∨ o = .neg)
    (hp : ∀ K ∈ comps, ∀ e ∈ K.edge, ap m.perm.map e ∈ K.edge)
    (hoc : ∀ K ∈ comps, ∀ e ∈ K.edge, ∀ f ∈ K.edge, m.orient[e]? = m.orient[f]?) :
    ∃ (cross' : List Cross) (edge' : List Edge) (faces : List Face) (τ σ ρ : Nat → Nat),
      applyEMap qs bs maxfaces cross edge comps m = .ok (cross', edge', faces) ∧
      (∀ i, i < edge.length → τ (ap m.perm.map i) = i ∧ ap m.perm.map (τ i) = i) ∧
      Renamed cross edge cross' edge' τ σ ρ (fun e => m.orient[τ e]? == some Or.neg) ∧
      SignsBy (fun _ s => s) cross cross' σ ∧
      (∀ c ∈ cross', ∃ y, c = rotL y (rdist y)) ∧
      cross'.Pairwise (fun a b => crossCmp a b ≤ 0) ∧
      (∀ K ∈ comps, ∀ e ∈ K.edge, τ e ∈ K.edge) ∧
      Renamed.Along cross edge (fun e => m.orient[τ e]? == some Or.neg) := by
  have hn : 1 ≤ edge.length := by
    have := List.length_pos_iff.mpr h0
    have := hC.count
    omega
  obtain ⟨inv, i1, i2, i3, i4, i5⟩ := invLoop_inverse hmv
  rw [hml] at i2 i3 i4 i5
  obtain ⟨Q, q1, q2, q3⟩ := regenPc_permOk bs (m := inv) (by rw [i2]; exact i5) (by omega)
  have hτ : ∀ i, i < edge.length → ap inv i < edge.length ∧ ap m.perm.map (ap inv i) = i := by
    intro i hi
    refine ⟨?_, i4 i hi⟩
    rw [ap_lt (by omega)]
    exact List.mem_range.mp (i5.mem_iff.mp (List.getElem_mem (by omega)))
  have hτK := along_of hK hτ hp
  have hA : Renamed.Along cross edge (fun e => m.orient[ap inv e]? == some Or.neg) := by
    intro e f hf
    have hel : e < edge.length := by
      obtain ⟨r, hr, _⟩ := hf
      exact (List.getElem?_eq_some_iff.mp hr).1
    obtain ⟨j, q, K, _, h2, h3⟩ := compAndPos_ok hK hel
    have hKm := List.mem_of_getElem? h2
    simp only
    rw [hoc K hKm _ (hτK K hKm e h3) _ (hτK K hKm f (hK.closed K hKm e f h3 hf))]
  have hR1 := relabel hC hml hol ho i2 i3 i4 (fun i hi => (hτ i hi).1)
  have hC1 := hR1.consistent hC
  have hO1 := hR1.oriented hC hO hA
  obtain ⟨cross', edge', σ, ρ, r1, r2, r3, r4⟩ := regen_ok qs
    (cross := cross.map (mapC (ap inv))) (edge := List.zipWith (fun x o => turnE o edge[x]!) m.perm.map m.orient)
    (by
      intro r hr
      obtain ⟨e, he, rfl⟩ := List.getElem_of_mem hr
      exact ⟨(slot_lt (hC1.head e _ (List.getElem?_eq_getElem he))).1,
        (slot_lt (hC1.tail e _ (List.getElem?_eq_getElem he))).1⟩)
    (by
      intro c hc
      apply small_edges (n := edge.length) (by omega)
      intro k
      obtain ⟨y, hy, rfl⟩ := List.mem_map.mp hc
      rw [mapC_at]
      obtain ⟨d, hd, rfl⟩ := List.getElem_of_mem hy
      apply (hτ _ _).1
      rw [at_lt]
      have := slot_eq_some.mpr ⟨Nat.mod_lt k (by decide), cross[d], List.getElem?_eq_getElem hd, rfl⟩
      exact hC.slot_edge_lt this)
  have hR := hR1.trans (Renamed.of_resort r2) hC
  have hR : Renamed cross edge cross' edge' (ap inv) σ ρ (fun e => m.orient[ap inv e]? == some Or.neg) := by
    have e1 : (fun c => ρ c % 4) = ρ := by
      funext c
      have := r2.rho c
      omega
    simp only [id, Nat.zero_add, Bool.xor_false] at hR
    rw [e1] at hR
    exact hR
  have hC2 := hR.consistent hC
  have hO2 := hR.oriented hC hO hA
  obtain ⟨faces, hf⟩ := C22_faces_plane qs maxfaces cross' edge' hC2 hO2
    (by intro h; rw [h] at r2; have := r2.len; simp at this; exact h0 (List.length_eq_zero_iff.mp this.symm))
    (by rw [hR.elen]; exact hsmall) (by rw [hR.len]; exact hroom) (hR.connected hcon) (hR.plane hC hP)
  refine ⟨cross', edge', faces, ap inv, σ, ρ, ?_, fun i hi => ⟨i3 i hi, i4 i hi⟩, hR, ?_, ?_, r3, hτK, hA⟩
  · unfold applyEMap emapConsistent
    rw [if_neg (by simp [Perm.n, hml]), compsConsistent_ok hK hml hol
      (fun K hKm => ⟨hKm, hne K hKm, hp K hKm, hoc K hKm⟩), ok_bind, assertC_ok (by rfl), ok_bind,
      copyEdges_ok _ _ _ (valid_nodup hmv) (fun x hx => by rw [← hml]; exact valid_lt hmv hx) ho, ok_bind]
    unfold inverse Perm.n
    rw [hml, ← hml, i1, ok_bind, q1, ok_bind, q2, renameCross_ok, ok_bind, r1, ok_bind]
    · simp only
      rw [hf, ok_bind]
    · intro c hc k
      obtain ⟨d, hd, rfl⟩ := List.getElem_of_mem hc
      rw [i2, at_lt]
      have := slot_eq_some.mpr ⟨Nat.mod_lt k (by decide), cross[d], List.getElem?_eq_getElem hd, rfl⟩
      exact hC.slot_edge_lt this
  · intro c x x' hx hx'
    have := r2.cross c (mapC (ap inv) x) (by simp [hx])
    rw [hx'] at this
    cases this
    rfl
  · intro c hc
    obtain ⟨y, _, h⟩ := regen_mem r1 c hc
    exact ⟨y, h⟩

end

end Plc.Emap
