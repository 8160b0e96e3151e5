import Verif.Proofs.Reorient

namespace Plc

open Plc.Core Plc.Cmp Plc.PermM Plc.Faces Plc.Strands List

/-- Crossings in canonical order, each beginning with its lowest edge: what `pd_regenerate_crossings`
leaves behind (C17, C18). -/
structure Canonical (cross : List Cross) : Prop where
  rot : ∀ c ∈ cross, canonorderCross c .pos = c
  low : ∀ c ∈ cross, LowNotOpposite c
  strict : cross.Pairwise (fun a b => ([a.e0, a.e1, a.e2, a.e3] : List Nat) < [b.e0, b.e1, b.e2, b.e3])

namespace Emap

variable {cross cross' : List Cross} {edge edge' : List Edge} {comps : List Comp}

theorem rotL_inv {x y : Cross} {j : Nat} (h : x = rotL y j) : y = rotL x (4 - j % 4) := by
  rw [h, rotL_add, ← rotL_mod, show (j + (4 - j % 4)) % 4 = 0 by omega, rotL_zero]

theorem rot_back {x y : Cross} {j : Nat} (hl : LowNotOpposite x) (hx : rotL x (rdist x) = x)
    (h : rotL y (rdist y) = rotL x j) : rotL y (rdist y) = x := by
  have h1 := rotL_inv h.symm
  have h2 : y = rotL x (j + (4 - rdist y % 4)) := by
    rw [← rotL_add, ← h]
    exact rotL_inv rfl
  rw [canon_unique h2 (fun r hr => low_spec hl hr), hx]

theorem rot_zero {x : Cross} {j : Nat} (hl : LowNotOpposite x) (hx : rotL x (rdist x) = x)
    (h : rotL x j = x) : j % 4 = 0 := by
  have hmin : ∀ k, x.at 0 ≤ x.at k := by
    intro k
    have h1 := (rdist_full x).2.1 k
    have h2 : x.at 0 = x.at (rdist x) := by
      conv_lhs => rw [← hx]
      rw [rotL_at, Nat.zero_add]
    omega
  have hne := low_spec hl hmin
  have hper : ∀ k, x.at k = x.at (k + j) := by
    intro k
    conv_lhs => rw [← h]
    rw [rotL_at]
  by_contra hj
  have h2 : x.at (0 + 2) = x.at 0 := by
    rcases (show j % 4 = 1 ∨ j % 4 = 2 ∨ j % 4 = 3 by omega) with hj | hj | hj
    · rw [hper 0, hper (0 + j), at_lt, at_lt x (0 + j + j)]
      congr 1
      omega
    · rw [hper 0, at_lt, at_lt x (0 + j)]
      congr 1
      omega
    · rw [hper 0, hper (0 + j), at_lt, at_lt x (0 + j + j)]
      congr 1
      omega
  exact hne 0 rfl h2

theorem perm_of_inj {α : Type} [Inhabited α] {l l' : List α} {σ : Nat → Nat} (hl : l'.length = l.length)
    (h1 : ∀ c, c < l.length → σ c < l.length)
    (h2 : ∀ c d, c < l.length → d < l.length → σ c = σ d → c = d)
    (h3 : ∀ c, c < l.length → l'[σ c]? = l[c]?) : l' ~ l := by
  have hp := valid_map h1 h2
  rw [List.length_map, List.length_range] at hp
  have e1 : l = ((List.range l.length).map σ).map (fun i => l'[i]!) := by
    apply List.ext_getElem?
    intro i
    by_cases hi : i < l.length
    · rw [List.map_map, List.getElem?_map, List.getElem?_range hi]
      have := h3 i hi
      rw [List.getElem?_eq_getElem hi] at this ⊢
      simp [List.getElem!_eq_getElem?_getD, this]
    · rw [List.getElem?_eq_none (by omega), List.getElem?_eq_none (by simp; omega)]
  have e2 : l' = (List.range l.length).map (fun i => l'[i]!) := by
    apply List.ext_getElem?
    intro i
    by_cases hi : i < l.length
    · rw [List.getElem?_map, List.getElem?_range hi]
      simp [hl, hi]
    · rw [List.getElem?_eq_none (by omega), List.getElem?_eq_none (by simp; omega)]
  rw [e1]
  conv_lhs => rw [e2]
  exact (hp.map _).symm

/-- A canonical diagram is what re-sorting gives back. -/
theorem canon_of_renamed (hC : Consistent cross edge) (hcan : Canonical cross)
    (hs31 : edge.length ≤ 2 ^ 31) {τ σ ρ : Nat → Nat}
    (h : Renamed cross edge cross' edge' τ σ ρ (fun _ => false)) (hτ : ∀ e, e < edge.length → τ e = e)
    (hsg : SignsBy (fun _ s => s) cross cross' σ) (hso : Sorted cross') : cross' = cross ∧ edge' = edge := by
  have hel : ∀ c ∈ cross, ∀ k, c.at k < edge.length := by
    intro c hc k
    obtain ⟨d, hd, rfl⟩ := List.getElem_of_mem hc
    rw [at_lt]
    have := slot_eq_some.mpr ⟨Nat.mod_lt k (by decide), cross[d], List.getElem?_eq_getElem hd, rfl⟩
    exact hC.slot_edge_lt this
  have hrot : ∀ (c : Nat) (x : Cross), cross[c]? = some x → cross'[σ c]? = some (rotL x (ρ c)) := by
    intro c x hx
    obtain ⟨x', h1, h2⟩ := h.cross c x hx
    rw [h1]
    congr 1
    apply cross_ext
    · intro k
      rw [h2, rotL_at, hτ _ (hel x (List.mem_of_getElem? hx) _)]
    · exact hsg c x x' hx h1
  have hcanx : ∀ x ∈ cross, rotL x (rdist x) = x := fun x hx => by
    have := hcan.rot x hx
    unfold canonorderCross at this
    simpa using this
  have hsame : ∀ c, c < cross.length → cross'[σ c]? = cross[c]? := by
    intro c hc
    have hx := List.getElem?_eq_getElem hc
    have hm := List.getElem_mem hc
    have h1 := hrot c _ hx
    obtain ⟨y, hy⟩ := hso.rot _ (List.mem_of_getElem? h1)
    rw [h1, hx, hy]
    congr 1
    exact rot_back (hcan.low _ hm) (hcanx _ hm) hy.symm
  have hperm : cross' ~ cross := by
    haveI : Inhabited Cross := ⟨⟨0, 0, 0, 0, .pos⟩⟩
    exact perm_of_inj h.len h.slt h.sinj hsame
  have hsm : ∀ c ∈ cross, Small (edges c) := fun c hc => small_edges hs31 (hel c hc)
  have hord := order_of_key (P := fun c => Small (edges c)) (same := fun a b => edges a = edges b)
        edges (cmp := crossCmp) (fun a b ha hb => lexU_spec _ _ rfl ha hb) (by intros; rfl)
  have hlt : ∀ a b, Small (edges a) → Small (edges b) → (crossCmp a b < 0 ↔ edges a < edges b) :=
    fun a b ha hb => (lexU_spec (edges a) (edges b) rfl ha hb).1
  have hcc : cross' = cross := by
    apply List.Perm.eq_of_pairwise (le := fun a b => crossCmp a b ≤ 0) _ hso.sorted _ hperm
    · intro a b ha hb h1 h2
      have ha' := hperm.mem_iff.mp ha
      have e1 : edges a = edges b := by
        have := (lexU_spec (edges a) (edges b) rfl (hsm a ha') (hsm b hb)).2
        have h3 := hord.swap a b (hsm a ha') (hsm b hb)
        apply this.mp
        show crossCmp a b = 0
        omega
      by_contra hab
      obtain ⟨i, hi, rfl⟩ := List.getElem_of_mem ha'
      obtain ⟨j, hj, rfl⟩ := List.getElem_of_mem hb
      have hp := List.pairwise_iff_getElem.mp hcan.strict
      rcases Nat.lt_trichotomy i j with hij | hij | hij
      · have := hp i j hi hj hij
        unfold edges at e1
        rw [e1] at this
        exact lt_irrefl _ this
      · subst hij; exact hab rfl
      · have := hp j i hj hi hij
        unfold edges at e1
        rw [e1] at this
        exact lt_irrefl _ this
    · refine hcan.strict.imp_of_mem ?_
      intro a b ha hb hab
      have := (hlt a b (hsm a ha) (hsm b hb)).mpr hab
      omega
  refine ⟨hcc, ?_⟩
  have hid : ∀ c, c < cross.length → σ c = c := by
    intro c hc
    have h1 := hsame c hc
    rw [hcc] at h1
    have hl := h.slt c hc
    rw [List.getElem?_eq_getElem hl, List.getElem?_eq_getElem hc] at h1
    have e1 := Option.some.inj h1
    have hp := List.pairwise_iff_getElem.mp hcan.strict
    rcases Nat.lt_trichotomy (σ c) c with hij | hij | hij
    · have := hp _ _ hl hc hij
      rw [e1] at this
      exact absurd this (lt_irrefl _)
    · exact hij
    · have := hp _ _ hc hl hij
      rw [e1] at this
      exact absurd this (lt_irrefl _)
  have hzero : ∀ c, c < cross.length → ρ c = 0 := by
    intro c hc
    have hm := List.getElem_mem hc
    have h1 := hrot c _ (List.getElem?_eq_getElem hc)
    rw [hsame c hc, List.getElem?_eq_getElem hc] at h1
    have := rot_zero (hcan.low _ hm) (hcanx _ hm) (Option.some.inj h1).symm
    have := h.rho c
    omega
  apply List.ext_getElem?
  intro e
  by_cases he : e < edge.length
  · have hr := List.getElem?_eq_getElem he
    have h1 := h.edge e _ hr
    rw [hτ e he] at h1
    have hh := slot_lt (hC.head e _ hr)
    have ht := slot_lt (hC.tail e _ hr)
    rw [h1, hr]
    congr 1
    unfold moveEdge
    simp only [Bool.false_eq_true, if_false]
    rw [hid _ hh.1, hid _ ht.1, hzero _ hh.1, hzero _ ht.1]
    have e1 : (edge[e].headpos + 4 - 0) % 4 = edge[e].headpos := by omega
    have e2 : (edge[e].tailpos + 4 - 0) % 4 = edge[e].tailpos := by omega
    rw [e1, e2]
  · rw [List.getElem?_eq_none (by rw [h.elen]; omega), List.getElem?_eq_none (by omega)]

/-! ### Shifting the numbers of a component -/

theorem renumLoop_ok (k : List Nat) (ofs : Nat) (hk : k.Nodup) : ∀ (n e : Nat) (p : List Nat), e + n = k.length →
    (∀ x ∈ k, x < p.length) → ∃ p', renumLoop k ofs n e p = .ok p' ∧ p'.length = p.length ∧
      (∀ j, e ≤ j → j < k.length → p'[k[j]!]? = k[(j + ofs) % k.length]?) ∧
      (∀ x, (∀ j, e ≤ j → j < k.length → k[j]! ≠ x) → p'[x]? = p[x]?)
  | 0, e, p, h, _ => ⟨p, rfl, rfl, fun j h1 h2 => by omega, fun _ _ => rfl⟩
  | n + 1, e, p, h, hb => by
    have he : e < k.length := by omega
    have hm : (e + ofs) % k.length < k.length := Nat.mod_lt _ (by omega)
    have hl : k[e] < p.length := hb _ (List.getElem_mem he)
    obtain ⟨p', g1, g2, g3, g4⟩ := renumLoop_ok k ofs hk n (e + 1) (p.set k[e] k[(e + ofs) % k.length]) (by omega)
      (fun x hx => by simpa using hb x hx)
    refine ⟨p', ?_, by simpa using g2, ?_, ?_⟩
    · unfold renumLoop
      rw [rd_lt he, ok_bind, rd_lt hm, ok_bind, wr_lt hl, ok_bind]
      exact g1
    · intro j h1 h2
      by_cases hj : j = e
      · subst hj
        rw [g4, getElem!_pos k j he, List.getElem?_set_self hl, List.getElem?_eq_getElem hm]
        intro i i1 i2
        rw [getElem!_pos k i i2, getElem!_pos k j he]
        intro h3
        have := (List.Nodup.getElem_inj_iff hk).mp h3
        omega
      · exact g3 j (by omega) h2
    · intro x hx
      rw [g4 x (fun j h1 h2 => hx j (by omega) h2), List.getElem?_set_ne]
      have := hx e (by omega) he
      rwa [getElem!_pos k e he] at this

/-- Rotating the numbers `a, ..., a + n - 1`. -/
def shiftBy (a n ofs x : Nat) : Nat := if a ≤ x ∧ x < a + n then a + (x - a + ofs) % n else x

theorem shift_lt {a n ofs x N : Nat} (h : a + n ≤ N) (hx : x < N) : shiftBy a n ofs x < N := by
  unfold shiftBy
  split
  · have := Nat.mod_lt (x - a + ofs) (show n > 0 by omega)
    omega
  · exact hx

theorem mod_inj {n x y o : Nat} (hx : x < n) (hy : y < n) (h : (x + o) % n = (y + o) % n) : x = y := by
  have h1 : (x + o) ≡ (y + o) [MOD n] := h
  have := Nat.ModEq.add_right_cancel' o h1
  unfold Nat.ModEq at this
  rwa [Nat.mod_eq_of_lt hx, Nat.mod_eq_of_lt hy] at this

theorem shift_inj {a n ofs x y : Nat} (h : shiftBy a n ofs x = shiftBy a n ofs y) : x = y := by
  unfold shiftBy at h
  split at h <;> split at h
  · have := mod_inj (n := n) (x := x - a) (y := y - a) (o := ofs) (by omega) (by omega) (by omega)
    omega
  · have := Nat.mod_lt (x - a + ofs) (show n > 0 by omega)
    omega
  · have := Nat.mod_lt (y - a + ofs) (show n > 0 by omega)
    omega
  · exact h

theorem renumber_ok (qs : QSort) (bs : BSearch) {maxfaces : Nat} (hC : Consistent cross edge)
    (hO : Oriented cross edge) (h0 : cross ≠ []) (hsmall : 2 * edge.length < 2 ^ 31)
    (hroom : cross.length + 2 ≤ maxfaces) (hcon : Connected cross edge) (hP : PlaneFaces cross edge)
    (hN : Numbered cross edge comps) {cmp : Nat} {K : Comp} (hKc : comps[cmp]? = some K) {a : Nat}
    (ha : K.edge = List.range' a K.edge.length) (ofs : Nat) (hofs : ofs ≠ 0) :
    ∃ (cross' : List Cross) (edge' : List Edge) (faces : List Face) (τ σ ρ : Nat → Nat),
      renumberComponent qs bs maxfaces cross edge comps cmp ofs = .ok (cross', edge', some faces) ∧
      regenFaces qs maxfaces cross' edge' = .ok faces ∧
      (∀ x, x < edge.length → τ (shiftBy a K.edge.length ofs x) = x) ∧
      Renamed cross edge cross' edge' τ σ ρ (fun _ => false) ∧
      SignsBy (fun _ s => s) cross cross' σ ∧
      Sorted cross' ∧ Numbered cross' edge' comps := by
  have hKm := List.mem_of_getElem? hKc
  have hK := compsOf_numbered hN
  have hne := hN.ne K hKm
  have hpos : 0 < K.edge.length := List.length_pos_iff.mpr hne
  obtain ⟨a', ha', hal⟩ := comp_range hN hKm
  have haa : a' = a := by
    have h1 : K.edge[0]? = some a := by rw [ha]; simp [hpos]
    have h2 : K.edge[0]? = some a' := by rw [ha']; simp [hpos]
    rw [h1] at h2
    exact (Option.some.inj h2).symm
  subst haa
  have hnd := comp_nodup hK hKm
  have hmem : ∀ x, x ∈ K.edge ↔ a' ≤ x ∧ x < a' + K.edge.length := by
    intro x
    rw [ha']; simp
  have hget : ∀ j, j < K.edge.length → K.edge[j]? = some (a' + j) := by
    intro j hj
    rw [ha', List.getElem?_range' hj]; simp
  have hbang : ∀ j, j < K.edge.length → K.edge[j]! = a' + j := by
    intro j hj
    rw [List.getElem!_eq_getElem?_getD, hget j hj]; rfl
  obtain ⟨p, p1, p2, p3, p4⟩ := renumLoop_ok K.edge ofs hnd K.edge.length 0 (List.range edge.length) (by omega)
    (fun x hx => by rw [List.length_range]; exact comp_lt hK hKm hx)
  generalize hn : K.edge.length = n at *
  have hp : p = (List.range edge.length).map (shiftBy a' n ofs) := by
    apply List.ext_getElem?
    intro x
    by_cases hx : x < edge.length
    · rw [List.getElem?_map, List.getElem?_range hx]
      simp only [Option.map_some]
      by_cases hxK : a' ≤ x ∧ x < a' + n
      · have := p3 (x - a') (by omega) (by omega)
        rw [hbang _ (by omega), show a' + (x - a') = x by omega, hget _ (Nat.mod_lt _ hpos)] at this
        rw [this]
        unfold shiftBy
        rw [if_pos hxK]
      · rw [p4 x, List.getElem?_range hx]
        · unfold shiftBy
          rw [if_neg hxK]
        · intro j _ hj
          rw [hbang j hj]
          omega
    · rw [List.getElem?_eq_none (by rw [p2]; simp; omega), List.getElem?_eq_none (by simp; omega)]
  have hval : p ~ List.range p.length := by
    rw [hp]
    exact valid_map (fun x hx => shift_lt hal hx) (fun x y _ _ h => shift_inj h)
  have hpl : p.length = edge.length := by simpa using p2
  have hop : ∀ o ∈ List.replicate edge.length Or.pos, o = .pos ∨ o = .neg := by
    intro o ho
    left
    exact (List.mem_replicate.mp ho).2
  obtain ⟨P, q1, q2, q3⟩ := emapOk_ok bs hval (by omega) hop
  have hshift : ∀ L ∈ comps, ∀ e ∈ L.edge, shiftBy a' n ofs e ∈ L.edge := by
    intro L hL e he
    by_cases heK : e ∈ K.edge
    · have : L = K := by
        obtain ⟨i, hi, rfl⟩ := List.getElem_of_mem hL
        have := comp_unique hK (List.getElem?_eq_getElem hi) hKc he heK
        subst this
        rw [List.getElem?_eq_getElem hi] at hKc
        exact Option.some.inj hKc
      subst this
      rw [hmem] at heK ⊢
      unfold shiftBy
      rw [if_pos heK]
      have := Nat.mod_lt (e - a' + ofs) hpos
      omega
    · have : shiftBy a' n ofs e = e := by
        rw [hmem] at heK
        unfold shiftBy
        rw [if_neg (by omega)]
      rwa [this]
  obtain ⟨cross', edge', faces, τ, σ, ρ, g1, g2, g3, g4, g5, g6, g7, g8⟩ := applyEMap_ok qs bs (maxfaces := maxfaces)
    (m := ⟨P, List.replicate edge.length .pos⟩) hC hO h0 hsmall hroom hcon hP hK hN.ne
    (by simp only [q2, hpl]) (by simp only [q2]; exact hval) (by simp) hop
    (by
      intro L hL e he
      simp only [q2, hp]
      rw [ap_map_range _ (comp_lt hK hL he)]
      exact hshift L hL e he)
    (by
      intro L hL e he f hf
      rw [List.getElem?_replicate, List.getElem?_replicate, if_pos (comp_lt hK hL he), if_pos (comp_lt hK hL hf)])
  have hτ : ∀ x, x < edge.length → τ (shiftBy a' n ofs x) = x := by
    intro x hx
    have := (g2 x hx).1
    simp only [q2, hp] at this
    rwa [ap_map_range _ hx] at this
  have hrev : (fun e => (List.replicate edge.length Or.pos)[τ e]? == some Or.neg) = fun _ => false := by
    funext e
    rw [List.getElem?_replicate]
    split <;> rfl
  simp only [hrev] at g3 g8
  obtain ⟨faces2, hf2⟩ := C22_faces_plane qs maxfaces cross' edge' (g3.consistent hC) (g3.oriented hC hO g8)
    (by intro h; have := g3.len; rw [h] at this; simp at this; exact h0 (List.length_eq_zero_iff.mp this.symm))
    (by rw [g3.elen]; exact hsmall) (by rw [g3.len]; exact hroom) (g3.connected hcon) (g3.plane hC hP)
  refine ⟨cross', edge', faces2, τ, σ, ρ, ?_, hf2, hτ, g3, g4, ⟨g5, g6⟩, ?_⟩
  · unfold renumberComponent
    have hcl := (List.getElem?_eq_some_iff.mp hKc).1
    rw [assertC_ok (by simpa using hcl), ok_bind, if_pos hofs, rd_eq_ok.mpr hKc, ok_bind, hn, p1, ok_bind, q1, ok_bind,
      q3, ok_bind, assertC_ok rfl, ok_bind, g1, ok_bind]
    simp only
    rw [hf2, ok_bind]
  · refine ⟨by rw [g3.elen]; exact hN.all, hN.ne, ?_⟩
    intro L hL j e he
    by_cases hLK : L = K
    · subst hLK
      have hj : j < n := by
        rw [← hn]; exact (List.getElem?_eq_some_iff.mp he).1
      rw [hget j hj] at he
      cases he
      refine ⟨_, by rw [hn]; exact hget _ (Nat.mod_lt _ hpos), ?_⟩
      obtain ⟨e', h1, h2⟩ := hN.follows L hL _ _ (hget ((j + ofs) % n) (Nat.mod_lt _ hpos))
      rw [hn, hget _ (Nat.mod_lt _ hpos)] at h1
      cases h1
      have h3 := (follows_iff_renamed g3 hC hO g8 h2).2 rfl
      have e1 : shiftBy a' n ofs (a' + j) = a' + (j + ofs) % n := by
        unfold shiftBy
        rw [if_pos (by omega), Nat.add_sub_cancel_left]
      have e2 : shiftBy a' n ofs (a' + (j + 1) % n) = a' + ((j + ofs) % n + 1) % n := by
        unfold shiftBy
        have := Nat.mod_lt (j + 1) hpos
        rw [if_pos (by omega), Nat.add_sub_cancel_left, Nat.mod_add_mod, Nat.mod_add_mod]
        congr 2
        omega
      have hl2 : a' + (j + 1) % n < edge.length := by
        have := Nat.mod_lt (j + 1) hpos
        omega
      rwa [← e1, ← e2, hτ _ (by omega), hτ _ hl2] at h3
    · obtain ⟨e', h1, h2⟩ := hN.follows L hL j e he
      have fix : ∀ x ∈ L.edge, τ x = x := by
        intro x hx
        have hxK : x ∉ K.edge := by
          intro hxK
          obtain ⟨i, hi, rfl⟩ := List.getElem_of_mem hL
          have := comp_unique hK (List.getElem?_eq_getElem hi) hKc hx hxK
          subst this
          rw [List.getElem?_eq_getElem hi] at hKc
          exact hLK (Option.some.inj hKc)
        have h3 := hτ x (comp_lt hK hL hx)
        rw [hmem] at hxK
        unfold shiftBy at h3
        rwa [if_neg (by omega)] at h3
      have h3 := (follows_iff_renamed g3 hC hO g8 h2).2 rfl
      rw [fix e (List.mem_of_getElem? he), fix e' (List.mem_of_getElem? h1)] at h3
      exact ⟨e', h1, h3⟩

end Emap

end Plc
