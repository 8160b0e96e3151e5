import Verif.Proofs.Edgemap

namespace Plc

open Plc.Core Plc.Cmp Plc.PermM Plc.Faces Plc.Strands List

/-- The components list every edge exactly once and in order, none is empty, and along each of them
edges follow each other, cyclically: what `pd_regenerate_comps` leaves behind (C21). -/
structure Numbered (cross : List Cross) (edge : List Edge) (comps : List Comp) : Prop where
  all : comps.flatMap (·.edge) = List.range edge.length
  ne : ∀ c ∈ comps, c.edge ≠ []
  follows : ∀ c ∈ comps, ∀ (j e : Nat), c.edge[j]? = some e →
    ∃ e', c.edge[(j + 1) % c.edge.length]? = some e' ∧ Follows cross edge e e'

namespace Emap

variable {cross cross' : List Cross} {edge edge' : List Edge} {comps : List Comp}

theorem follows_fun {a b c : Nat} (h1 : Follows cross edge a b) (h2 : Follows cross edge a c) : b = c := by
  obtain ⟨r, hr, hs⟩ := h1
  obtain ⟨r', hr', hs'⟩ := h2
  rw [hr] at hr'
  cases hr'
  rw [hs] at hs'
  exact Option.some.inj hs'

theorem compsOf_numbered (h : Numbered cross edge comps) : CompsOf cross edge comps where
  all := by rw [h.all]
  closed := by
    intro c hc e e' he hf
    obtain ⟨j, hj, rfl⟩ := List.getElem_of_mem he
    obtain ⟨e2, h1, h2⟩ := h.follows c hc j _ (List.getElem?_eq_getElem hj)
    rw [follows_fun hf h2]
    exact List.mem_of_getElem? h1

theorem infix_range {l : List Nat} {n : Nat} (h : l <:+: List.range n) : ∃ a, l = List.range' a l.length := by
  obtain ⟨s, t, h⟩ := h
  refine ⟨s.length, ?_⟩
  apply List.ext_getElem?
  intro i
  by_cases hi : i < l.length
  · have h1 : (s ++ l ++ t)[s.length + i]? = l[i]? := by
      rw [List.getElem?_append_left (by simp; omega), List.getElem?_append_right (by omega)]
      simp
    rw [h] at h1
    rw [← h1]
    have hlen : s.length + (l.length + t.length) = n := by simpa using congrArg List.length h
    rw [List.getElem?_range (by omega), List.getElem?_range' (by omega)]
    simp
  · rw [List.getElem?_eq_none (by omega), List.getElem?_eq_none (by simp; omega)]

theorem comp_range (h : Numbered cross edge comps) {K : Comp} (hK : K ∈ comps) :
    ∃ a, K.edge = List.range' a K.edge.length ∧ a + K.edge.length ≤ edge.length := by
  have h1 : K.edge <:+: List.range edge.length := by
    rw [← h.all]
    obtain ⟨s, t, rfl⟩ := List.append_of_mem hK
    exact ⟨s.flatMap (·.edge), t.flatMap (·.edge), by simp⟩
  obtain ⟨a, ha⟩ := infix_range h1
  refine ⟨a, ha, ?_⟩
  have hne := h.ne K hK
  have hpos : 0 < K.edge.length := List.length_pos_iff.mpr hne
  have : a + K.edge.length - 1 ∈ K.edge := by
    rw [ha]
    simp
    omega
  have := comp_lt (compsOf_numbered h) hK this
  omega

/-! ### Flipping signs -/

theorem flipSigns_ok : ∀ (l : List Nat) (cross : List Cross),
    (∀ e ∈ l, e < edge.length ∧ hc edge e < cross.length) →
    ∃ cross', flipSigns edge l cross = .ok cross' ∧ cross'.length = cross.length ∧
      ∀ (c : Nat) (x : Cross), cross[c]? = some x → cross'[c]? =
        some { x with sign := flipSign^[l.countP (fun e => hc edge e == c)] x.sign }
  | [], cross, _ => ⟨cross, rfl, rfl, fun c x hx => by simp [hx]⟩
  | e :: l, cross, h => by
    obtain ⟨h1, h2⟩ := h e (by simp)
    have hh : edge[e].head = hc edge e := by unfold hc; rw [getElem!_pos edge e h1]
    obtain ⟨cross', g1, g2, g3⟩ := flipSigns_ok l
      (cross.set (hc edge e) { cross[hc edge e] with sign := flipSign cross[hc edge e].sign })
      (fun f hf => by simpa using h f (by simp [hf]))
    refine ⟨cross', ?_, by simpa using g2, ?_⟩
    · unfold flipSigns
      rw [rd_lt h1, ok_bind, hh, rd_lt h2, ok_bind, wr_lt h2, ok_bind]
      exact g1
    · intro c x hx
      by_cases hce : hc edge e = c
      · subst hce
        rw [List.getElem?_eq_getElem h2] at hx
        cases hx
        rw [g3 _ _ (by rw [List.getElem?_set_self h2])]
        rw [List.countP_cons_of_pos (by simp), Function.iterate_succ_apply]
      · rw [g3 c x (by rw [List.getElem?_set_ne hce]; exact hx)]
        rw [List.countP_cons_of_neg (by simpa using hce)]

/-- Some edge of the crossing belongs to `K`, and some does not. -/
def MeetsOther (cross : List Cross) (K : List Nat) (c : Nat) : Prop :=
  (∃ k e, slot cross c k = some e ∧ e ∈ K) ∧ (∃ k e, slot cross c k = some e ∧ e ∉ K)

theorem flip_count (hC : Consistent cross edge) (hO : Oriented cross edge) (hK : CompsOf cross edge comps)
    {K : Comp} (hKm : K ∈ comps) {c : Nat} (hc' : c < cross.length) (s : Or) :
    (MeetsOther cross K.edge c → flipSign^[K.edge.countP (fun e => hc edge e == c)] s = flipSign s) ∧
    (¬ MeetsOther cross K.edge c → flipSign^[K.edge.countP (fun e => hc edge e == c)] s = s) := by
  obtain ⟨e0, e1, k0, k1, a1, a2, a3, a4, a5, a6, a7, a8, a9, a10, a11, a12⟩ := incoming hC hO hc'
  have hs0 : slot cross c k0 = some e0 := by
    have := hC.head e0 edge[e0] (List.getElem?_eq_getElem a1)
    unfold hc at a3
    unfold hk at a5
    rw [getElem!_pos edge e0 a1] at a3 a5
    rwa [a3, a5] at this
  have hs1 : slot cross c k1 = some e1 := by
    have := hC.head e1 edge[e1] (List.getElem?_eq_getElem a2)
    unfold hc at a4
    unfold hk at a6
    rw [getElem!_pos edge e1 a2] at a4 a6
    rwa [a4, a6] at this
  have hall : ∀ k e, slot cross c k = some e → (e ∈ K.edge ↔ if k % 2 = 0 then e0 ∈ K.edge else e1 ∈ K.edge) := by
    intro k e he
    have hk4 := (slot_lt he).2
    split
    · rcases (show k = k0 ∨ k = (k0 + 2) % 4 by omega) with rfl | rfl
      · rw [hs0] at he; cases he; rfl
      · exact (opp_comp hC hO hK hKm hs0 he).symm
    · rcases (show k = k1 ∨ k = (k1 + 2) % 4 by omega) with rfl | rfl
      · rw [hs1] at he; cases he; rfl
      · exact (opp_comp hC hO hK hKm hs1 he).symm
  have hmeet : MeetsOther cross K.edge c ↔ ¬ (e0 ∈ K.edge ↔ e1 ∈ K.edge) := by
    constructor
    · rintro ⟨⟨k, e, h1, h2⟩, ⟨k', e', h3, h4⟩⟩ hiff
      rw [hall k e h1] at h2
      rw [hall k' e' h3] at h4
      split at h2 <;> split at h4 <;> simp_all
    · intro hn
      by_cases h0 : e0 ∈ K.edge
      · by_cases h1 : e1 ∈ K.edge
        · simp [h0, h1] at hn
        · exact ⟨⟨k0, e0, hs0, h0⟩, ⟨k1, e1, hs1, h1⟩⟩
      · by_cases h1 : e1 ∈ K.edge
        · exact ⟨⟨k1, e1, hs1, h1⟩, ⟨k0, e0, hs0, h0⟩⟩
        · simp [h0, h1] at hn
  have hcount : K.edge.countP (fun e => hc edge e == c) = ([e0, e1].filter (fun e => decide (e ∈ K.edge))).length := by
    rw [List.countP_eq_length_filter]
    apply List.Perm.length_eq
    rw [List.perm_ext_iff_of_nodup ((comp_nodup hK hKm).filter _)
      (List.Nodup.filter _ (by simpa using a11))]
    intro e
    simp only [List.mem_filter, beq_iff_eq, List.mem_cons, List.not_mem_nil, or_false, decide_eq_true_eq]
    constructor
    · rintro ⟨h1, h2⟩
      exact ⟨a12 e (comp_lt hK hKm h1) h2, h1⟩
    · rintro ⟨rfl | rfl, h2⟩
      · exact ⟨h2, a3⟩
      · exact ⟨h2, a4⟩
  have hff : flipSign (flipSign s) = s := by cases s <;> rfl
  rw [hmeet, hcount]
  by_cases h0 : e0 ∈ K.edge <;> by_cases h1 : e1 ∈ K.edge <;> simp [h0, h1, hff]

/-- Only signs differ. -/
theorem renamed_signs {cross' : List Cross} (hC : Consistent cross edge) (hl : cross'.length = cross.length)
    (h : ∀ (c : Nat) (x : Cross), cross[c]? = some x → ∃ s, cross'[c]? = some { x with sign := s }) :
    Renamed cross edge cross' edge id id (fun _ => 0) (fun _ => false) where
  len := hl
  elen := rfl
  slt := fun _ h => h
  sinj := fun _ _ _ _ h => h
  tlt := fun _ h => h
  tinj := fun _ _ _ _ h => h
  rho := fun _ => by decide
  cross := by
    intro c x hx
    obtain ⟨s, hs⟩ := h c x hx
    exact ⟨_, hs, fun k => rfl⟩
  edge := by
    intro e r hr
    have hh := (slot_lt (hC.head e _ hr)).2
    have ht := (slot_lt (hC.tail e _ hr)).2
    have hh' : r.headpos % 4 = r.headpos := by omega
    have ht' : r.tailpos % 4 = r.tailpos := by omega
    simp [hr, moveEdge, hh', ht']

/-! ### The edge map of a reversal -/

theorem revLoop_ok (first last N : Nat) : ∀ (k e : Nat) (m : EMap), m.perm.map.length = N → m.orient.length = N →
    first + e + k ≤ N → ∃ m', revLoop first last k e m = .ok m' ∧ m'.perm.map.length = N ∧ m'.orient.length = N ∧
      (∀ x, m'.perm.map[x]? = if first + e ≤ x ∧ x < first + e + k then some (last + 1 - (x - first)) else m.perm.map[x]?) ∧
      (∀ x, m'.orient[x]? = if first + e ≤ x ∧ x < first + e + k then some .neg else m.orient[x]?)
  | 0, e, m, h1, h2, h3 => ⟨m, rfl, h1, h2, fun x => by rw [if_neg (by omega)], fun x => by rw [if_neg (by omega)]⟩
  | k + 1, e, m, h1, h2, h3 => by
    obtain ⟨m', g1, g2, g3, g4, g5⟩ := revLoop_ok first last N k (e + 1)
      ⟨⟨m.perm.map.set (first + e) (last + 1 - e), m.perm.pc⟩, m.orient.set (first + e) .neg⟩
      (by simpa using h1) (by simpa using h2) (by omega)
    refine ⟨m', ?_, g2, g3, ?_, ?_⟩
    · unfold revLoop
      rw [wr_lt (by omega), ok_bind, wr_lt (by omega), ok_bind]
      exact g1
    · intro x
      rw [g4 x]
      by_cases hx : first + e = x
      · subst hx
        rw [if_neg (by omega), if_pos (by omega)]
        simp only
        rw [List.getElem?_set_self (by omega)]
        congr 2
        omega
      · simp only [List.getElem?_set_ne hx]
        by_cases h : first + (e + 1) ≤ x ∧ x < first + (e + 1) + k
        · rw [if_pos h, if_pos (by omega)]
        · rw [if_neg h, if_neg (by omega)]
    · intro x
      rw [g5 x]
      by_cases hx : first + e = x
      · subst hx
        rw [if_neg (by omega), if_pos (by omega)]
        simp only
        rw [List.getElem?_set_self (by omega)]
      · simp only [List.getElem?_set_ne hx]
        by_cases h : first + (e + 1) ≤ x ∧ x < first + (e + 1) + k
        · rw [if_pos h, if_pos (by omega)]
        · rw [if_neg h, if_neg (by omega)]

/-- Reversal of the numbers `a, ..., a + n - 1` which keeps the first. -/
def around (a n x : Nat) : Nat := if a < x ∧ x < a + n then 2 * a + n - x else x

theorem around_around (a n x : Nat) : around a n (around a n x) = x := by
  unfold around
  split
  · rw [if_pos (by omega)]; omega
  · rfl

theorem around_lt {a n x N : Nat} (h : a + n ≤ N) (hx : x < N) : around a n x < N := by
  unfold around
  split <;> omega

theorem valid_map {N : Nat} {f : Nat → Nat} (h1 : ∀ x, x < N → f x < N)
    (h2 : ∀ x y, x < N → y < N → f x = f y → x = y) :
    (List.range N).map f ~ List.range ((List.range N).map f).length := by
  rw [valid_iff]
  constructor
  · intro x hx
    obtain ⟨y, hy, rfl⟩ := List.mem_map.mp hx
    simpa using h1 y (List.mem_range.mp hy)
  · rw [List.nodup_map_iff_inj_on List.nodup_range]
    intro x hx y hy h
    exact h2 x y (List.mem_range.mp hx) (List.mem_range.mp hy) h

theorem ap_map_range {N x : Nat} (f : Nat → Nat) (hx : x < N) : ap ((List.range N).map f) x = f x := by
  rw [ap_lt (by simpa using hx)]; simp

/-- Output of a canonical re-sort, as far as it matters here. -/
structure Sorted (cross : List Cross) : Prop where
  rot : ∀ c ∈ cross, ∃ y, c = rotL y (rdist y)
  sorted : cross.Pairwise (fun a b => crossCmp a b ≤ 0)

theorem emapOk_ok (bs : BSearch) {m : List Nat} {os : List Or} (hm : m ~ List.range m.length) (hm1 : 1 ≤ m.length)
    (ho : ∀ o ∈ os, o = .pos ∨ o = .neg) :
    ∃ C, regenPc bs m = .ok C ∧ C.map = m ∧ emapOk ⟨C, os⟩ = .ok true := by
  obtain ⟨C, h1, h2, h3⟩ := regenPc_permOk bs hm hm1
  refine ⟨C, h1, h2, ?_⟩
  unfold emapOk
  simp only
  rw [h3, ok_bind]
  have : os.all orOk = true := by
    rw [List.all_eq_true]
    intro o hoo
    rcases ho o hoo with rfl | rfl <;> rfl
  simp [this]

theorem follows_iff_renamed {τ σ ρ : Nat → Nat} {rev : Nat → Bool}
    (h : Renamed cross edge cross' edge' τ σ ρ rev) (hC : Consistent cross edge) (hO : Oriented cross edge)
    (hA : Renamed.Along cross edge rev) {e f : Nat} (hf : Follows cross edge e f) :
    (rev e = true → Follows cross' edge' (τ f) (τ e)) ∧ (rev e = false → Follows cross' edge' (τ e) (τ f)) := by
  have := h.follows hC hO hA hf
  constructor <;> intro hr <;> simpa [hr] using this

theorem reorient_ok (qs : QSort) (bs : BSearch) {maxfaces : Nat} (hC : Consistent cross edge)
    (hO : Oriented cross edge) (h0 : cross ≠ []) (hsmall : 2 * edge.length < 2 ^ 31)
    (hroom : cross.length + 2 ≤ maxfaces) (hcon : Connected cross edge) (hP : PlaneFaces cross edge)
    (hN : Numbered cross edge comps) {cmp : Nat} {K : Comp} (hKc : comps[cmp]? = some K) {a : Nat}
    (ha : K.edge = List.range' a K.edge.length) :
    ∃ (cross' : List Cross) (edge' : List Edge) (faces : List Face) (σ ρ : Nat → Nat),
      reorientComponent qs bs maxfaces cross edge comps cmp .neg = .ok (cross', edge', some faces) ∧
      regenFaces qs maxfaces cross' edge' = .ok faces ∧
      Renamed cross edge cross' edge' (around a K.edge.length) σ ρ (fun e => decide (e ∈ K.edge)) ∧
      (∀ (c : Nat) (x x' : Cross), cross[c]? = some x → cross'[σ c]? = some x' →
        (MeetsOther cross K.edge c → x'.sign = flipSign x.sign) ∧ (¬ MeetsOther cross K.edge c → x'.sign = x.sign)) ∧
      Sorted cross' ∧ Renamed.Along cross edge (fun e => decide (e ∈ K.edge)) ∧
      Numbered cross' edge' comps := by
  have hKm := List.mem_of_getElem? hKc
  have hK := compsOf_numbered hN
  have hne := hN.ne K hKm
  have hpos : 0 < K.edge.length := List.length_pos_iff.mpr hne
  obtain ⟨a', ha', hal⟩ := comp_range hN hKm
  have haa : a' = a := by
    have h1 : K.edge[0]? = some a := by rw [ha]; simp [List.getElem?_range', hpos]
    have h2 : K.edge[0]? = some a' := by rw [ha']; simp [List.getElem?_range', hpos]
    rw [h1] at h2
    exact (Option.some.inj h2).symm
  subst haa
  have hmem : ∀ x, x ∈ K.edge ↔ a' ≤ x ∧ x < a' + K.edge.length := by
    intro x
    rw [ha']; simp
  have hget : ∀ j, j < K.edge.length → K.edge[j]? = some (a' + j) := by
    intro j hj
    rw [ha', List.getElem?_range' hj]; simp
  generalize hn : K.edge.length = n at *
  have hnext : ∀ j, j < n → Follows cross edge (a' + j) (a' + (j + 1) % n) := by
    intro j hj
    obtain ⟨e', h1, h2⟩ := hN.follows K hKm j _ (hget j hj)
    rw [hn, hget _ (Nat.mod_lt _ hpos)] at h1
    cases h1
    exact h2
  -- signs
  obtain ⟨cr1, f1, f2, f3⟩ := flipSigns_ok (edge := edge) K.edge cross (by
    intro e he
    have hel := comp_lt hK hKm he
    refine ⟨hel, ?_⟩
    have := (slot_lt (hC.head e edge[e] (List.getElem?_eq_getElem hel))).1
    unfold hc
    rwa [getElem!_pos edge e hel])
  have hR0 : Renamed cross edge cr1 edge id id (fun _ => 0) (fun _ => false) :=
    renamed_signs hC f2 (fun c x hx => ⟨_, f3 c x hx⟩)
  have hA0 : Renamed.Along cross edge (fun _ => false) := fun _ _ _ => rfl
  have hC1 := hR0.consistent hC
  have hO1 := hR0.oriented hC hO hA0
  have hK1 : CompsOf cr1 edge comps := compsOf_renamed hR0 hC hO hA0 hK (fun _ _ _ h => h)
  -- the map
  have hmap0 : ∀ x : Nat, ((List.range edge.length).set a' a')[x]? = (List.range edge.length)[x]? := by
    intro x
    by_cases hx : a' = x
    · subst hx
      rw [List.getElem?_set_self (by simp; omega), List.getElem?_range (by omega)]
    · rw [List.getElem?_set_ne hx]
  obtain ⟨m, m1, m2, m3, m4, m5⟩ := revLoop_ok a' (a' + n - 1) edge.length (n - 1) 1
    ⟨⟨(List.range edge.length).set a' a', 0⟩, (List.replicate edge.length Or.pos).set a' .neg⟩
    (by simp) (by simp) (by omega)
  have mm : m.perm.map = (List.range edge.length).map (around a' n) := by
    apply List.ext_getElem?
    intro x
    rw [m4 x, hmap0]
    by_cases hx : x < edge.length
    · rw [List.getElem?_map, List.getElem?_range hx]
      simp only [Option.map_some]
      unfold around
      by_cases h : a' + 1 ≤ x ∧ x < a' + 1 + (n - 1)
      · rw [if_pos h, if_pos (by omega)]
        congr 1
        omega
      · rw [if_neg h, if_neg (by omega)]
    · rw [if_neg (by omega), List.getElem?_eq_none (by simp; omega), List.getElem?_eq_none (by simp; omega)]
  have mo : m.orient = (List.range edge.length).map (fun x => if x ∈ K.edge then Or.neg else Or.pos) := by
    apply List.ext_getElem?
    intro x
    rw [m5 x]
    by_cases hx : x < edge.length
    · rw [List.getElem?_map, List.getElem?_range hx]
      simp only [Option.map_some, hmem]
      by_cases h : a' + 1 ≤ x ∧ x < a' + 1 + (n - 1)
      · rw [if_pos h, if_pos (by omega)]
      · rw [if_neg h]
        by_cases hxa : a' = x
        · subst hxa
          rw [List.getElem?_set_self (by simp; omega), if_pos (by omega)]
        · rw [List.getElem?_set_ne hxa, if_neg (by omega)]
          simp [hx]
    · rw [if_neg (by omega), List.getElem?_eq_none (by simp; omega), List.getElem?_eq_none (by simp; omega)]
  have hne1 : 1 ≤ edge.length := by omega
  have hval : m.perm.map ~ List.range m.perm.map.length := by
    rw [mm]
    exact valid_map (fun x hx => around_lt hal hx)
      (fun x y _ _ h => by rw [← around_around a' n x, h, around_around])
  have hop : ∀ o ∈ m.orient, o = .pos ∨ o = .neg := by
    intro o ho
    rw [mo] at ho
    obtain ⟨x, _, rfl⟩ := List.mem_map.mp ho
    split <;> simp
  obtain ⟨P, p1, p2, p3⟩ := emapOk_ok bs hval (by omega) hop
  have haK : ∀ L ∈ comps, ∀ e ∈ L.edge, around a' n e ∈ L.edge := by
    intro L hL e he
    by_cases heK : e ∈ K.edge
    · have : L = K := by
        obtain ⟨i, hi, rfl⟩ := List.getElem_of_mem hL
        have := comp_unique hK (List.getElem?_eq_getElem hi) hKc he heK
        subst this
        rw [List.getElem?_eq_getElem hi] at hKc
        exact Option.some.inj hKc
      subst this
      rw [hmem] at heK ⊢
      unfold around
      split <;> omega
    · have : around a' n e = e := by
        rw [hmem] at heK
        unfold around
        rw [if_neg (by omega)]
      rwa [this]
  have hKsame : ∀ L ∈ comps, ∀ e ∈ L.edge, ∀ f ∈ L.edge, (e ∈ K.edge ↔ f ∈ K.edge) := by
    have key : ∀ L ∈ comps, ∀ e ∈ L.edge, ∀ f ∈ L.edge, e ∈ K.edge → f ∈ K.edge := by
      intro L hL e he f hf heK
      obtain ⟨i, hi, rfl⟩ := List.getElem_of_mem hL
      have := comp_unique hK (List.getElem?_eq_getElem hi) hKc he heK
      subst this
      rw [List.getElem?_eq_getElem hi] at hKc
      rw [← Option.some.inj hKc]; exact hf
    exact fun L hL e he f hf => ⟨key L hL e he f hf, key L hL f hf e he⟩
  have h01 : cr1 ≠ [] := by
    intro h; rw [h] at f2; simp at f2; exact h0 (List.length_eq_zero_iff.mp f2.symm)
  obtain ⟨cross', edge', faces, τ, σ, ρ, g1, g2, g3, g4, g5, g6, g7, g8⟩ := applyEMap_ok qs bs (maxfaces := maxfaces)
    (m := ⟨P, m.orient⟩) hC1 hO1 h01 hsmall (by rw [f2]; exact hroom) (hR0.connected hcon) (hR0.plane hC hP) hK1 hN.ne
    (by simp only [p2, mm]; simp) (by simp only [p2]; exact hval) (by simp only [m3])
    hop
    (by
      intro L hL e he
      simp only [p2, mm]
      rw [ap_map_range _ (comp_lt hK hL he)]
      exact haK L hL e he)
    (by
      intro L hL e he f hf
      simp only [mo]
      rw [List.getElem?_map, List.getElem?_map, List.getElem?_range (comp_lt hK hL he),
        List.getElem?_range (comp_lt hK hL hf)]
      simp only [Option.map_some, hKsame L hL e he f hf])
  have hτ : ∀ e, e < edge.length → τ e = around a' n e := by
    intro e he
    have := (g2 e he).2
    have hl := g3.tlt e he
    simp only [p2, mm] at this
    rw [ap_map_range _ hl] at this
    rw [← around_around a' n (τ e), this]
  have hrev : ∀ e, e < edge.length → (m.orient[τ e]? == some Or.neg) = decide (e ∈ K.edge) := by
    intro e he
    rw [mo, List.getElem?_map, List.getElem?_range (g3.tlt e he)]
    have : τ e ∈ K.edge ↔ e ∈ K.edge := by
      rw [hτ e he, hmem, hmem]
      unfold around
      split <;> omega
    simp only [Option.map_some]
    by_cases h : e ∈ K.edge <;> simp [this, h]
  have hR1 : Renamed cr1 edge cross' edge' (around a' n) σ ρ (fun e => decide (e ∈ K.edge)) := by
    refine ⟨g3.len, g3.elen, g3.slt, g3.sinj, fun e he => around_lt hal he,
      fun e f _ _ h => by rw [← around_around a' n e, h, around_around], g3.rho, ?_, ?_⟩
    · intro c x hx
      obtain ⟨x', h1, h2⟩ := g3.cross c x hx
      refine ⟨x', h1, fun k => ?_⟩
      rw [h2, hτ]
      rw [at_lt]
      have := slot_eq_some.mpr ⟨Nat.mod_lt (k + ρ c) (by decide), x, hx, rfl⟩
      exact hC1.slot_edge_lt this
    · intro e r hr
      have he := (List.getElem?_eq_some_iff.mp hr).1
      rw [← hτ e he, ← hrev e he]
      exact g3.edge e r hr
  have hR := hR0.trans hR1 hC
  have hR : Renamed cross edge cross' edge' (around a' n) σ ρ (fun e => decide (e ∈ K.edge)) := by
    have e1 : (fun c => ρ c % 4) = ρ := by
      funext c
      have := hR1.rho c
      omega
    simp only [id, Nat.zero_add, Bool.false_xor] at hR
    rw [e1] at hR
    exact hR
  have hA : Renamed.Along cross edge (fun e => decide (e ∈ K.edge)) := by
    intro e f hf
    have hel : e < edge.length := by
      obtain ⟨r, hr, _⟩ := hf
      exact (List.getElem?_eq_some_iff.mp hr).1
    obtain ⟨j, q, L, _, h2, h3⟩ := compAndPos_ok hK hel
    have hLm := List.mem_of_getElem? h2
    simp only [hKsame L hLm e h3 f (hK.closed L hLm e f h3 hf)]
  obtain ⟨faces2, hf2⟩ := C22_faces_plane qs maxfaces cross' edge' (hR.consistent hC) (hR.oriented hC hO hA)
    (by intro h; have := hR.len; rw [h] at this; simp at this; exact h0 (List.length_eq_zero_iff.mp this.symm))
    (by rw [hR.elen]; exact hsmall) (by rw [hR.len]; exact hroom) (hR.connected hcon) (hR.plane hC hP)
  refine ⟨cross', edge', faces2, σ, ρ, ?_, hf2, hR, ?_, ⟨g5, g6⟩, hA, ?_⟩
  · unfold reorientComponent
    have hcl := (List.getElem?_eq_some_iff.mp hKc).1
    rw [assertC_ok (by simpa using hcl), ok_bind, if_pos rfl, rd_eq_ok.mpr hKc, ok_bind, f1, ok_bind,
      rd_eq_ok.mpr (hget 0 hpos), ok_bind, hn, rd_eq_ok.mpr (hget (n - 1) (by omega)), ok_bind,
      assertC_ok (by simp; omega), ok_bind, Nat.add_zero,
      wr_lt (by simp; omega), ok_bind, wr_lt (by simp; omega), ok_bind,
      show a' + (n - 1) = a' + n - 1 by omega, m1, ok_bind, p1, ok_bind, p3, ok_bind, assertC_ok rfl, ok_bind,
      g1, ok_bind]
    simp only
    rw [hf2, ok_bind]
  · intro c x x' hx hx'
    have h1 := f3 c x hx
    have h2 := g4 c _ x' h1 hx'
    have h3 := flip_count hC hO hK hKm (List.getElem?_eq_some_iff.mp hx).1 x.sign
    rw [h2]
    exact h3
  · refine ⟨by rw [hR.elen]; exact hN.all, hN.ne, ?_⟩
    intro L hL j e he
    by_cases hLK : L = K
    · subst hLK
      have hj : j < n := by
        rw [← hn]; exact (List.getElem?_eq_some_iff.mp he).1
      rw [hget j hj] at he
      cases he
      refine ⟨_, by rw [hn]; exact hget _ (Nat.mod_lt _ hpos), ?_⟩
      have h1 := hnext ((n - 1 - j) % n) (Nat.mod_lt _ hpos)
      have h2 := (follows_iff_renamed hR hC hO hA h1).1 (by
        simp only [hmem, decide_eq_true_eq]
        have := Nat.mod_lt (n - 1 - j) hpos
        omega)
      have e1 : (n - 1 - j) % n = n - 1 - j := Nat.mod_eq_of_lt (by omega)
      rw [e1] at h2
      have e2 : around a' n (a' + (n - 1 - j + 1) % n) = a' + j := by
        by_cases h : j = 0
        · subst h
          rw [show n - 1 - 0 + 1 = n by omega, Nat.mod_self]
          unfold around
          rw [if_neg (by omega)]
        · rw [Nat.mod_eq_of_lt (by omega)]
          unfold around
          rw [if_pos (by omega)]
          omega
      have e3 : around a' n (a' + (n - 1 - j)) = a' + (j + 1) % n := by
        by_cases h : j = n - 1
        · subst h
          rw [show n - 1 + 1 = n by omega, Nat.mod_self]
          unfold around
          rw [if_neg (by omega)]
          omega
        · rw [Nat.mod_eq_of_lt (a := j + 1) (by omega)]
          unfold around
          rw [if_pos (by omega)]
          omega
      rwa [e2, e3] at h2
    · obtain ⟨e', h1, h2⟩ := hN.follows L hL j e he
      have hdis : ∀ x ∈ L.edge, x ∉ K.edge := by
        intro x hx hxK
        obtain ⟨i, hi, rfl⟩ := List.getElem_of_mem hL
        have := comp_unique hK (List.getElem?_eq_getElem hi) hKc hx hxK
        subst this
        rw [List.getElem?_eq_getElem hi] at hKc
        exact hLK (Option.some.inj hKc)
      have fix : ∀ x ∈ L.edge, around a' n x = x := by
        intro x hx
        have := hdis x hx
        rw [hmem] at this
        unfold around
        rw [if_neg (by omega)]
      have h3 := (follows_iff_renamed hR hC hO hA h2).2 (by
        simpa using hdis e (List.mem_of_getElem? he))
      rw [fix e (List.mem_of_getElem? he), fix e' (List.mem_of_getElem? h1)] at h3
      exact ⟨e', h1, h3⟩

end Emap

end Plc
