import Verif.Proofs.OctTree
import Verif.Proofs.Quick
import Mathlib.Tactic.Ring
import Mathlib.Data.Nat.Size
import Mathlib.Tactic.NormNum

/-! # The edges of a curve, their tags, and their order -/

namespace Plc.Struts

open Plc.Core Plc.FindCrossings Plc.RandomPolygon Plc.Equilateral Plc.Motions Plc.Measure Plc.Poca

/-! ## The list of all edges -/

/-- The number of edges of a component. -/
def edgeCount (c : Comp) : Nat := if c.isOpen then c.vt.length - 1 else c.vt.length

theorem edge_lt {c : Comp} {v : Nat} {a b : V3} (h : EdgeAt c v a b) : v < edgeCount c := by
  unfold edgeCount
  have := h.lt
  split
  · rename_i ho
    have := h.openLt ho
    omega
  · exact this

theorem edge_at {c : Comp} {v : Nat} (h : v < edgeCount c) : ∃ a b, EdgeAt c v a b := by
  unfold edgeCount at h
  have hv : v < c.vt.length := by split at h <;> omega
  refine ⟨c.vt[v], ?_⟩
  by_cases ho : c.isOpen = true
  · rw [if_pos ho] at h
    exact ⟨c.vt[v + 1]'(by omega), List.getElem?_eq_getElem hv, by rw [if_pos ho]; exact List.getElem?_eq_getElem _⟩
  · have hm : (v + 1) % c.vt.length < c.vt.length := Nat.mod_lt _ (by omega)
    exact ⟨c.vt[(v + 1) % c.vt.length], List.getElem?_eq_getElem hv, by rw [if_neg ho]; exact List.getElem?_eq_getElem hm⟩

theorem ends_ok {c : Comp} {v : Nat} {a b : V3} (h : EdgeAt c v a b) : endsAt c v = .ok (a, b) := by
  unfold endsAt
  rw [vtAt_nat h.1, ok_bind, vtAt_next h, ok_bind]

/-- What an entry says of an edge. -/
def About (c : Comp) (i : Nat) (e : Varr) : Prop :=
  e.comp = i ∧ e.oct0 = 0 ∧ e.oct1 = 0 ∧ ∃ a b, EdgeAt c e.vert a b ∧ e.v = along a b (1 / 2) ∧ e.len = apart a b

theorem edgesComp_ok {c : Comp} {i : Nat} : ∀ (k v : Nat), v + k ≤ edgeCount c →
    ∃ es, edgesComp c i k v = .ok es ∧ (∀ e ∈ es, About c i e) ∧ es.map (fun e => (e.comp, e.vert)) = (List.range' v k).map (fun w => (i, w))
  | 0, v, _ => ⟨[], rfl, by simp, by simp⟩
  | k + 1, v, h => by
    obtain ⟨a, b, hab⟩ := edge_at (c := c) (v := v) (by omega)
    obtain ⟨es, e1, e2, e3⟩ := edgesComp_ok (c := c) (i := i) k (v + 1) (by omega)
    unfold edgesComp
    rw [ends_ok hab, ok_bind]
    simp only
    rw [e1, ok_bind]
    refine ⟨_, rfl, ?_, by rw [List.map_cons, e3, List.range'_succ, List.map_cons]⟩
    intro e he
    rcases List.mem_cons.mp he with rfl | he
    · refine ⟨rfl, rfl, rfl, a, b, hab, ?_, ?_⟩
      · simp only [along, V3.mk.injEq]
        refine ⟨?_, ?_, ?_⟩ <;> ring
      · simp only [norm3, apart, distSq, V3.dot, V3.sub]
        congr 1; ring
    · exact e2 e he

theorem edgesAll_ok : ∀ (cs : List Comp) (i : Nat), ∃ es, edgesAll cs i = .ok es ∧
    (∀ e ∈ es, ∃ (m : Nat) (c : Comp), cs[m]? = some c ∧ About c (i + m) e) ∧
    (∀ (m : Nat) (c : Comp) (v : Nat) (a b : V3), cs[m]? = some c → EdgeAt c v a b → ∃ e ∈ es, e.comp = i + m ∧ e.vert = v) ∧
    (es.map fun e => (e.comp, e.vert)).Nodup
  | [], i => ⟨[], rfl, by simp, by simp, by simp⟩
  | c :: cs, i => by
    obtain ⟨es, a1, a2, a3⟩ := edgesComp_ok (c := c) (i := i) (edgeCount c) 0 (by omega)
    obtain ⟨rs, b1, b2, b3, b4⟩ := edgesAll_ok cs (i + 1)
    unfold edgesAll
    unfold edgeCount at a1
    rw [a1, ok_bind, b1, ok_bind]
    refine ⟨_, rfl, ?_, ?_, ?_⟩
    · intro e he
      rcases List.mem_append.mp he with he | he
      · exact ⟨0, c, rfl, a2 e he⟩
      · obtain ⟨m, c', h1, h2⟩ := b2 e he
        exact ⟨m + 1, c', h1, by rw [show i + (m + 1) = i + 1 + m by omega]; exact h2⟩
    · intro m d v a b hm hv
      rcases m with _ | m
      · simp only [List.getElem?_cons_zero, Option.some.injEq] at hm
        subst hm
        have : ((i, v) : Nat × Nat) ∈ es.map (fun e => (e.comp, e.vert)) := by
          rw [a3]
          refine List.mem_map.mpr ⟨v, ?_, rfl⟩
          rw [List.mem_range'_1]
          have := edge_lt hv
          omega
        obtain ⟨e, he, hk⟩ := List.mem_map.mp this
        simp only [Prod.mk.injEq] at hk
        exact ⟨e, List.mem_append_left _ he, hk.1, hk.2⟩
      · obtain ⟨e, he, h1, h2⟩ := b3 m d v a b hm hv
        exact ⟨e, List.mem_append_right _ he, by omega, h2⟩
    · rw [List.map_append, List.nodup_append]
      refine ⟨?_, b4, ?_⟩
      · rw [a3]
        exact List.Nodup.map (fun x y h => by simpa using h) List.nodup_range'
      · intro x hx y hy hxy
        obtain ⟨e, he, rfl⟩ := List.mem_map.mp hx
        obtain ⟨e', he', rfl⟩ := List.mem_map.mp hy
        obtain ⟨m, c', h1, h2, _⟩ := b2 e' he'
        have := (a2 e he).1
        simp only [Prod.mk.injEq] at hxy
        omega

theorem edgesAll_length : ∀ (cs : List Comp) (i : Nat) (es : List Varr), edgesAll cs i = .ok es → es.length = (cs.map edgeCount).sum
  | [], i, es, h => by
    unfold edgesAll at h
    simp only [Except.ok.injEq] at h
    rw [← h]; rfl
  | c :: cs, i, es, h => by
    obtain ⟨xs, a1, a2, a3⟩ := edgesComp_ok (c := c) (i := i) (edgeCount c) 0 (by omega)
    unfold edgesAll at h
    unfold edgeCount at a1
    rw [a1, ok_bind] at h
    obtain ⟨rs, hr, h⟩ := bind_ok_iff.mp h
    simp only [Except.ok.injEq] at h
    have := edgesAll_length cs (i + 1) rs hr
    have h3 := congrArg List.length a3
    simp only [List.length_map, List.length_range'] at h3
    rw [← h, List.length_append, List.map_cons, List.sum_cons, this, h3]

/-! ## Tags -/

/-- All but the tag. -/
def core (e : Varr) : V3 × ℝ × Nat × Nat := (e.v, e.len, e.comp, e.vert)

/-- The edges are the same but for the tags. -/
def Same (es es' : List Varr) : Prop := es'.map core = es.map core

/-- The tags are small. -/
def Fit (L : Nat) (es : List Varr) : Prop := ∀ e ∈ es, e.oct0 < 8 ^ (L - 11) ∧ e.oct1 < 8 ^ min 10 (L - 1)

theorem spread_lt : ∀ (k c : Nat), c < 2 ^ k → 7 * spread c < 8 ^ k
  | 0, c, h => by
    have : c = 0 := by simp at h; exact h
    subst this
    rw [spread]; simp
  | k + 1, c, h => by
    rw [spread]
    split
    · simp
    · have := spread_lt k (c / 2) (by rw [Nat.pow_succ] at h; omega)
      rw [Nat.pow_succ]
      omega

theorem or_shift_lt {k o x sh : Nat} (hx : x < 8 ^ k) (ho : 7 * o < 8 ^ k) (hs : sh ≤ 2) : x ||| (o <<< sh) < 8 ^ k := by
  have h8 : (8 : Nat) ^ k = 2 ^ (3 * k) := by rw [Nat.pow_mul]
  have : o <<< sh < 8 ^ k := by
    rw [Nat.shiftLeft_eq]
    have : 2 ^ sh ≤ 4 := by
      have : sh = 0 ∨ sh = 1 ∨ sh = 2 := by omega
      rcases this with rfl | rfl | rfl <;> norm_num
    nlinarith
  rw [h8] at hx this ⊢
  exact Nat.or_lt_two_pow hx this

theorem orTag_ok {ix : List Nat} {v o1 o2 sh L : Nat} {es : List Varr} (hv : v < ix.length) (hix : ∀ i ∈ ix, i < es.length) (hF : Fit L es)
    (h1 : 7 * o1 < 8 ^ (L - 11)) (h2 : 7 * o2 < 8 ^ min 10 (L - 1)) (hs : sh ≤ 2) : ∃ es', orTag ix v o1 o2 sh es = .ok es' ∧ Same es es' ∧ Fit L es' := by
  unfold orTag
  have hi := hix ix[v] (List.getElem_mem hv)
  rw [rd_lt hv, ok_bind, rd_lt hi, ok_bind, wr_lt hi]
  refine ⟨_, rfl, ?_, ?_⟩
  · unfold Same
    rw [List.map_set]
    apply List.ext_getElem
    · simp
    · intro n h _
      rw [List.getElem_set]
      split
      · rename_i h; subst h; simp [core]
      · rfl
  · intro e he
    rcases List.mem_or_eq_of_mem_set he with he | rfl
    · exact hF e he
    · obtain ⟨f1, f2⟩ := hF es[ix[v]] (List.getElem_mem hi)
      exact ⟨or_shift_lt f1 h1 hs, or_shift_lt f2 h2 hs⟩

theorem Same.len {es es' : List Varr} (h : Same es es') : es'.length = es.length := by
  have := congrArg List.length h
  simpa using this

theorem Same.trans {a b c : List Varr} (h : Same a b) (h' : Same b c) : Same a c := by unfold Same at *; rw [h', h]

theorem tagInner_ok {xs ys zs : List Nat} {n ppb cnt L : Nat} (hx : xs.length = n ∧ ∀ i ∈ xs, i < n) (hy : ys.length = n ∧ ∀ i ∈ ys, i < n)
    (hz : zs.length = n ∧ ∀ i ∈ zs, i < n) (hL : L ≤ 21) (hc : cnt < 2 ^ (L - 1)) : ∀ (k c : Nat) (es : List Varr), es.length = n → Fit L es →
    ∃ es', tagInner xs ys zs n ppb cnt k c es = .ok es' ∧ Same es es' ∧ Fit L es'
  | 0, c, es, _, hF => ⟨es, rfl, rfl, hF⟩
  | k + 1, c, es, hl, hF => by
    unfold tagInner
    by_cases hv : cnt * ppb + c < n
    swap
    · rw [if_neg hv]; exact ⟨es, rfl, rfl, hF⟩
    rw [if_pos hv]
    have hp : (2 : Nat) ^ (L - 1) ≤ 2 ^ 20 := Nat.pow_le_pow_right (by norm_num) (by omega)
    have a1 : cnt / 1024 < 1024 := by
      norm_num at hp
      omega
    have a2 : cnt &&& 1023 = cnt % 1024 := Nat.and_two_pow_sub_one_eq_mod cnt 10
    have b1 : cnt / 1024 < 2 ^ (L - 11) := by
      by_cases h : 11 ≤ L
      · rw [Nat.div_lt_iff_lt_mul (by norm_num), show (1024 : Nat) = 2 ^ 10 by norm_num, ← Nat.pow_add, show L - 11 + 10 = L - 1 by omega]
        exact hc
      · have : (2 : Nat) ^ (L - 1) ≤ 2 ^ 10 := Nat.pow_le_pow_right (by norm_num) (by omega)
        norm_num at this
        rw [show L - 11 = 0 by omega]
        simp; omega
    have b2 : cnt % 1024 < 2 ^ min 10 (L - 1) := by
      rcases Nat.le_total 10 (L - 1) with h | h
      · rw [Nat.min_eq_left h]; norm_num; exact Nat.mod_lt _ (by norm_num)
      · rw [Nat.min_eq_right h]; exact lt_of_le_of_lt (Nat.mod_le _ _) hc
    have c1 : binToOct (cnt / 1024) = .ok (spread (cnt / 1024)) := by unfold binToOct; rw [if_pos a1]
    have c2 : binToOct (cnt &&& 1023) = .ok (spread (cnt % 1024)) := by
      unfold binToOct; rw [a2, if_pos (Nat.mod_lt _ (by norm_num))]
    rw [c1, ok_bind, c2, ok_bind]
    have d1 := spread_lt _ _ b1
    have d2 := spread_lt _ _ b2
    obtain ⟨e1, p1, q1, r1⟩ := orTag_ok (sh := 0) (ix := xs) (v := cnt * ppb + c) (by omega) (by rw [hl]; exact hx.2) hF d1 d2 (by omega)
    rw [p1, ok_bind]
    have l1 := q1.len
    obtain ⟨e2, p2, q2, r2⟩ := orTag_ok (sh := 1) (ix := ys) (v := cnt * ppb + c) (by omega) (by rw [l1, hl]; exact hy.2) r1 d1 d2 (by omega)
    rw [p2, ok_bind]
    have l2 := q2.len
    obtain ⟨e3, p3, q3, r3⟩ := orTag_ok (sh := 2) (ix := zs) (v := cnt * ppb + c) (by omega) (by rw [l2, l1, hl]; exact hz.2) r2 d1 d2 (by omega)
    rw [p3, ok_bind]
    have l3 := q3.len
    obtain ⟨es', p4, q4, r4⟩ := tagInner_ok hx hy hz hL hc k (c + 1) e3 (by omega) r3
    exact ⟨es', p4, ((q1.trans q2).trans q3).trans q4, r4⟩

theorem tagLoop_ok {xs ys zs : List Nat} {n ppb L : Nat} (hx : xs.length = n ∧ ∀ i ∈ xs, i < n) (hy : ys.length = n ∧ ∀ i ∈ ys, i < n)
    (hz : zs.length = n ∧ ∀ i ∈ zs, i < n) (hL : L ≤ 21) : ∀ (k cnt : Nat) (es : List Varr), cnt + k ≤ 2 ^ (L - 1) → es.length = n → Fit L es →
    ∃ es', tagLoop xs ys zs n ppb k cnt es = .ok es' ∧ Same es es' ∧ Fit L es'
  | 0, cnt, es, _, _, hF => ⟨es, rfl, rfl, hF⟩
  | k + 1, cnt, es, hc, hl, hF => by
    unfold tagLoop
    obtain ⟨e1, p1, q1, r1⟩ := tagInner_ok (ppb := ppb) (cnt := cnt) hx hy hz hL (by omega) ppb 0 es hl hF
    rw [p1, ok_bind]
    obtain ⟨e2, p2, q2, r2⟩ := tagLoop_ok hx hy hz hL k (cnt + 1) e1 (by omega) (by rw [q1.len]; exact hl) r1
    exact ⟨e2, p2, q1.trans q2, r2⟩

theorem coordWeak (es : List Varr) (g : V3 → ℝ) : Weak (coordLt es g) := by
  constructor
  · intro a b h
    simp only [coordLt, decide_eq_true_eq, decide_eq_false_iff_not, not_lt] at *
    exact h.le
  · intro a b c h h'
    simp only [coordLt, decide_eq_false_iff_not, not_lt] at *
    exact le_trans h h'

theorem tagWeak : Weak tagLt := by
  constructor
  · intro a b h
    simp only [tagLt, decide_eq_true_eq, decide_eq_false_iff_not] at *
    omega
  · intro a b c h h'
    simp only [tagLt, decide_eq_false_iff_not] at *
    omega

theorem index_ok (es : List Varr) (g : V3 → ℝ) (hn : 0 < es.length) :
    ∃ xs, Quick.sort (coordLt es g) .careful es.length 0 (es.length - 1) (List.range es.length) = .ok xs ∧ xs.length = es.length ∧ ∀ i ∈ xs, i < es.length := by
  obtain ⟨xs, e, s, _⟩ := Quick.sort_ok (coordWeak es g) (front := .careful) trivial es.length 0 (es.length - 1) (List.range es.length) (by simp; omega) (by omega)
    (by omega)
  refine ⟨xs, e, by rw [s.length, List.length_range], fun i hi => ?_⟩
  have := s.perm.mem_iff.mp hi
  simpa using this

theorem tagged_ok {es : List Varr} {L ppb : Nat} (hn : 0 < es.length) (hL : L ≤ 21) (hF : Fit L es) :
    ∃ es', tagged es L ppb = .ok es' ∧ Same es es' ∧ Fit L es' := by
  unfold tagged
  obtain ⟨xs, x1, x2⟩ := index_ok es V3.x hn
  obtain ⟨ys, y1, y2⟩ := index_ok es V3.y hn
  obtain ⟨zs, z1, z2⟩ := index_ok es V3.z hn
  simp only
  rw [x1, ok_bind, y1, ok_bind, z1, ok_bind]
  exact tagLoop_ok x2 y2 z2 hL _ 1 es (by have : 0 < 2 ^ (L - 1) := by positivity
                                          omega) rfl hF

theorem edgesOf_congr {cp : List Comp} {es es' : List Varr} (h : (es'.map core).Perm (es.map core)) (hes : EdgesOf cp es) : EdgesOf cp es' := by
  have mem : ∀ e' ∈ es', ∃ e ∈ es, core e = core e' := by
    intro e' he'
    exact List.mem_map.mp (h.mem_iff.mp (List.mem_map_of_mem he'))
  have mem' : ∀ e ∈ es, ∃ e' ∈ es', core e' = core e := by
    intro e he
    exact List.mem_map.mp (h.mem_iff.mpr (List.mem_map_of_mem he))
  constructor
  · intro e' he'
    obtain ⟨e, he, hc⟩ := mem e' he'
    simp only [core, Prod.mk.injEq] at hc
    obtain ⟨c, a, b, h1, h2, h3, h4⟩ := hes.real e he
    rw [hc.1, hc.2.1, hc.2.2.1, hc.2.2.2] at *
    exact ⟨c, a, b, h1, h2, h3, h4⟩
  · intro i c v a b h1 h2
    obtain ⟨e, he, e1, e2⟩ := hes.all i c v a b h1 h2
    obtain ⟨e', he', hc⟩ := mem' e he
    simp only [core, Prod.mk.injEq] at hc
    exact ⟨e', he', by rw [hc.2.2.1, e1], by rw [hc.2.2.2, e2]⟩
  · have hk : ∀ l : List Varr, l.map (fun e => (e.comp, e.vert)) = (l.map core).map (fun x => (x.2.2.1, x.2.2.2)) := by
      intro l; rw [List.map_map]; rfl
    rw [hk]
    have := hes.once
    rw [hk] at this
    exact (h.map _).nodup_iff.mpr this

theorem levels_pos {req n : Nat} : 0 < levels req n ↔ 0 < n := by
  unfold levels log2
  have : 0 < Nat.size n ↔ 0 < n := Nat.size_pos
  split <;> omega

/-- The edges, sorted by tags. -/
theorem sorted_ready {cp : List Comp} {es : List Varr} {L : Nat} (hL : 0 < L) (hes : EdgesOf cp es) (hF : Fit L es) (hn : 0 < es.length) {front : Varr} :
    ∃ es', Quick.sort tagLt (.peek (some front)) es.length 0 (es.length - 1) es = .ok es' ∧ EdgesOf cp es' ∧ Ready cp es' L ∧ es'.length = es.length := by
  obtain ⟨es', e, s, o⟩ := Quick.sort_ok tagWeak (front := .peek (some front)) (by simp [Quick.Front.fine]) es.length 0 (es.length - 1) es (by omega) (by omega) (by omega)
  have hE := edgesOf_congr (s.perm.map core) hes
  have hF' : Fit L es' := fun e he => hF e (s.perm.mem_iff.mp he)
  have hm : ∀ e ∈ es', e.oct1 < 8 ^ 10 := fun e he => lt_of_lt_of_le (hF' e he).2 (Nat.pow_le_pow_right (by norm_num) (Nat.min_le_left _ _))
  refine ⟨es', e, hE, ⟨hL, ?_, ?_, ?_⟩, s.length⟩
  · intro e he
    refine ⟨hm e he, ?_⟩
    obtain ⟨f1, f2⟩ := hF' e he
    unfold tag
    by_cases h : 11 ≤ L
    · have h10 := hm e he
      rw [show L - 1 = (L - 11) + 10 by omega, Nat.pow_add]
      nlinarith
    · rw [show L - 11 = 0 by omega] at f1
      rw [Nat.min_eq_right (by omega)] at f2
      have : e.oct0 = 0 := by simpa using f1
      rw [this]
      omega
  · intro i j a b hij hi hj
    rcases Nat.lt_or_ge i j with h | h
    · have hj' := (List.getElem?_eq_some_iff.mp hj).1
      have := o i j a b (by omega) h (by rw [← s.length]; omega) hi hj
      have h1 := hm a (List.mem_of_getElem? hi)
      have h2 := hm b (List.mem_of_getElem? hj)
      simp only [tagLt, decide_eq_false_iff_not] at this
      unfold tag
      omega
    · have : i = j := by omega
      subst this
      rw [hi] at hj
      simp only [Option.some.injEq] at hj
      rw [hj]
  · intro e he
    obtain ⟨c, a, b, h1, h2, _⟩ := hE.real e he
    refine ⟨a, b, c, ?_, h1, h2⟩
    unfold ends
    rw [rd_ok h1, ok_bind, ends_ok h2]

theorem edges_ok (cp : List Comp) : ∃ es, edgesAll cp 0 = .ok es ∧ EdgesOf cp es ∧ ∀ L, Fit L es := by
  obtain ⟨es, e, h1, h2, h3⟩ := edgesAll_ok cp 0
  refine ⟨es, e, ⟨?_, ?_, h3⟩, ?_⟩
  · intro e he
    obtain ⟨m, c, hc, h, _, _, a, b, g⟩ := h1 e he
    rw [Nat.zero_add] at h
    exact ⟨c, a, b, by rw [h]; exact hc, g⟩
  · intro i c v a b hc hv
    have := h2 i c v a b hc hv
    rwa [Nat.zero_add] at this
  · intro L e he
    obtain ⟨m, c, hc, h, o0, o1, _⟩ := h1 e he
    rw [o0, o1]
    exact ⟨by positivity, by positivity⟩

theorem build_ok (cp : List Comp) (hn : ∃ c ∈ cp, ∃ v a b, EdgeAt c v a b) (front : Varr) (req : Nat) :
    ∃ T, buildOctree (some front) req cp = .ok T ∧ EdgesOf cp T.es ∧ OctreeOf cp T.es T.boxes T.depth T.root ∧ T.depth = levels req T.es.length ∧
      T.es.length = (cp.map edgeCount).sum := by
  obtain ⟨es, e, hes, hF⟩ := edges_ok cp
  obtain ⟨c, hc, v, a, b, hv⟩ := hn
  obtain ⟨i, hi⟩ := List.getElem?_of_mem hc
  obtain ⟨e0, he0, _⟩ := hes.all i c v a b hi hv
  have hl : 0 < es.length := List.length_pos_of_mem he0
  unfold buildOctree
  rw [e, ok_bind]
  simp only
  obtain ⟨L, eL⟩ : ∃ L, L = levels req es.length := ⟨_, rfl⟩
  have hL : 0 < L := by rw [eL]; exact levels_pos.mpr hl
  have hL' : L ≤ 21 := by rw [eL]; unfold levels; omega
  rw [← eL, if_neg (by omega)]
  obtain ⟨ppb, ep⟩ : ∃ p, p = max ((es.length + 2 ^ (L - 1) - 1) / 2 ^ (L - 1)) 1 := ⟨_, rfl⟩
  rw [← ep]
  obtain ⟨e1, p1, q1, r1⟩ := tagged_ok (ppb := ppb) hl hL' (hF L)
  rw [p1, ok_bind]
  have h1 : EdgesOf cp e1 := edgesOf_congr (by rw [q1]) hes
  obtain ⟨e2, p2, q2, r2, l2⟩ := sorted_ready (front := front) hL h1 r1 (by rw [q1.len]; exact hl)
  rw [p2, ok_bind]
  have l1 := q1.len
  obtain ⟨bs, root, p3, q3⟩ := boxesOf_ok (ppb := ppb) r2 (by omega)
  rw [p3, ok_bind]
  exact ⟨_, rfl, q2, q3, by simp only; rw [l2, l1, eL], by simp only; rw [l2, l1]; exact edgesAll_length _ _ _ e⟩

theorem build_empty (cp : List Comp) (hn : ∀ c ∈ cp, ∀ v a b, ¬ EdgeAt c v a b) (front : Option Varr) (req : Nat) :
    buildOctree front req cp = .error .ub := by
  obtain ⟨es, e, hes, _⟩ := edges_ok cp
  have : es = [] := by
    rcases es with _ | ⟨x, r⟩
    · rfl
    · obtain ⟨c, a, b, h1, h2, _⟩ := hes.real x (by simp)
      exact absurd h2 (hn c (List.mem_of_getElem? h1) _ _ _)
  unfold buildOctree
  rw [e, ok_bind, this]
  have : levels req 0 = 0 := by
    have := levels_pos (req := req) (n := 0)
    omega
  simp [this]

end Plc.Struts
